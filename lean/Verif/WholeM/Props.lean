import Verif.WholeM.Sim

/-!
C64: a whole program whose tasks share memory, from `sync_wait` to the destructor of the pool. `K` calls of `sync_wait`, from any threads; `dep i j`: call `i`
is made after call `j` is over. `Mem.Disc`: the rules of C56, for tasks that also read and write. `Mem.RaceFree` (C62): no execution of the
fork/join machine has a data race. `Mem.Runs`: tasks run one after another by one thread.
-/
namespace Verif.WholeM
open Verif.Runtime (Res Ev)
open Verif.LazyPool (Cfg St)
open Verif.Exn (XS Choice goOn Ends)
open Verif.Mem (Act Acc ctl put Disc disc_ctl subs ReachAny Runs SerM RaceFree Mono)
open Verif.Whole (Caller Actor Res.map early map_ok map_ub)
open Verif.WholeX (X)

variable {σ V E L : Type} [Inhabited E] [DecidableEq L] {c : Cfg} {body : σ → Act σ V E L} {pend : σ → Nat} {dirty : σ → Prop} {may : E → Prop} {K : Nat}
  {root : Nat → σ} {dep : Nat → Nat → Prop} {m : L → E}

/-- Which tasks may run at the same time: those of calls of `sync_wait` that are not ordered. -/
def Together (K : Nat) (root : Nat → σ) (dep : Nat → Nat → Prop) (O : σ → Prop) (y : σ) : Prop :=
  ∃ i, i < K ∧ y = root i ∧ ∀ y', O y' → ∃ j, j < K ∧ j ≠ i ∧ ¬ dep i j ∧ ¬ dep j i ∧ y' = root j

omit [Inhabited E] [DecidableEq L] in
theorem together_mono : Mono (Together K root dep) := fun _ _ h _ ⟨i, h1, h2, h3⟩ => ⟨i, h1, h2, fun y' hy => h3 y' (h y' hy)⟩

theorem ctl_switch (hN : 0 < c.N) (hsw : ∀ x d k h, body x = .switch d k h → d < c.N) (x : σ) (d : Nat) (k : σ) (h : E → σ)
    (e : ctl body x = .switch d k h) : d < c.N := by
  unfold ctl at e
  split at e <;> cases e
  · exact hsw _ _ _ _ ‹_›
  · exact hN
  · exact hN

section
variable (hc : c.Ok) (hd : Disc body pend dirty) (hp : ∀ x, pend x ≤ 65534) (hN : 0 < c.N) (hsw : ∀ x d k h, body x = .switch d k h → d < c.N)
  (hroot : ∀ i, i < K → pend (root i) = 0)

include hc hd hp hroot

/-- C64: whatever the pool, its workers, the sleeping and waking and the callers do, the tasks and the memory are those of an execution of the runtime
as in C61-C63, hence (C61) of the fork/join machine. -/
theorem C64_refines {s : Y σ V E L} (h : Reach c body may K root dep m s) : ReachAny body pend may (Together K root dep) m s.mem :=
  reach_mem hc hd hp hroot (fun _ i hi h => ⟨i, hi, rfl, h⟩) h

/-- C64: if no execution of the fork/join machine has a data race, no two workers are ever about to access the same location, one of them to write it. -/
theorem C64_no_race (hrf : RaceFree body may (Together K root dep) m) {s : Y σ V E L} (h : Reach c body may K root dep m s) : ¬ s.mem.Race body :=
  Mem.C62_no_race hd hrf (Mem.C61_bounded hd hp (C64_refines hc hd hp hroot h)).1

include hN hsw in
/-- C64: nothing undefined happens, but (C58) that two threads are in the pool's random number generator. -/
theorem C64_no_ub {s : Y σ V E L} (h : Reach c body may K root dep m s) {a : Actor} (st : Step c body may K root dep a s .ub) :
    ∃ i k, i ≠ k ∧ a = .caller i ∧ s.x.caller i = .before ∧ k < K ∧ s.x.caller k = .picking :=
  WholeX.C60_no_ub hc (disc_ctl hd) hp (ctl_switch hN hsw) hroot (reach_x h) (step_x st)

include hN hsw in
/-- C64: nobody gets stuck. -/
theorem C64_progress {s : Y σ V E L} (h : Reach c body may K root dep m s) {a : Actor} (hr : WholeX.ready c s.x a) :
    ∃ s', Step c body may K root dep a s (.ok s') := by
  by_cases hacc : ∃ w f y, a = .worker w ∧ w < c.N ∧ InTask s.x w f y ∧ ((∃ l k, body y = .load l k) ∨ ∃ l d k, body y = .store l d k)
  · obtain ⟨w, f, y, rfl, hw, hin, ⟨l, k, hb⟩ | ⟨l, d, k, hb⟩⟩ := hacc
    · exact ⟨_, .load s w f y l k hw hin hb⟩
    · exact ⟨_, .store s w f y l d k hw hin hb⟩
  · obtain ⟨x', st⟩ := WholeX.progress hc (disc_ctl hd) hp (ctl_switch hN hsw) hroot hN (reach_x h) hr may
    refine ⟨_, .other s a (.ok x') st (fun w f y e hin => ?_) (fun i e hb => ?_)⟩
    · subst e
      have hw : w < c.N := hr.1
      exact ⟨fun l k hb => hacc ⟨w, f, y, rfl, hw, hin, .inl ⟨l, k, hb⟩⟩, fun l d k hb => hacc ⟨w, f, y, rfl, hw, hin, .inr ⟨l, d, k, hb⟩⟩⟩
    · subst e
      simp only [WholeX.ready, hb] at hr

/-- C64: once all the calls of `sync_wait` are over, memory and what they have returned or thrown are what they are if the root tasks are run one after
another by one thread, in some order in which no call comes before one it was made after; if there are no data races. -/
theorem C64_result (hrf : RaceFree body may (Together K root dep) m) {s : Y σ V E L} (h : Reach c body may K root dep m s)
    (hb : ∀ i, i < K → ∃ r, s.x.caller i = .back r) :
    ∃ l : List (Nat × Except E V), (l.map Prod.fst).Nodup ∧ (∀ i, i ∈ l.map Prod.fst ↔ i < K) ∧ (∀ q ∈ l, s.x.caller q.1 = .back q.2) ∧
      l.Pairwise (fun q q' => ¬ dep q.1 q'.1) ∧ Runs body may m (l.map fun q => (root q.1, q.2)) s.m := by
  obtain ⟨fr, js, hcl⟩ := calls h
  have hr := C64_refines hc hd hp hroot h
  obtain ⟨hr, _⟩ := Mem.C61_bounded hd hp hr
  have hmem : ∀ i, i ∈ js ↔ i < K := by
    intro i
    rw [hcl.mem]
    refine ⟨And.left, fun hi => ⟨hi, ?_⟩⟩
    obtain ⟨r, e⟩ := hb i hi
    rw [e]; rfl
  have hdone : ∀ i, i < K → ∃ r, s.x.caller i = .back r ∧ Ev.done (fr i) r ∈ s.x.x.c.log := fun i hi => by
    obtain ⟨r, e⟩ := hb i hi
    exact ⟨r, e, hcl.back i r e⟩
  obtain ⟨ls, g1, g2, g3⟩ := Mem.C62_runtime hd (fun O y ⟨i, hi, e, _⟩ => by rw [e]; exact hroot i hi) together_mono hrf hr (fun f y w hf => by
    have hf' : (f, y) ∈ subs s.x.x.c.log := Mem.mem_subs.2 ⟨w, hf⟩
    rw [hcl.subs] at hf'
    obtain ⟨k, hk, e⟩ := List.mem_map.1 hf'
    cases e
    obtain ⟨r, _, h2⟩ := hdone k ((hmem k).1 hk)
    exact ⟨r, h2⟩)
  have hl : Runtime.Legal s.x.x.c.log := WholeX.C60_history hc (disc_ctl hd) hp hroot (reach_x h)
  have uniq : ∀ {f : Nat} {r r' : Except E V}, Ev.done f r ∈ s.x.x.c.log → Ev.done f r' ∈ s.x.x.c.log → r = r' := by
    intro f r r' h1 h2
    have e1 := Mem.done_mode hl h1
    rw [Mem.done_mode hl h2] at e1
    cases e1; rfl
  have g1' : ls.map (fun p => (p.1, p.2.1)) = js.reverse.map fun i => (fr i, root i) := by
    rw [g1, List.map_reverse]
    rw [← hcl.subs]
    rfl
  have key : ∀ (ks : List Nat) (ls : List (Nat × σ × Except E V)), ls.map (fun p => (p.1, p.2.1)) = ks.map (fun i => (fr i, root i)) →
      (∀ p ∈ ls, Ev.done p.1 p.2.2 ∈ s.x.x.c.log) → (∀ i ∈ ks, i < K) →
      ∃ l : List (Nat × Except E V), l.map Prod.fst = ks ∧ (∀ q ∈ l, s.x.caller q.1 = .back q.2) ∧ l.map (fun q => (root q.1, q.2)) = ls.map Prod.snd := by
    intro ks
    induction ks with
    | nil =>
      intro ls e _ _
      have : ls = [] := by simpa using e
      subst this
      exact ⟨[], rfl, by simp, rfl⟩
    | cons k ks ih =>
      intro ls e h1 h2
      cases ls with
      | nil => cases e
      | cons p ls =>
        obtain ⟨f, y, r⟩ := p
        simp only [List.map_cons, List.cons.injEq, Prod.mk.injEq] at e
        obtain ⟨⟨rfl, rfl⟩, e⟩ := e
        obtain ⟨l, a1, a2, a3⟩ := ih ls e (fun p hp => h1 p (List.mem_cons_of_mem _ hp)) (fun i hi => h2 i (List.mem_cons_of_mem _ hi))
        refine ⟨(k, r) :: l, by simp [a1], ?_, by simp [a3]⟩
        intro q hq
        rcases List.mem_cons.1 hq with rfl | hq
        · obtain ⟨r', b1, b2⟩ := hdone k (h2 k (List.mem_cons_self ..))
          have : r = r' := uniq (h1 _ (List.mem_cons_self ..)) b2
          rw [this]; exact b1
        · exact a2 q hq
  obtain ⟨l, a1, a2, a3⟩ := key _ _ g1' g2 (fun i hi => (hmem i).1 (List.mem_reverse.1 hi))
  refine ⟨l, ?_, ?_, a2, ?_, by rw [a3]; exact g3⟩
  · rw [a1]; exact List.pairwise_reverse.2 (hcl.nodup.imp fun h => h.symm)
  · intro i; rw [a1, List.mem_reverse]; exact hmem i
  · have : (l.map Prod.fst).Pairwise fun i j => ¬ dep i j := by rw [a1]; exact List.pairwise_reverse.2 hcl.ord
    exact (List.pairwise_map.1 this)

/-- C64: the same for one call. -/
theorem C64_result_single (hK : K = 1) (hrf : RaceFree body may (Together K root dep) m) {s : Y σ V E L} (h : Reach c body may K root dep m s)
    {r : Except E V} (hb : s.x.caller 0 = .back r) : SerM body may (root 0) [] [] m r s.m := by
  subst hK
  obtain ⟨l, h1, h2, h3, _, h5⟩ := C64_result hc hd hp hroot hrf h (fun i hi => ⟨r, by have : i = 0 := by omega
                                                                                       rw [this]; exact hb⟩)
  match l with
  | [] => exact absurd ((h2 0).2 (by omega)) (by simp)
  | [(i, r')] =>
    have hi := (h2 i).1 (by simp)
    have : i = 0 := by omega
    subst this
    have := h3 (0, r') (by simp)
    rw [hb] at this
    cases this
    cases h5 with
    | cons a b => cases b; exact a
  | (i, _) :: (j, _) :: l =>
    have hi := (h2 i).1 (by simp)
    have hj := (h2 j).1 (by simp)
    have : i = j := by omega
    simp [this] at h1

omit hc hd hp hroot in
/-- The control of an infinite schedule. -/
def runX (r : Fair.Run (system c body may K root dep m)) : Fair.Run (WholeX.system c (ctl body) (fun _ => True) K root) where
  st t := (r.st t).x
  who := r.who
  start := by obtain ⟨y, e⟩ := r.start; exact ⟨y, by rw [e]; rfl⟩
  next t := by
    rcases r.next t with ⟨h1, h2⟩ | ⟨a, h1, h2⟩
    · exact .inl ⟨h1, by rw [h2]⟩
    · exact .inr ⟨a, h1, step_x h2⟩

omit hc hd hp hroot in
theorem run_reach (r : Fair.Run (system c body may K root dep m)) (few : ∀ t, LazyPool.Few c (r.st t).x.l) (t : Nat) :
    Reach c body may K root dep m (r.st t) := by
  induction t with
  | zero => obtain ⟨x, e⟩ := r.start; rw [e]; exact .start x
  | succ t ih =>
    rcases r.next t with ⟨_, e⟩ | ⟨a, _, st⟩
    · rw [e]; exact ih
    · exact ih.step (few t) st

include hN hsw in
/-- C64: every call of `sync_wait` returns or throws, in every fair schedule, if every root task run by one thread ends, whatever it finds in memory. -/
theorem C64_returns (hE : ∀ i, i < K → ∃ n, Ends (ctl body) (fun _ => True) (root i) [] [] n) {r : Fair.Run (system c body may K root dep m)}
    (hf : r.Fair) (few : ∀ t, LazyPool.Few c (r.st t).x.l) {t i : Nat} (hcall : (r.st t).x.caller i ≠ .before) :
    ∃ t' v, t ≤ t' ∧ (r.st t').x.caller i = .back v := by
  obtain ⟨t', v, h1, h2, _⟩ := WholeX.C60_returns hc (disc_ctl hd) hp (ctl_switch hN hsw) hroot hE (r := runX r) hf few hcall
  exact ⟨t', v, h1, h2⟩

omit hc hd hp hroot in
theorem back_stays (r : Fair.Run (system c body may K root dep m)) {t i : Nat} {v : Except E V} (h : (r.st t).x.caller i = .back v) :
    ∀ u, t ≤ u → (r.st u).x.caller i = .back v := by
  refine r.keep (fun s => s.x.caller i = .back v) h fun u a _ hu st => ?_
  have st := step_x st
  simp only [Res.map] at st
  generalize hr : Res.ok (r.st (u + 1)).x = res at st
  cases st with
  | begin _ k h1 h2 h3 =>
    injection hr with e
    rw [e]
    show EventCount.upd _ k _ i = _
    have : i ≠ k := by rintro rfl; rw [hu] at h2; cases h2
    rw [EventCount.upd_ne _ _ this]; exact hu
  | submit _ k d h1 h2 h3 =>
    injection hr with e
    rw [e]
    show EventCount.upd _ k _ i = _
    have : i ≠ k := by rintro rfl; rw [hu] at h2; cases h2
    rw [EventCount.upd_ne _ _ this]; exact hu
  | call _ k j f l h1 h2 h3 =>
    injection hr with e
    rw [e]
    have : i ≠ k := by rintro rfl; rw [hu] at h2; cases h2
    show (if l.call j = .returned then EventCount.upd (r.st u).x.caller k (.waiting f) else (r.st u).x.caller) i = _
    split
    · rw [EventCount.upd_ne _ _ this]; exact hu
    · exact hu
  | get _ k f x h1 h2 h3 =>
    injection hr with e
    rw [e]
    show EventCount.upd _ k _ i = _
    have : i ≠ k := by rintro rfl; rw [hu] at h2; cases h2
    rw [EventCount.upd_ne _ _ this]; exact hu
  | race => cases hr
  | pool => injection hr with e; rw [e]; exact hu
  | noSteal => injection hr with e; rw [e]; exact hu
  | notify => injection hr with e; rw [e]; exact hu
  | worked => injection hr with e; rw [e]; exact hu
  | dtor => injection hr with e; rw [e]; exact hu
  | stole => obtain ⟨x, _, e⟩ := map_ok hr.symm; rw [← e]; exact hu
  | work => obtain ⟨x, _, e⟩ := map_ok hr.symm; rw [← e]; exact hu
  | take => obtain ⟨x, _, e⟩ := map_ok hr.symm; rw [← e]; exact hu
  | switch =>
    split at hr
    · obtain ⟨x, _, e⟩ := map_ok hr.symm; rw [← e]; exact hu
    · cases hr

include hN hsw in
/-- C64: so when all the calls have been made, there is a time from which on they are over and memory is as `C64_result` says. -/
theorem C64_completes (hrf : RaceFree body may (Together K root dep) m) (hE : ∀ i, i < K → ∃ n, Ends (ctl body) (fun _ => True) (root i) [] [] n)
    {r : Fair.Run (system c body may K root dep m)} (hf : r.Fair) (few : ∀ t, LazyPool.Few c (r.st t).x.l) {t : Nat}
    (hcall : ∀ i, i < K → (r.st t).x.caller i ≠ .before) :
    ∃ t', t ≤ t' ∧ ∀ u, t' ≤ u → ∃ l : List (Nat × Except E V), (l.map Prod.fst).Nodup ∧ (∀ i, i ∈ l.map Prod.fst ↔ i < K) ∧
      (∀ q ∈ l, (r.st u).x.caller q.1 = .back q.2) ∧ l.Pairwise (fun q q' => ¬ dep q.1 q'.1) ∧
      Runs body may m (l.map fun q => (root q.1, q.2)) (r.st u).m := by
  have key : ∀ k, k ≤ K → ∃ t', t ≤ t' ∧ ∀ i, i < k → ∃ v, (r.st t').x.caller i = .back v := by
    intro k
    induction k with
    | zero => intro _; exact ⟨t, Nat.le_refl _, fun i hi => absurd hi (Nat.not_lt_zero _)⟩
    | succ k ih =>
      intro hk
      obtain ⟨t1, h1, h2⟩ := ih (by omega)
      obtain ⟨t2, v, h3, h4⟩ := C64_returns hc hd hp hN hsw hroot hE hf few (hcall k (by omega))
      refine ⟨max t1 t2, by omega, fun i hi => ?_⟩
      by_cases e : i = k
      · subst e; exact ⟨v, back_stays r h4 _ (by omega)⟩
      · obtain ⟨v', h5⟩ := h2 i (by omega)
        exact ⟨v', back_stays r h5 _ (by omega)⟩
  obtain ⟨t', h1, h2⟩ := key K (Nat.le_refl _)
  refine ⟨t', h1, fun u hu => C64_result hc hd hp hroot hrf (run_reach r few u) fun i hi => ?_⟩
  obtain ⟨v, h3⟩ := h2 i hi
  exact ⟨v, back_stays r h3 u hu⟩

/-- C64: the destructor of the pool, once called, returns. -/
theorem C64_destroyed (hE : ∀ i, i < K → ∃ n, Ends (ctl body) (fun _ => True) (root i) [] [] n) {r : Fair.Run (system c body may K root dep m)}
    (hf : r.Fair) (few : ∀ t, LazyPool.Few c (r.st t).x.l) {t : Nat} (hdt : (r.st t).x.l.dpc ≠ .alive) : ∃ t', t ≤ t' ∧ (r.st t').x.l.dpc = .gone :=
  WholeX.C60_destroyed hc (disc_ctl hd) hp hroot hE (r := runX r) hf few hdt

end

end Verif.WholeM
