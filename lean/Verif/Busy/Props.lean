import Verif.Busy.Sim

/-!
C67: a whole program whose tasks share memory, on a `busy_pool` or `unit_pool`, from `schedule` to the destructor of the pool, which may be called
while the tasks run. `K` threads call `schedule` (or `sync_wait`); `dep i j`: call `i` is made after the result of call `j` has been got.
`Mem.Disc`: the rules of C56, for tasks that also read and write. `Mem.RaceFree` (C62): no execution of the fork/join machine has a data race.
`Mem.Runs`: tasks run one after another by one thread.
-/
namespace Verif.Busy
open Verif.Runtime (Res Ev upd upd_apply upd_same upd_ne)
open Verif.Exn (XS Choice)
open Verif.Mem (MS Act Allowed ctl Disc disc_ctl subs ReachAny Mono Runs SerM RaceFree)
open Verif.Pool (Pc DPc Cfg)

variable {σ V E L : Type} [Inhabited E] [DecidableEq L] {c : Cfg} {body : σ → Act σ V E L} {pend : σ → Nat} {dirty : σ → Prop} {may : E → Prop} {K : Nat}
  {root : Nat → σ} {dep : Nat → Nat → Prop} {m : L → E}

section
variable (hd : Disc body pend dirty) (hp : ∀ x, pend x ≤ 65534) (hroot : ∀ i, i < K → pend (root i) = 0)
include hd hp hroot

/-- C67: whatever the pool, its workers and the callers do, the tasks and the memory are those of an execution of the runtime as in C61-C63, hence
(C61) of the fork/join machine. -/
theorem C67_refines {s : B σ V E L} (h : Reach c body may K root dep m s) : ReachAny body pend may (Together K root dep) m s.M := reach_mem hd hp hroot h

/-- C67: if no execution of the fork/join machine has a data race, no two workers are ever about to access the same location, one of them to write it. -/
theorem C67_no_race (hrf : RaceFree body may (Together K root dep) m) {s : B σ V E L} (h : Reach c body may K root dep m s) : ¬ s.M.Race body :=
  Mem.C62_no_race hd hrf (Mem.C61_bounded hd hp (C67_refines hd hp hroot h)).1

/-- A task that is at a context switch: nobody has been told to stop. -/
theorem switching {s : B σ V E L} (h : Reach c body may K root dep m s) {w d : Nat} (ha : AtSwitch body s w d) : s.stop = false := by
  have hi := reach_inv hd hp hroot h
  obtain ⟨f, k, x, h1, h2⟩ := ha
  have hf := ((Mem.facts (disc_ctl hd) (reach_exn hd hp hroot h)).run w f h1).1
  cases hs : s.stop with
  | false => rfl
  | true => exact absurd h2 (hi.still (hi.stop hs) f hf _ (.refl _) d k x)

theorem not_over {s : B σ V E L} (h : Reach c body may K root dep m s) (hs : s.stop = false) (d : Nat) : s.pc d ≠ .fin4 := by
  intro e
  have := (reach_inv hd hp hroot h).drain d (by rw [e]; rfl)
  rw [hs] at this; cases this

theorem picking_alive {s : B σ V E L} (h : Reach c body may K root dep m s) {i : Nat} (hi : i < K) (hc : s.caller i = .picking) : s.stop = false := by
  have hv := reach_inv hd hp hroot h
  cases hs : s.stop with
  | false => rfl
  | true => rcases hv.calls (hv.stop hs) i hi with ⟨f, e⟩ | ⟨f, r, e⟩ <;> rw [hc] at e <;> cases e

theorem step_no_ub {s : B σ V E L} (h : Reach c body may K root dep m s) (w : Nat) (ch : Choice E) : Mem.step body w ch s.M ≠ .ub := by
  obtain ⟨h1, h2⟩ := Mem.C61_bounded hd hp (C67_refines hd hp hroot h)
  exact Mem.C61_no_ub hd h1 h2 w ch

/-- C67: nothing undefined happens, but (C58) that two threads are in the random number generator of a `busy_pool`. In particular nobody steals from, submits to
or switches to a worker that has finalised its context. -/
theorem C67_no_ub (hsw : ∀ x d k h, body x = .switch d k h → d < c.N) {s : B σ V E L} (h : Reach c body may K root dep m s) {a : Actor}
    (st : Step c body may K root dep a s .ub) :
    c.unit = false ∧ ∃ i k, i ≠ k ∧ a = .caller i ∧ s.caller i = .before ∧ k < K ∧ s.caller k = .picking := by
  have hi := reach_inv hd hp hroot h
  generalize hr : Res.ub = res at st
  cases st with
  | loop | noSteal | begin | get | dstop | djoin => cases hr
  | stole _ w v h1 h2 h3 =>
    split at hr
    · rename_i hv
      cases hu : c.unit with
      | true => exact absurd h3 (hi.unit hu w).1
      | false =>
        have hl := reach_latch hu h
        have := hl.fin v h2 hv
        rw [hl.latch] at this
        have := EventCount.num_zero.1 this w h1
        rw [h3] at this; cases this
    · exact absurd (map_ub hr.symm) (step_no_ub hd hp hroot h _ _)
  | take _ w h1 h2 h3 h4 => exact absurd (map_ub hr.symm) (step_no_ub hd hp hroot h _ _)
  | work _ w ch h1 h2 h3 h4 h5 => exact absurd (map_ub hr.symm) (step_no_ub hd hp hroot h _ _)
  | lost _ w d h1 h2 h3 h4 =>
    have h5 := not_over hd hp hroot h (switching hd hp hroot h h3) d
    obtain ⟨f, k, x, _, h6⟩ := h3
    exact absurd ⟨hsw _ _ _ _ h6, h5⟩ h4
  | race _ i k h1 h2 h3 h4 h5 h6 => exact ⟨h3, i, k, (fun e => by rw [e, h5] at h2; cases h2), rfl, h2, h4, h5⟩
  | submit _ i d h1 h2 h3 =>
    split at hr
    · exact absurd ‹_› (not_over hd hp hroot h (picking_alive hd hp hroot h h1 h2) d)
    · cases hr

/-- C67: nobody gets stuck. -/
theorem C67_progress (hN : 0 < c.N) (hsw : ∀ x d k h, body x = .switch d k h → d < c.N) {s : B σ V E L} (h : Reach c body may K root dep m s) {a : Actor}
    (hr : ready c s a) : ∃ s', Step c body may K root dep a s (.ok s') := by
  have hi := reach_inv hd hp hroot h
  have busy : ∀ w, w < c.N → s.pc w = .run ∨ s.pc w = .drun ∨ s.pc w = .task → s.M.x.c.pc w ≠ .idle → ∃ s', Step c body may K root dep (.worker w) s (.ok s') := by
    intro w hw h1 h2
    obtain ⟨h3, h4⟩ := Mem.C61_bounded hd hp (C67_refines hd hp hroot h)
    obtain ⟨M, hM⟩ := Mem.C61_proceeds hd h3 h4 w .take h2
    have st : Step c body may K root dep (.worker w) s _ := .work s w (.go .take) hw h1 h2 trivial (fun d hsd => by
      have h5 := not_over hd hp hroot h (switching hd hp hroot h hsd) d
      obtain ⟨f, k, x, _, h6⟩ := hsd
      exact ⟨hsw _ _ _ _ h6, h5⟩)
    rw [hM] at st
    exact ⟨_, st⟩
  have taking : ∀ w, w < c.N → s.pc w = .run ∨ s.pc w = .drun → s.M.x.c.pc w = .idle → s.hand w ≠ 0 → ∃ s', Step c body may K root dep (.worker w) s (.ok s') := by
    intro w hw h1 h2 h3
    have st : Step c body may K root dep (.worker w) s _ := .take s w hw h1 h2 h3
    cases hM : Mem.step body w (.go .take) s.M with
    | ok M => rw [hM] at st; exact ⟨_, st⟩
    | ub => exact absurd hM (step_no_ub hd hp hroot h _ _)
    | no =>
      exfalso
      have hl := hi.hle w
      simp only [Mem.step, h2, Mem.control, Exn.step] at hM
      unfold Runtime.take at hM
      cases hb : s.M.x.c.inbox w with
      | nil => rw [hb] at hl; simp at hl; omega
      | cons f r =>
        rw [hb] at hM
        simp only at hM
        split at hM <;> cases hM
  have lp : ∀ w, w < c.N → (∃ s', loop c s w = some s') → ∃ s', Step c body may K root dep (.worker w) s (.ok s') := fun w hw ⟨s', e⟩ => ⟨s', .loop s s' w hw e⟩
  cases a with
  | worker w =>
    obtain ⟨hw, h1, h2⟩ := hr
    cases hpc : s.pc w with
    | chk => exact lp w hw (by unfold loop; rw [hpc]; exact ⟨_, rfl⟩)
    | pop => exact lp w hw (by unfold loop; rw [hpc]; exact ⟨_, rfl⟩)
    | dpop => exact lp w hw (by unfold loop; rw [hpc]; exact ⟨_, rfl⟩)
    | fin1 => exact lp w hw (by unfold loop; rw [hpc]; exact ⟨_, rfl⟩)
    | fin2 => exact lp w hw (by unfold loop; rw [hpc]; exact ⟨_, rfl⟩)
    | fin3 => exact lp w hw (by unfold loop; rw [hpc]; exact ⟨_, if_pos (h2 hpc)⟩)
    | fin4 => exact absurd hpc h1
    | steal => exact ⟨_, .noSteal s w hw hpc⟩
    | run =>
      by_cases e : s.M.x.c.pc w = .idle
      · by_cases e' : s.hand w = 0
        · exact lp w hw (by unfold loop; rw [hpc]; exact ⟨_, if_pos ⟨idle_iff.2 e, e'⟩⟩)
        · exact taking w hw (.inl hpc) e e'
      · exact busy w hw (.inl hpc) e
    | drun =>
      by_cases e : s.M.x.c.pc w = .idle
      · by_cases e' : s.hand w = 0
        · exact lp w hw (by unfold loop; rw [hpc]; exact ⟨_, if_pos ⟨idle_iff.2 e, e'⟩⟩)
        · exact taking w hw (.inr hpc) e e'
      · exact busy w hw (.inr (.inl hpc)) e
    | task =>
      by_cases e : s.M.x.c.pc w = .idle
      · exact lp w hw (by unfold loop; rw [hpc]; exact ⟨_, if_pos (idle_iff.2 e)⟩)
      · exact busy w hw (.inr (.inr hpc)) e
  | caller i =>
    obtain ⟨fr, js, hcl⟩ := calls h
    simp only [ready] at hr
    split at hr
    · exact hr.elim
    · rename_i hc
      have hk := hcl.lt i (by rw [hc]; simp)
      have st : Step c body may K root dep (.caller i) s _ := .submit s i 0 hk hc hN
      rw [if_neg (not_over hd hp hroot h (picking_alive hd hp hroot h hk hc) 0)] at st
      exact ⟨_, st⟩
    · rename_i f hc
      obtain ⟨r, hr⟩ := hr
      exact ⟨_, .get s i f r (hcl.lt i (by rw [hc]; simp)) hc hr⟩
    · exact hr.elim
  | dtor => exact ⟨_, .djoin s hr.1 hr.2⟩

omit hd hp hroot in
/-- Task of call `i` is over, with the result `r`: which its caller has got or will get. -/
def Over (s : B σ V E L) (i : Nat) (r : Except E V) : Prop := ∃ f, Ev.done f r ∈ s.M.x.c.log ∧ (s.caller i = .waiting f ∨ s.caller i = .back f r)

/-- When the tasks of all calls are over, memory is as if they had been run by one thread. -/
theorem over_runs (hrf : RaceFree body may (Together K root dep) m) {s : B σ V E L} (h : Reach c body may K root dep m s)
    (hb : ∀ i, i < K → ∃ r, Over s i r) :
    ∃ l : List (Nat × Except E V), (l.map Prod.fst).Nodup ∧ (∀ i, i ∈ l.map Prod.fst ↔ i < K) ∧ (∀ q ∈ l, Over s q.1 q.2) ∧
      l.Pairwise (fun q q' => ¬ dep q.1 q'.1) ∧ Runs body may m (l.map fun q => (root q.1, q.2)) s.M.m := by
  obtain ⟨fr, js, hcl⟩ := calls h
  have hr := C67_refines hd hp hroot h
  obtain ⟨hr, _⟩ := Mem.C61_bounded hd hp hr
  have hmem : ∀ i, i ∈ js ↔ i < K := by
    intro i
    rw [hcl.mem]
    refine ⟨And.left, fun hi => ⟨hi, ?_⟩⟩
    obtain ⟨r, f, _, e | e⟩ := hb i hi <;> rw [e] <;> rfl
  have hfr : ∀ {i f : Nat} {r : Except E V}, s.caller i = .waiting f ∨ s.caller i = .back f r → fr i = f := by
    intro i f r e
    rcases e with e | e
    · exact hcl.waiting i f e
    · exact (hcl.back i f r e).1
  have hdone : ∀ i, i < K → ∃ r, Over s i r ∧ Ev.done (fr i) r ∈ s.M.x.c.log := fun i hi => by
    obtain ⟨r, f, h1, h2⟩ := hb i hi
    exact ⟨r, ⟨f, h1, h2⟩, by rw [hfr h2]; exact h1⟩
  obtain ⟨ls, g1, g2, g3⟩ := Mem.C62_runtime hd (fun O y ⟨i, hi, e, _⟩ => by rw [e]; exact hroot i hi) together_mono hrf hr (fun f y w hf => by
    have hf' : (f, y) ∈ subs s.M.x.c.log := Mem.mem_subs.2 ⟨w, hf⟩
    rw [hcl.subs] at hf'
    obtain ⟨k, hk, e⟩ := List.mem_map.1 hf'
    cases e
    obtain ⟨r, _, h2⟩ := hdone k ((hmem k).1 hk)
    exact ⟨r, h2⟩)
  have hl : Runtime.Legal s.M.x.c.log := Exn.history_legal (disc_ctl hd) (reach_exn hd hp hroot h)
  have uniq : ∀ {f : Nat} {r r' : Except E V}, Ev.done f r ∈ s.M.x.c.log → Ev.done f r' ∈ s.M.x.c.log → r = r' := by
    intro f r r' h1 h2
    have e1 := Mem.done_mode hl h1
    rw [Mem.done_mode hl h2] at e1
    cases e1; rfl
  have g1' : ls.map (fun p => (p.1, p.2.1)) = js.reverse.map fun i => (fr i, root i) := by
    rw [g1, List.map_reverse]
    rw [← hcl.subs]
  have key : ∀ (ks : List Nat) (ls : List (Nat × σ × Except E V)), ls.map (fun p => (p.1, p.2.1)) = ks.map (fun i => (fr i, root i)) →
      (∀ p ∈ ls, Ev.done p.1 p.2.2 ∈ s.M.x.c.log) → (∀ i ∈ ks, i < K) →
      ∃ l : List (Nat × Except E V), l.map Prod.fst = ks ∧ (∀ q ∈ l, Over s q.1 q.2) ∧ l.map (fun q => (root q.1, q.2)) = ls.map Prod.snd := by
    intro ks
    induction ks with
    | nil =>
      intro ls e _ _
      have : ls = [] := by simpa using e
      subst this
      exact ⟨[], rfl, by simp, rfl⟩
    | cons k ks ih =>
      intro ls e h1 h2
      cases ls with
      | nil => cases e
      | cons p ls =>
        obtain ⟨f, y, r⟩ := p
        simp only [List.map_cons, List.cons.injEq, Prod.mk.injEq] at e
        obtain ⟨⟨rfl, rfl⟩, e⟩ := e
        obtain ⟨l, a1, a2, a3⟩ := ih ls e (fun p hp => h1 p (List.mem_cons_of_mem _ hp)) (fun i hi => h2 i (List.mem_cons_of_mem _ hi))
        refine ⟨(k, r) :: l, by simp [a1], ?_, by simp [a3]⟩
        intro q hq
        rcases List.mem_cons.1 hq with rfl | hq
        · obtain ⟨r', b1, b2⟩ := hdone k (h2 k (List.mem_cons_self ..))
          have : r = r' := uniq (h1 _ (List.mem_cons_self ..)) b2
          rw [this]; exact b1
        · exact a2 q hq
  obtain ⟨l, a1, a2, a3⟩ := key _ _ g1' g2 (fun i hi => (hmem i).1 (List.mem_reverse.1 hi))
  refine ⟨l, ?_, ?_, a2, ?_, by rw [a3]; exact g3⟩
  · rw [a1]; exact List.pairwise_reverse.2 (hcl.nodup.imp fun h => h.symm)
  · intro i; rw [a1, List.mem_reverse]; exact hmem i
  · have : (l.map Prod.fst).Pairwise fun i j => ¬ dep i j := by rw [a1]; exact List.pairwise_reverse.2 hcl.ord
    exact (List.pairwise_map.1 this)

/-- C67: once all the callers have got their results, memory and these results are what they are if the root tasks are run one after another by one thread, in
some order in which no call comes before one it was made after; if there are no data races. -/
theorem C67_result (hrf : RaceFree body may (Together K root dep) m) {s : B σ V E L} (h : Reach c body may K root dep m s)
    (hb : ∀ i, i < K → ∃ f r, s.caller i = .back f r) :
    ∃ l : List (Nat × Except E V), (l.map Prod.fst).Nodup ∧ (∀ i, i ∈ l.map Prod.fst ↔ i < K) ∧ (∀ q ∈ l, ∃ f, s.caller q.1 = .back f q.2) ∧
      l.Pairwise (fun q q' => ¬ dep q.1 q'.1) ∧ Runs body may m (l.map fun q => (root q.1, q.2)) s.M.m := by
  obtain ⟨fr, js, hcl⟩ := calls h
  obtain ⟨l, h1, h2, h3, h4, h5⟩ := over_runs hd hp hroot hrf h (fun i hi => by
    obtain ⟨f, r, e⟩ := hb i hi
    exact ⟨r, f, (hcl.back i f r e).2, .inr e⟩)
  refine ⟨l, h1, h2, fun q hq => ?_, h4, h5⟩
  obtain ⟨f, _, e | e⟩ := h3 q hq
  · obtain ⟨g, r, e'⟩ := hb q.1 ((h2 q.1).1 (List.mem_map_of_mem hq))
    rw [e] at e'; cases e'
  · exact ⟨f, e⟩

/-- When one worker finalises its context, all workers have left their loops. -/
theorem finishing (hun : c.unit = true → c.N = 1) {s : B σ V E L} (h : Reach c body may K root dep m s) {v : Nat} (hv : v < c.N) (he : s.pc v = .fin4) :
    ∀ w, s.M.x.c.pc w = .idle ∧ s.M.x.c.inbox w = [] := by
  have hi := reach_inv hd hp hroot h
  intro w
  by_cases hw : w < c.N
  · have hl : s.pc w = .fin3 ∨ s.pc w = .fin4 := by
      cases hu : c.unit with
      | true =>
        have := hun hu
        have : w = v := by omega
        rw [this]; exact .inr he
      | false =>
        have hl := reach_latch hu h
        have h0 := hl.fin v hv he
        rw [hl.latch] at h0
        have := EventCount.num_zero.1 h0 w hw
        revert this
        cases s.pc w <;> simp [Pool.before]
    refine ⟨?_, hi.left w (by rcases hl with e | e <;> rw [e] <;> rfl)⟩
    apply Classical.byContradiction
    intro hn
    have := (hi.idle w hn).2
    rcases hl with e | e <;> rw [e] at this <;> cases this
  · refine ⟨?_, hi.far w (by omega)⟩
    apply Classical.byContradiction
    intro hn
    exact hw (hi.idle w hn).1

/-- C67: when a worker finalises its context, no worker is in a task, no task is queued or submitted, all tasks ever made have returned or thrown and
their frames are destroyed. -/
theorem C67_finalise (hun : c.unit = true → c.N = 1) {s : B σ V E L} (h : Reach c body may K root dep m s) {v : Nat} (hv : v < c.N) (he : s.pc v = .fin4) :
    (∀ w, s.M.x.c.pc w = .idle ∧ s.M.x.c.inbox w = [] ∧ s.M.x.c.q w = []) ∧ (∀ f, f < s.M.x.c.nf → ∃ r, Ev.done f r ∈ s.M.x.c.log) ∧
      ∀ k, s.M.x.c.al k = [] := by
  have hf := finishing hd hp hroot hun h hv he
  have hx := reach_exn hd hp hroot h
  exact ⟨fun w => ⟨(hf w).1, (hf w).2, (Exn.idle_empty (disc_ctl hd) hx (hf w).1).1⟩,
    Exn.nothing_lost (disc_ctl hd) hx (fun w => (hf w).1) (fun w => (hf w).2),
    Exn.nothing_leaks (disc_ctl hd) hx (fun w => (hf w).1) (fun w => (hf w).2)⟩

theorem waiting_lt {s : B σ V E L} (h : Reach c body may K root dep m s) {i f : Nat} (hc : s.caller i = .waiting f) : f < s.M.x.c.nf := by
  induction h generalizing f with
  | start => cases hc
  | @step s s' a h0 st ih =>
    cases kind st with
    | same h1 h2 => rw [h1]; rw [h2] at hc; exact ih hc
    | work w ch _ h1 h2 h3 =>
      rw [h3] at hc
      exact Nat.lt_of_lt_of_le (ih hc) (eff_step hd (reach_exn hd hp hroot h0) h2).nf
    | begin k h1 h2 h3 h4 h5 =>
      rw [h4]
      rw [h5, upd_apply] at hc
      split at hc
      · cases hc
      · exact ih hc
    | submit k d h1 _ h2 h3 h4 =>
      rw [h3]
      show f < s.M.x.c.nf + 1
      rw [h4, upd_apply] at hc
      split at hc
      · cases hc; omega
      · have := ih hc; omega
    | get k g r h1 h2 h3 h4 h5 =>
      rw [h4]
      rw [h5, upd_apply] at hc
      split at hc
      · cases hc
      · exact ih hc

/-- C67: when the destructor returns (it may have been called while the tasks ran), all tasks of all calls are over, and memory is as if they had been run
one after another by one thread, whether or not anybody has waited for them. -/
theorem C67_drained (hN : 0 < c.N) (hun : c.unit = true → c.N = 1) (hrf : RaceFree body may (Together K root dep) m) {s : B σ V E L}
    (h : Reach c body may K root dep m s) (hg : s.dpc = .gone) :
    ∃ l : List (Nat × Except E V), (l.map Prod.fst).Nodup ∧ (∀ i, i ∈ l.map Prod.fst ↔ i < K) ∧ (∀ q ∈ l, Over s q.1 q.2) ∧
      l.Pairwise (fun q q' => ¬ dep q.1 q'.1) ∧ Runs body may m (l.map fun q => (root q.1, q.2)) s.M.m := by
  have hi := reach_inv hd hp hroot h
  obtain ⟨fr, js, hcl⟩ := calls h
  have hf := C67_finalise hd hp hroot hun h hN (hi.gone hg 0 hN)
  refine over_runs hd hp hroot hrf h fun i hk => ?_
  rcases hi.calls (by rw [hg]; simp) i hk with ⟨f, e⟩ | ⟨f, r, e⟩
  · obtain ⟨r, hr⟩ := hf.2.1 f (waiting_lt hd hp hroot h e)
    exact ⟨r, f, hr, .inl e⟩
  · exact ⟨r, f, (hcl.back i f r e).2, .inr e⟩

end

end Verif.Busy
