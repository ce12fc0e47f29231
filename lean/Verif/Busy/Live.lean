import Verif.Busy.Props
import Verif.Exn.TermProps
import Verif.Whole.Live

/-! C67: all calls return and the destructor returns, in every fair schedule. -/
namespace Verif.Busy
open Verif.Runtime (Res Ev upd upd_apply upd_same upd_ne)
open Verif.Exn (XS Choice Ends ExecN)
open Verif.Mem (MS Act Allowed ctl Disc disc_ctl subs ReachAny Runs RaceFree)
open Verif.Pool (Pc DPc Cfg before)
open Fair (Run)

variable {σ V E L : Type} [Inhabited E] [DecidableEq L] {c : Cfg} {body : σ → Act σ V E L} {pend : σ → Nat} {dirty : σ → Prop} {may : E → Prop} {K : Nat}
  {root : Nat → σ} {dep : Nat → Nat → Prop} {m : L → E}

theorem length_le {l : List Nat} {n : Nat} (h : l.Nodup) (hl : ∀ i ∈ l, i < n) : l.length ≤ n := by
  induction n generalizing l with
  | zero =>
    cases l with
    | nil => exact Nat.le_refl _
    | cons a l => exact absurd (hl a (List.mem_cons_self ..)) (Nat.not_lt_zero _)
  | succ n ih =>
    have h1 := ih (h.erase n) (fun i hi => by
      have h2 := hl i (List.mem_of_mem_erase hi)
      have h3 : i ≠ n := by rintro rfl; exact (h.not_mem_erase) hi
      omega)
    by_cases e : n ∈ l
    · rw [List.length_erase_of_mem e] at h1; omega
    · rw [List.erase_of_not_mem e] at h1; omega

/-- Something happens inside tasks, or one is submitted. -/
def Hap (c : Cfg) (body : σ → Act σ V E L) (K : Nat) (root : Nat → σ) (s s' : B σ V E L) : Prop :=
  (∃ w ch, w < c.N ∧ Mem.step body w ch s.M = .ok s'.M ∧ s'.caller = s.caller) ∨
    ∃ i d, i < K ∧ d < c.N ∧ s.caller i = .picking ∧ s'.M = Mem.submit s.M (root i) d ∧ s'.caller = upd s.caller i (.waiting s.M.x.c.nf)

theorem hap {a : Actor} {s s' : B σ V E L} (st : Step c body may K root dep a s (.ok s')) : Hap c body K root s s' ∨ s'.M = s.M := by
  cases kind st with
  | same h1 h2 => exact .inr h1
  | work w ch h1 h2 h3 h4 => exact .inl (.inl ⟨w, ch, h1, h3, h4⟩)
  | begin i h1 h2 h3 h4 h5 => exact .inr h4
  | submit i d h1 h2 h3 h4 h5 => exact .inl (.inr ⟨i, d, h1, h2, h3, h4, h5⟩)
  | get i f r h1 h2 h3 h4 h5 => exact .inr h4

/-- A step changes the place of its own worker only. -/
theorem pc_other {a : Actor} {s s' : B σ V E L} (st : Step c body may K root dep a s (.ok s')) {w : Nat} (e : a ≠ .worker w) :
    s'.pc w = s.pc w ∧ s'.hand w = s.hand w := by
  generalize hr : Res.ok s' = res at st
  cases st with
  | loop _ _ v h1 h2 => cases hr; exact (loop_same h2).2.2.2 w (by rintro rfl; exact e rfl)
  | noSteal _ v h1 h2 => cases hr; exact ⟨upd_ne _ _ (by rintro rfl; exact e rfl), rfl⟩
  | stole _ v _ h1 h2 h3 =>
    split at hr
    · cases hr
    · obtain ⟨M, e', rfl⟩ := map_ok hr.symm
      exact ⟨upd_ne _ _ (by rintro rfl; exact e rfl), rfl⟩
  | take _ v h1 h2 h3 h4 =>
    obtain ⟨M, e', rfl⟩ := map_ok hr.symm
    exact ⟨rfl, upd_ne _ _ (by rintro rfl; exact e rfl)⟩
  | work _ v ch h1 h2 h3 h4 h5 =>
    obtain ⟨M, e', rfl⟩ := map_ok hr.symm
    exact ⟨rfl, rfl⟩
  | lost => cases hr
  | race => cases hr
  | begin => cases hr; exact ⟨rfl, rfl⟩
  | get => cases hr; exact ⟨rfl, rfl⟩
  | dstop => cases hr; exact ⟨rfl, rfl⟩
  | djoin => cases hr; exact ⟨rfl, rfl⟩
  | submit =>
    split at hr
    · cases hr
    · cases hr; exact ⟨rfl, rfl⟩

/-- A step changes the place of its own caller only. -/
theorem caller_other {a : Actor} {s s' : B σ V E L} (st : Step c body may K root dep a s (.ok s')) {i : Nat} (e : a ≠ .caller i) :
    s'.caller i = s.caller i := by
  generalize hr : Res.ok s' = res at st
  cases st with
  | loop _ _ v h1 h2 => cases hr; rw [(loop_same h2).2.1]
  | noSteal => cases hr; rfl
  | stole =>
    split at hr
    · cases hr
    · obtain ⟨M, e, rfl⟩ := map_ok hr.symm; rfl
  | take => obtain ⟨M, e, rfl⟩ := map_ok hr.symm; rfl
  | work => obtain ⟨M, e, rfl⟩ := map_ok hr.symm; rfl
  | lost => cases hr
  | race => cases hr
  | begin _ k => cases hr; exact upd_ne _ _ (by rintro rfl; exact e rfl)
  | get _ k => cases hr; exact upd_ne _ _ (by rintro rfl; exact e rfl)
  | dstop => cases hr; rfl
  | djoin => cases hr; rfl
  | submit _ k =>
    split at hr
    · cases hr
    · cases hr; exact upd_ne _ _ (by rintro rfl; exact e rfl)

theorem caller_own {s s' : B σ V E L} {i : Nat} (st : Step c body may K root dep (.caller i) s (.ok s')) :
    (s.caller i = .picking → Hap c body K root s s') ∧ ∀ f, s.caller i = .waiting f → ∃ v, s'.caller i = .back f v := by
  generalize hr : Res.ok s' = res at st
  cases st with
  | begin _ _ h1 h2 h3 h4 => rw [h2]; exact ⟨(fun h => by cases h), (fun _ h => by cases h)⟩
  | race => cases hr
  | submit _ _ d h1 h2 h3 =>
    split at hr
    · cases hr
    · cases hr
      exact ⟨fun _ => .inr ⟨i, d, h1, h3, h2, rfl, rfl⟩, fun f h => by rw [h2] at h; cases h⟩
  | get _ _ g v h1 h2 h3 =>
    cases hr
    refine ⟨(fun h => by rw [h2] at h; cases h), fun f h => ?_⟩
    rw [h2] at h; cases h
    exact ⟨v, upd_same ..⟩

theorem stop_step {a : Actor} {s s' : B σ V E L} (st : Step c body may K root dep a s (.ok s')) (hu : s.stop = true) : s'.stop = true := by
  generalize hr : Res.ok s' = res at st
  cases st with
  | loop _ _ v h1 h2 => cases hr; have o := loop_own h2; cases o <;> simp_all
  | noSteal => cases hr; exact hu
  | stole =>
    split at hr
    · cases hr
    · obtain ⟨M, e, rfl⟩ := map_ok hr.symm; exact hu
  | take => obtain ⟨M, e, rfl⟩ := map_ok hr.symm; exact hu
  | work => obtain ⟨M, e, rfl⟩ := map_ok hr.symm; exact hu
  | lost => cases hr
  | race => cases hr
  | begin => cases hr; exact hu
  | get => cases hr; exact hu
  | dstop => cases hr; rfl
  | djoin => cases hr; exact hu
  | submit =>
    split at hr
    · cases hr
    · cases hr; exact hu

/-- The runtime's schedule so far: `k` steps of workers and submissions, the latter by the callers `js`. -/
structure Exec (c : Cfg) (body : σ → Act σ V E L) (pend : σ → Nat) (K : Nat) (root : Nat → σ) (k : Nat) (js : List Nat) (s : B σ V E L) : Prop where
  run : ∃ n, ExecN (ctl body) pend (fun _ => True) c.N (js.map root) n s.M.x ∧ k = n + js.length
  nodup : js.Nodup
  mem : ∀ i, i ∈ js → i < K ∧ early (s.caller i) = false

section
variable (hd : Disc body pend dirty) (hp : ∀ x, pend x ≤ 65534) (hN : 0 < c.N) (hsw : ∀ x d k h, body x = .switch d k h → d < c.N)
  (hroot : ∀ i, i < K → pend (root i) = 0)

theorem early_stays {a : Actor} {s s' : B σ V E L} (st : Step c body may K root dep a s (.ok s')) {i : Nat} (h : early (s.caller i) = false) :
    early (s'.caller i) = false := by
  cases kind st with
  | same h1 h2 => rw [h2]; exact h
  | work w ch h1 h2 h3 h4 => rw [h4]; exact h
  | begin k h1 h2 h3 h4 h5 =>
    rw [h5, upd_apply]; split
    · subst_vars; rw [h2] at h; cases h
    · exact h
  | submit k d h1 h2 h3 h4 h5 => rw [h5, upd_apply]; split <;> first | rfl | exact h
  | get k f r h1 h2 h3 h4 h5 => rw [h5, upd_apply]; split <;> first | rfl | exact h

include hroot in
theorem exec_count {s s' : B σ V E L} {a : Actor} {k : Nat} (h : ∃ js, Exec c body pend K root k js s) (st : Step c body may K root dep a s (.ok s')) :
    (Hap c body K root s s' ∧ ∃ js, Exec c body pend K root (k + 1) js s') ∨ (¬ Hap c body K root s s' ∧ ∃ js, Exec c body pend K root k js s') := by
  obtain ⟨js, h⟩ := h
  obtain ⟨n, hn, rfl⟩ := h.run
  by_cases hb : Hap c body K root s s'
  · refine .inl ⟨hb, ?_⟩
    rcases hb with ⟨w, ch, hw, hs, hc⟩ | ⟨i, d, hi, hd, hpk, hm, hc⟩
    · obtain ⟨ch', hx⟩ := Mem.step_x hs
      exact ⟨js, ⟨n + 1, hn.step hw (Mem.allowed_any ch') hx, by omega⟩, h.nodup, fun i hi => by rw [hc]; exact h.mem i hi⟩
    · refine ⟨i :: js, ⟨n, by rw [hm]; exact hn.submit hd (hroot i hi), by simp only [List.length_cons]; omega⟩, ?_, ?_⟩
      · refine List.nodup_cons.2 ⟨fun hm => ?_, h.nodup⟩
        have := (h.mem i hm).2
        rw [hpk] at this; cases this
      · intro k hk
        rcases List.mem_cons.1 hk with rfl | hk
        · exact ⟨hi, by rw [hc, upd_same]; rfl⟩
        · exact ⟨(h.mem k hk).1, early_stays st (h.mem k hk).2⟩
  · refine .inr ⟨hb, js, ⟨n, ?_, rfl⟩, h.nodup, fun i hi => ⟨(h.mem i hi).1, early_stays st (h.mem i hi).2⟩⟩
    rcases hap st with h1 | h1
    · exact absurd h1 hb
    · rw [h1]; exact hn

include hd hp in
theorem exec_bound {n : Nat} (hE : ∀ i, i < K → Ends (ctl body) (fun _ => True) (root i) [] [] n) {k : Nat} {js : List Nat} {s : B σ V E L}
    (h : Exec c body pend K root k js s) : k ≤ (n + 1) * (10 * n + 6) * K + K := by
  obtain ⟨n', hn, rfl⟩ := h.run
  have h1 := Exn.C59_bounded (disc_ctl hd) hp hn (n := n) fun x hx => by
    obtain ⟨i, hi, rfl⟩ := List.mem_map.1 hx
    exact hE i (h.mem i hi).1
  have h2 := length_le h.nodup fun i hi => (h.mem i hi).1
  rw [List.length_map] at h1
  exact Nat.add_le_add (Nat.le_trans h1 (Nat.mul_le_mul_left _ h2)) h2

theorem run_reach (r : Run (system c body may K root dep m)) (t : Nat) : Reach c body may K root dep m (r.st t) := by
  induction t with
  | zero => obtain ⟨x, e⟩ := r.start; rw [e]; exact .start x
  | succ t ih =>
    rcases r.next t with ⟨_, e⟩ | ⟨a, _, st⟩
    · rw [e]; exact ih
    · exact ih.step st

theorem ends_uniform {body : σ → Exn.Act σ V E} {may : E → Prop} (hE : ∀ i, i < K → ∃ n, Ends body may (root i) [] [] n) :
    ∃ n, ∀ i, i < K → Ends body may (root i) [] [] n := by
  induction K with
  | zero => exact ⟨0, fun i hi => absurd hi (Nat.not_lt_zero _)⟩
  | succ K ih =>
    obtain ⟨n, h1⟩ := ih fun i hi => hE i (by omega)
    obtain ⟨m, h2⟩ := hE K (by omega)
    refine ⟨n + m, fun i hi => ?_⟩
    by_cases e : i = K
    · subst e; exact h2.mono (by omega)
    · exact (h1 i (by omega)).mono (by omega)

/-- From time `T` on nothing happens in tasks and nothing is submitted. -/
def Quiet (r : Run (system c body may K root dep m)) (T : Nat) : Prop := ∀ t, T ≤ t → ¬ (r.who t ≠ none ∧ Hap c body K root (r.st t) (r.st (t + 1)))

include hd hp hroot in
theorem rests (hE : ∀ i, i < K → ∃ n, Ends (ctl body) (fun _ => True) (root i) [] [] n) (r : Run (system c body may K root dep m)) : ∃ T, Quiet r T := by
  obtain ⟨n, hE⟩ := ends_uniform hE
  exact Whole.finitely (fun k t => ∃ js, Exec c body pend K root k js (r.st t)) _ _
    (fun t k ⟨js, h⟩ => exec_bound hd hp hE h)
    (by
      obtain ⟨y, e⟩ := r.start
      rw [e]
      exact ⟨0, [], ⟨0, .start y, rfl⟩, List.nodup_nil, fun i hi => absurd hi (by simp)⟩)
    (fun t k h => by
      rcases r.next t with ⟨e1, e2⟩ | ⟨a, e1, st⟩
      · exact .inr ⟨(fun hh => hh.1 e1), by rw [e2]; exact h⟩
      · rcases exec_count hroot h st with ⟨h1, h2⟩ | ⟨h1, h2⟩
        · exact .inl ⟨⟨by rw [e1]; simp, h1⟩, h2⟩
        · exact .inr ⟨(fun hh => h1 hh.2), h2⟩)

section
variable {r : Run (system c body may K root dep m)} (hf : r.Fair) {T : Nat} (hq : Quiet r T)
include hq

theorem quiet_step {t : Nat} (ht : T ≤ t) {a : Actor} (st : Step c body may K root dep a (r.st t) (.ok (r.st (t + 1)))) (hw : r.who t ≠ none) :
    (r.st (t + 1)).M = (r.st t).M := by
  rcases hap st with h | h
  · exact absurd ⟨hw, h⟩ (hq t ht)
  · exact h

theorem quiet_M : ∀ u, T ≤ u → (r.st u).M = (r.st T).M := by
  intro u hu
  induction u with
  | zero => have : T = 0 := by omega
            rw [this]
  | succ u ih =>
    by_cases e : T = u + 1
    · rw [e]
    · rw [← ih (by omega)]
      rcases r.next u with ⟨_, e2⟩ | ⟨a, e1, st⟩
      · rw [e2]
      · exact quiet_step hq (by omega) st (by rw [e1]; simp)

/-- What a worker does from then on. -/
theorem quiet_own {t : Nat} (ht : T ≤ t) {w : Nat} (st : Step c body may K root dep (.worker w) (r.st t) (.ok (r.st (t + 1)))) (hw : r.who t ≠ none) :
    w < c.N ∧ (loop c (r.st t) w = some (r.st (t + 1)) ∨ ((r.st t).pc w = .steal ∧ r.st (t + 1) = (r.st t).go w .chk)) := by
  have hn := fun h => hq t ht ⟨hw, h⟩
  generalize r.st (t + 1) = s' at *
  generalize r.st t = s at *
  generalize hr : Res.ok s' = res at st
  cases st with
  | loop _ _ _ h1 h2 => cases hr; exact ⟨h1, .inl h2⟩
  | noSteal _ _ h1 h2 => cases hr; exact ⟨h1, .inr ⟨h2, rfl⟩⟩
  | stole _ _ v h1 h2 h3 =>
    split at hr
    · cases hr
    · obtain ⟨M, e, rfl⟩ := map_ok hr.symm
      exact absurd (.inl ⟨w, _, h1, e, rfl⟩) hn
  | take _ _ h1 h2 h3 h4 =>
    obtain ⟨M, e, rfl⟩ := map_ok hr.symm
    exact absurd (.inl ⟨w, _, h1, e, rfl⟩) hn
  | work _ _ ch h1 h2 h3 h4 h5 =>
    obtain ⟨M, e, rfl⟩ := map_ok hr.symm
    exact absurd (.inl ⟨w, _, h1, e, rfl⟩) hn
  | lost => cases hr

include hf

include hd hp hroot in
/-- All workers are out of tasks. -/
theorem quiet_idle {w : Nat} {u : Nat} (hu : T ≤ u) : (r.st u).M.x.c.pc w = .idle := by
  apply Classical.byContradiction
  intro hn
  have hin : ∀ t, T ≤ t → (r.st t).M.x.c.pc w ≠ .idle := fun t ht => by rw [quiet_M hq t ht, ← quiet_M hq u hu]; exact hn
  have hw := ((reach_inv hd hp hroot (run_reach r u)).idle w hn).1
  obtain ⟨t, h1, h2⟩ := hf (.worker w) u
  have hi := (reach_inv hd hp hroot (run_reach r t)).idle w (hin t (by omega))
  rcases h2 with h2 | h2
  · refine h2 ⟨hw, ?_, ?_⟩ <;> intro e <;> have := hi.2 <;> rw [e] at this <;> cases this
  · rcases r.next t with ⟨e1, _⟩ | ⟨a, e1, st⟩
    · rw [e1] at h2; cases h2
    · rw [e1] at h2; cases h2
      have hid := hin t (by omega)
      obtain ⟨_, h3 | h3⟩ := quiet_own hq (by omega) st (by rw [e1]; simp)
      · have o := loop_own h3
        have := hi.2
        clear hi
        cases o <;> simp_all [inTask]
      · have := hi.2
        rw [h3.1] at this; cases this

omit hf hq [Inhabited E] [DecidableEq L] in
/-- The steps before a worker takes the next submission. -/
def rank (s : B σ V E L) (w : Nat) : Nat :=
  match s.pc w with
  | .run => if s.hand w = 0 then 3 else 0
  | .drun => if s.hand w = 0 then 2 else 0
  | .pop | .dpop => 1
  | .chk => 2
  | .task | .steal => 3
  | _ => 0

omit hf in
/-- A worker's place from then on. -/
theorem quiet_next {t : Nat} (ht : T ≤ t) (w : Nat) :
    (r.who t ≠ some (.worker w) ∧ (r.st (t + 1)).pc w = (r.st t).pc w ∧ (r.st (t + 1)).hand w = (r.st t).hand w) ∨
      (r.who t = some (.worker w) ∧ (Own c (r.st t) (r.st (t + 1)) w ∨
        ((r.st t).pc w = .steal ∧ (r.st (t + 1)).pc w = .chk ∧ (r.st (t + 1)).hand w = (r.st t).hand w ∧ (r.st (t + 1)).stop = (r.st t).stop ∧
          (r.st (t + 1)).latch = (r.st t).latch))) := by
  rcases r.next t with ⟨e1, e2⟩ | ⟨a, e1, st⟩
  · exact .inl ⟨by rw [e1]; simp, by rw [e2], by rw [e2]⟩
  · by_cases e : a = .worker w
    · subst e
      refine .inr ⟨e1, ?_⟩
      rcases (quiet_own hq ht st (by rw [e1]; simp)).2 with h | ⟨h, h'⟩
      · exact .inl (loop_own h)
      · exact .inr ⟨h, by rw [h']; exact upd_same .., by rw [h']; rfl, by rw [h']; rfl, by rw [h']; rfl⟩
    · exact .inl ⟨by rw [e1]; intro h; cases h; exact e rfl, pc_other st e⟩

include hd hp hroot in
/-- No submission is left. -/
theorem quiet_inbox {w : Nat} {u : Nat} (hu : T ≤ u) : (r.st u).M.x.c.inbox w = [] := by
  apply Classical.byContradiction
  intro hn
  have hin : ∀ t, T ≤ t → (r.st t).M.x.c.inbox w ≠ [] := fun t ht => by rw [quiet_M hq t ht, ← quiet_M hq u hu]; exact hn
  have hw : w < c.N := by
    apply Classical.byContradiction; intro hw
    exact hn ((reach_inv hd hp hroot (run_reach r u)).far w (by omega))
  have hl : ∀ t, T ≤ t → Pool.left ((r.st t).pc w) = false := fun t ht => by
    cases e : Pool.left ((r.st t).pc w) with
    | false => rfl
    | true => exact absurd ((reach_inv hd hp hroot (run_reach r t)).left w e) (hin t ht)
  obtain ⟨_, _, h⟩ := Run.leads hf (.worker w) (fun t => T ≤ t) (fun _ => False) (fun t => rank (r.st t) w)
    (fun t ht => ⟨hw, (fun e => by have := hl t ht; rw [e] at this; cases this), (fun e => by have := hl t ht; rw [e] at this; cases this)⟩)
    (fun t ht => by
      refine .inr ⟨by omega, ?_⟩
      have h1 := hin t ht
      have h3 := hl t ht
      rcases quiet_next hq ht w with ⟨h4, h5, h6⟩ | ⟨h4, h5⟩
      · refine ⟨?_, fun e => absurd e h4⟩
        unfold rank; rw [h5, h6]; exact Nat.le_refl _
      · suffices h : rank (r.st (t + 1)) w < rank (r.st t) w from ⟨Nat.le_of_lt h, fun _ => h⟩
        unfold rank
        clear h4 hl hin
        have h0 : (r.st t).M.x.c.inbox w ≠ [] → ((r.st t).M.x.c.inbox w).length ≠ 0 := fun h h' => h (List.length_eq_zero_iff.1 h')
        rcases h5 with o | ⟨e1, e2, e3, _⟩
        · cases o <;> simp_all [Pool.left]
        · simp [e1, e2]) T (Nat.le_refl _)
  exact h

/-- No caller is about to submit a task. -/
theorem quiet_picking (_hN : 0 < c.N) {i u : Nat} (hu : T ≤ u) : (r.st u).caller i ≠ .picking := by
  intro hpk
  have hi : i < K := by
    obtain ⟨fr, js, hcl⟩ := calls (run_reach r u)
    exact hcl.lt i (by rw [hpk]; simp)
  obtain ⟨_, _, h⟩ := Run.leads hf (.caller i) (fun t => T ≤ t ∧ (r.st t).caller i = .picking) (fun _ => False) (fun _ => 0)
    (fun t ht => by show ready c (r.st t) (.caller i); simp only [ready, ht.2])
    (fun t ht => by
      right
      rcases r.next t with ⟨e1, e2⟩ | ⟨a, e1, st⟩
      · exact ⟨⟨by omega, by rw [e2]; exact ht.2⟩, Nat.le_refl _, by rw [e1]; intro e; cases e⟩
      · have hn := fun h => hq t ht.1 ⟨by rw [e1]; simp, h⟩
        have hne : a ≠ .caller i := by
          intro e
          rw [e] at st
          exact hn ((caller_own st).1 ht.2)
        exact ⟨⟨by omega, by rw [caller_other st hne]; exact ht.2⟩, Nat.le_refl _, fun e => by rw [e1] at e; cases e; exact absurd rfl hne⟩) u ⟨hu, hpk⟩
  exact h

include hd hp hroot in
theorem quiet_done {f u : Nat} (hu : T ≤ u) (h : f < (r.st u).M.x.c.nf) : ∃ v, Ev.done f v ∈ (r.st u).M.x.c.log :=
  Exn.nothing_lost (disc_ctl hd) (reach_exn hd hp hroot (run_reach r u)) (fun _ => quiet_idle hd hp hroot hf hq hu) (fun _ => quiet_inbox hd hp hroot hf hq hu) f h
end

theorem before_stays (r : Run (system c body may K root dep m)) {t i : Nat} (h : (r.st t).caller i ≠ .before) : ∀ u, t ≤ u → (r.st u).caller i ≠ .before := by
  refine r.keep (fun s => s.caller i ≠ .before) h fun u a _ hu st => ?_
  cases kind st with
  | same h1 h2 => rw [h2]; exact hu
  | work w ch h1 h2 h3 h4 => rw [h4]; exact hu
  | begin k h1 h2 h3 h4 h5 => rw [h5, upd_apply]; split <;> first | simp; done | exact hu
  | submit k d h1 h2 h3 h4 h5 => rw [h5, upd_apply]; split <;> first | simp; done | exact hu
  | get k f v h1 h2 h3 h4 h5 => rw [h5, upd_apply]; split <;> first | simp; done | exact hu

theorem back_stays (r : Run (system c body may K root dep m)) {t i f : Nat} {v : Except E V} (h : (r.st t).caller i = .back f v) :
    ∀ u, t ≤ u → (r.st u).caller i = .back f v := by
  refine r.keep (fun s => s.caller i = .back f v) h fun u a _ hu st => ?_
  cases kind st with
  | same h1 h2 => rw [h2]; exact hu
  | work w ch h1 h2 h3 h4 => rw [h4]; exact hu
  | begin k h1 h2 h3 h4 h5 => rw [h5, upd_ne _ _ (by rintro rfl; rw [hu] at h2; cases h2)]; exact hu
  | submit k d h1 h2 h3 h4 h5 => rw [h5, upd_ne _ _ (by rintro rfl; rw [hu] at h3; cases h3)]; exact hu
  | get k g v h1 h2 h3 h4 h5 => rw [h5, upd_ne _ _ (by rintro rfl; rw [hu] at h2; cases h2)]; exact hu

include hd hp hN hroot in
/-- C67: the task of every call of `schedule` is finished and its result can be got; every call of `get` (hence of `sync_wait`) returns or throws: in every
fair schedule, if every root task run by one thread ends, whatever it finds in memory. -/
theorem C67_returns (hE : ∀ i, i < K → ∃ n, Ends (ctl body) (fun _ => True) (root i) [] [] n) {r : Run (system c body may K root dep m)} (hf : r.Fair)
    {t i : Nat} (hcall : (r.st t).caller i ≠ .before) : ∃ t' f v, t ≤ t' ∧ (r.st t').caller i = .back f v := by
  obtain ⟨T, hq⟩ := rests hd hp hroot hE r
  have h0 := before_stays r hcall (max t T) (by omega)
  have h1 := quiet_picking hf hq hN (i := i) (u := max t T) (by omega)
  cases hc : (r.st (max t T)).caller i with
  | before => exact absurd hc h0
  | picking => exact absurd hc h1
  | back f v => exact ⟨_, f, v, by omega, hc⟩
  | waiting f =>
    obtain ⟨t', h2, v, h3⟩ := Run.leads hf (.caller i) (fun u => max t T ≤ u ∧ (r.st u).caller i = .waiting f)
      (fun u => ∃ v, (r.st u).caller i = .back f v) (fun _ => 0)
      (fun u hu => by
        show ready c (r.st u) (.caller i)
        simp only [ready, hu.2]
        exact quiet_done hd hp hroot hf hq (by omega) (waiting_lt hd hp hroot (run_reach r u) hu.2))
      (fun u hu => by
        rcases r.next u with ⟨e1, e2⟩ | ⟨a, e1, st⟩
        · exact .inr ⟨⟨by omega, by rw [e2]; exact hu.2⟩, Nat.le_refl _, by rw [e1]; intro e; cases e⟩
        · by_cases e : a = .caller i
          · rw [e] at st
            exact .inl ((caller_own st).2 f hu.2)
          · exact .inr ⟨⟨by omega, by rw [caller_other st e]; exact hu.2⟩, Nat.le_refl _, fun h => by rw [e1] at h; cases h; exact absurd rfl e⟩) _ ⟨Nat.le_refl _, hc⟩
    exact ⟨t', f, v, by omega, h3⟩

include hd hp hN hroot in
/-- C67: so when all the calls have been made, there is a time from which on their results have been got and memory is as `C67_result` says. -/
theorem C67_completes (hrf : RaceFree body may (Together K root dep) m) (hE : ∀ i, i < K → ∃ n, Ends (ctl body) (fun _ => True) (root i) [] [] n)
    {r : Run (system c body may K root dep m)} (hf : r.Fair) {t : Nat} (hcall : ∀ i, i < K → (r.st t).caller i ≠ .before) :
    ∃ t', t ≤ t' ∧ ∀ u, t' ≤ u → ∃ l : List (Nat × Except E V), (l.map Prod.fst).Nodup ∧ (∀ i, i ∈ l.map Prod.fst ↔ i < K) ∧
      (∀ q ∈ l, ∃ f, (r.st u).caller q.1 = .back f q.2) ∧ l.Pairwise (fun q q' => ¬ dep q.1 q'.1) ∧
      Runs body may m (l.map fun q => (root q.1, q.2)) (r.st u).M.m := by
  obtain ⟨t', h1, h2⟩ := Fair.all_eventually (fun i u => ∃ f v, (r.st u).caller i = .back f v) K t fun i hi => by
    obtain ⟨t', f, v, h1, h2⟩ := C67_returns hd hp hN hroot hE hf (hcall i hi)
    exact ⟨t', h1, fun u hu => ⟨f, v, back_stays r h2 u hu⟩⟩
  exact ⟨t', h1, fun u hu => C67_result hd hp hroot hrf (run_reach r u) fun i hi => h2 u hu i hi⟩

/-- The steps left of a worker that has been told to stop, when there is nothing to do any more. -/
def exitRank : Pc → Nat
  | .fin4 => 0
  | .fin3 => 1
  | .fin2 => 2
  | .fin1 => 3
  | .dpop => 4
  | .drun => 5
  | .chk => 7
  | .task => 8
  | .steal => 9
  | .run => 8
  | .pop => 10

theorem stop_stays (r : Run (system c body may K root dep m)) {t : Nat} (h : (r.st t).stop = true) : ∀ u, t ≤ u → (r.st u).stop = true :=
  r.keep (fun s => s.stop = true) h fun _ _ _ hu st => stop_step st hu

theorem dpc_step {a : Actor} {s s' : B σ V E L} (st : Step c body may K root dep a s (.ok s')) :
    (s.dpc = .joining → (a ≠ .dtor ∧ s'.dpc = .joining) ∨ s'.dpc = .gone) ∧ (s.dpc = .gone → s'.dpc = .gone) := by
  generalize hr : Res.ok s' = res at st
  have same : ∀ {s' : B σ V E L} {a : Actor}, a ≠ .dtor → s'.dpc = s.dpc → (s.dpc = .joining → (a ≠ .dtor ∧ s'.dpc = .joining) ∨ s'.dpc = .gone) ∧ (s.dpc = .gone → s'.dpc = .gone) :=
    fun h1 h2 => by rw [h2]; exact ⟨fun h => .inl ⟨h1, h⟩, id⟩
  cases st with
  | loop _ _ v h1 h2 => cases hr; exact same (by simp) (loop_same h2).2.2.1
  | noSteal => cases hr; exact same (by simp) rfl
  | stole =>
    split at hr
    · cases hr
    · obtain ⟨M, e, rfl⟩ := map_ok hr.symm; exact same (by simp) rfl
  | take => obtain ⟨M, e, rfl⟩ := map_ok hr.symm; exact same (by simp) rfl
  | work => obtain ⟨M, e, rfl⟩ := map_ok hr.symm; exact same (by simp) rfl
  | lost => cases hr
  | race => cases hr
  | begin => cases hr; exact same (by simp) rfl
  | get => cases hr; exact same (by simp) rfl
  | dstop _ h1 => cases hr; rw [h1]; exact ⟨(fun h => by cases h), (fun h => by cases h)⟩
  | djoin _ h1 h2 => cases hr; exact ⟨fun _ => .inr rfl, fun _ => rfl⟩
  | submit =>
    split at hr
    · cases hr
    · cases hr; exact same (by simp) rfl

include hd hp hroot in
/-- C67: the destructor of the pool, once called, returns. -/
theorem C67_destroyed (hE : ∀ i, i < K → ∃ n, Ends (ctl body) (fun _ => True) (root i) [] [] n) {r : Run (system c body may K root dep m)} (hf : r.Fair)
    {t : Nat} (hdt : (r.st t).dpc ≠ .alive) : ∃ t', t ≤ t' ∧ (r.st t').dpc = .gone := by
  obtain ⟨T, hq⟩ := rests hd hp hroot hE r
  have hinv := fun u => reach_inv hd hp hroot (run_reach r u)
  have hs : ∀ u, max t T ≤ u → (r.st u).stop = true := fun u hu => stop_stays r ((hinv t).dstop hdt) u (by omega)
  have hbox := fun w u (hu : T ≤ u) => quiet_inbox hd hp hroot hf hq (w := w) hu
  have fall : ∀ w u, max t T ≤ u → r.who u = some (.worker w) → exitRank ((r.st (u + 1)).pc w) < exitRank ((r.st u).pc w) := by
    intro w u hu hw
    rcases quiet_next hq (t := u) (by omega) w with ⟨h4, _⟩ | ⟨_, h5⟩
    · exact absurd hw h4
    · have h0 := hbox w u (by omega)
      have h1 := hs u hu
      clear hs hbox
      rcases h5 with o | ⟨e1, e2, _⟩
      · cases o <;> grind [exitRank]
      · rw [e1, e2]; decide
  have stay : ∀ w u, max t T ≤ u → r.who u ≠ some (.worker w) → (r.st (u + 1)).pc w = (r.st u).pc w := by
    intro w u hu hw
    rcases quiet_next hq (t := u) (by omega) w with ⟨_, h5, _⟩ | ⟨h5, _⟩
    · exact h5
    · exact absurd h5 hw
  have mono : ∀ w k, ∀ u, max t T ≤ u → exitRank ((r.st u).pc w) ≤ k → ∀ d, exitRank ((r.st (u + d)).pc w) ≤ k := by
    intro w k u hu hk d
    induction d with
    | zero => exact hk
    | succ d ih =>
      by_cases e : r.who (u + d) = some (.worker w)
      · have := fall w (u + d) (by omega) e; rw [← Nat.add_assoc]; omega
      · rw [← Nat.add_assoc, stay w (u + d) (by omega) e]; exact ih
  obtain ⟨t1, l1, k1⟩ := Fair.all_eventually (fun w u => exitRank ((r.st u).pc w) ≤ 1) c.N (max t T) fun w hw => by
    have h := Run.leads hf (.worker w) (fun u => max t T ≤ u ∧ ¬ exitRank ((r.st u).pc w) ≤ 1) (fun u => exitRank ((r.st u).pc w) ≤ 1 ∧ max t T ≤ u)
      (fun u => exitRank ((r.st u).pc w))
      (fun u hu => ⟨hw, (fun e => hu.2 (by rw [e]; decide)), (fun e => absurd (by rw [e]; decide) hu.2)⟩)
      (fun u hu => by
        by_cases hle : exitRank ((r.st (u + 1)).pc w) ≤ 1
        · exact .inl ⟨hle, by omega⟩
        · right
          refine ⟨⟨by omega, hle⟩, ?_⟩
          by_cases e : r.who u = some (.worker w)
          · have := fall w u hu.1 e; exact ⟨by omega, fun _ => this⟩
          · rw [stay w u hu.1 e]; exact ⟨Nat.le_refl _, fun h => absurd h e⟩)
    obtain ⟨t1, h1, h2⟩ : ∃ t', max t T ≤ t' ∧ (exitRank ((r.st t').pc w) ≤ 1 ∧ max t T ≤ t') := by
      by_cases hle : exitRank ((r.st (max t T)).pc w) ≤ 1
      · exact ⟨max t T, Nat.le_refl _, hle, Nat.le_refl _⟩
      · exact h _ ⟨Nat.le_refl _, hle⟩
    refine ⟨t1, h1, fun u hu => ?_⟩
    have := mono w 1 t1 h2.2 h2.1 (u - t1)
    rw [Nat.add_sub_cancel' hu] at this; exact this
  have hlatch : ∀ u, t1 ≤ u → ∀ w, w < c.N → (r.st u).pc w = .fin3 → (r.st u).latch = 0 := fun u hu w hw he => by
    cases hc : c.unit with
    | true => exact absurd he ((hinv u).unit hc w).2.2.2.2
    | false =>
      rw [(reach_latch hc (run_reach r u)).latch]
      refine EventCount.num_zero.2 fun v hv => ?_
      have := k1 u hu v hv
      revert this
      cases (r.st u).pc v <;> simp [exitRank, before]
  obtain ⟨t2, l2, k2⟩ := Fair.all_eventually (fun w u => exitRank ((r.st u).pc w) ≤ 0) c.N t1 fun w hw => by
    have h := Run.leads hf (.worker w) (fun u => t1 ≤ u ∧ ¬ exitRank ((r.st u).pc w) ≤ 0) (fun u => exitRank ((r.st u).pc w) ≤ 0 ∧ t1 ≤ u)
      (fun u => exitRank ((r.st u).pc w))
      (fun u hu => ⟨hw, (fun e => hu.2 (by rw [e]; decide)), (fun e => hlatch u hu.1 w hw e)⟩)
      (fun u hu => by
        by_cases hle : exitRank ((r.st (u + 1)).pc w) ≤ 0
        · exact .inl ⟨hle, by omega⟩
        · right
          refine ⟨⟨by omega, hle⟩, ?_⟩
          by_cases e : r.who u = some (.worker w)
          · have := fall w u (by omega) e; exact ⟨by omega, fun _ => this⟩
          · rw [stay w u (by omega) e]; exact ⟨Nat.le_refl _, fun h => absurd h e⟩)
    obtain ⟨t2, h1, h2⟩ : ∃ t', t1 ≤ t' ∧ (exitRank ((r.st t').pc w) ≤ 0 ∧ t1 ≤ t') := by
      by_cases hle : exitRank ((r.st t1).pc w) ≤ 0
      · exact ⟨t1, Nat.le_refl _, hle, Nat.le_refl _⟩
      · exact h _ ⟨Nat.le_refl _, hle⟩
    refine ⟨t2, h1, fun u hu => ?_⟩
    have := mono w 0 t2 (by omega) h2.1 (u - t2)
    rw [Nat.add_sub_cancel' hu] at this; exact this
  have hfin : ∀ u, t2 ≤ u → ∀ w, w < c.N → (r.st u).pc w = .fin4 := fun u hu w hw => by
    have := k2 u hu w hw
    revert this
    cases (r.st u).pc w <;> simp [exitRank]
  have hd2 := r.keep (fun s => s.dpc = .joining ∨ s.dpc = .gone) (t := t) (by cases h : (r.st t).dpc <;> simp_all) (fun u a _ h st => by
    rcases h with h | h
    · rcases (dpc_step st).1 h with k | k
      · exact .inl k.2
      · exact .inr k
    · exact .inr ((dpc_step st).2 h)) t2 (by omega)
  rcases hd2 with hd2 | hd2
  · obtain ⟨t3, h1, h2⟩ := Run.leads' hf .dtor (fun s => s.dpc = .joining) (fun s => s.dpc = .gone) (fun _ => 0)
      (fun u => t2 ≤ u) (fun _ h => by omega) (fun u hu h _ => ⟨h, hfin u hu⟩) (fun u b hu h hb st => by
        rcases (dpc_step st).1 h with ⟨k1, k2⟩ | k
        · exact .inr ⟨k2, Nat.le_refl _, fun x => absurd x k1⟩
        · exact .inl k) t2 (Nat.le_refl _) hd2
    exact ⟨t3, by omega, h2⟩
  · exact ⟨t2, by omega, hd2⟩

end

end Verif.Busy
