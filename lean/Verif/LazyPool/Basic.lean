import Verif.LazyPool.Model

/-! The counters of the lazy pool count the workers. -/
namespace Verif.LazyPool
open Verif.EventCount

theorem inc_of {x : Nat} (h : x < P32) : inc x = x + 1 := by unfold inc P64; unfold P32 at h; omega
theorem decr_of {x : Nat} (h0 : 0 < x) (h : x ≤ P32) : decr x = x - 1 := by unfold decr P64; unfold P32 at h; omega

/-- Counted in `thief`. -/
def isThief : Pc → Bool
  | .pop1 | .steal | .prep | .pop2 | .cancelPop | .stopChk | .quit1 | .quit2 | .quit3 | .quit4 | .dec | .tws1 => true
  | _ => false

/-- Counted in `active`. -/
def isActive : Pc → Bool
  | .scan | .sc2 | .sc3 | .work | .deact => true
  | _ => false

/-- Not yet arrived at `latch_stop`. -/
def before : Pc → Bool
  | .fin3 | .fin4 => false
  | _ => true

/-- A step changes the place of its own worker; others can only be unblocked. -/
theorem others {c : Cfg} {a : Actor} {s s' : St} (st : Step c a s s') (u : Nat) (h : a ≠ .worker u) :
    s'.pc u = s.pc u ∨ (s.pc u = .asleep ∧ s'.pc u = .look) := by
  cases st <;>
    simp only [doWake, doPop, doPrep, doCancel, St.bump, doUnthief, doSleep, doAct, doNext, St.go, rouse, upd_apply] <;>
    grind [Eligible]

/-- The number of workers of domain `i` at a place of the class `f`. -/
def cnt (c : Cfg) (f : Pc → Bool) (i : Nat) (s : St) : Nat := num c.N fun w => f (s.pc w) && c.dom w == i

theorem keep {c : Cfg} {a : Actor} {s s' : St} (st : Step c a s s') (f : Pc → Bool) (hf : f .look = f .asleep) (u : Nat)
    (h : a ≠ .worker u) : f (s'.pc u) = f (s.pc u) := by
  rcases others st u h with h | ⟨h, h'⟩
  · rw [h]
  · rw [h, h', hf]

theorem cnt_worker {c : Cfg} {w : Nat} {s s' : St} (st : Step c (.worker w) s s') (hw : w < c.N) (f : Pc → Bool)
    (hf : f .look = f .asleep) (i : Nat) :
    cnt c f i s' + (if f (s.pc w) && c.dom w == i then 1 else 0) = cnt c f i s + (if f (s'.pc w) && c.dom w == i then 1 else 0) :=
  num_change (f := fun w => f (s.pc w) && c.dom w == i) (g := fun w => f (s'.pc w) && c.dom w == i) hw fun u hu => by
    show (f (s.pc u) && _) = (f (s'.pc u) && _)
    rw [keep st f hf u (by simp; exact fun e => hu e.symm)]

theorem cnt_other {c : Cfg} {a : Actor} {s s' : St} (st : Step c a s s') (ha : ∀ w, a ≠ .worker w) (f : Pc → Bool)
    (hf : f .look = f .asleep) (i : Nat) : cnt c f i s' = cnt c f i s :=
  num_congr fun u _ => by rw [keep st f hf u (ha u)]

theorem all_worker {c : Cfg} {w : Nat} {s s' : St} (st : Step c (.worker w) s s') (hw : w < c.N) (f : Pc → Bool)
    (hf : f .look = f .asleep) :
    (num c.N fun u => f (s'.pc u)) + (if f (s.pc w) then 1 else 0) = (num c.N fun u => f (s.pc u)) + (if f (s'.pc w) then 1 else 0) :=
  num_change (f := fun w => f (s.pc w)) (g := fun w => f (s'.pc w)) hw fun u hu =>
    (keep st f hf u (by simp; exact fun e => hu e.symm)).symm

theorem all_other {c : Cfg} {a : Actor} {s s' : St} (st : Step c a s s') (ha : ∀ w, a ≠ .worker w) (f : Pc → Bool)
    (hf : f .look = f .asleep) : (num c.N fun u => f (s'.pc u)) = num c.N fun u => f (s.pc u) :=
  num_congr fun u _ => keep st f hf u (ha u)

theorem worker_lt {c : Cfg} {w : Nat} {s s' : St} (st : Step c (.worker w) s s') : w < c.N := by
  cases st <;> assumption

theorem cnt_le (c : Cfg) (f : Pc → Bool) (i : Nat) (s : St) : cnt c f i s ≤ c.N := num_le _ _

theorem cnt_pos {c : Cfg} {f : Pc → Bool} {i : Nat} {s : St} : 0 < cnt c f i s ↔ ∃ w, w < c.N ∧ f (s.pc w) = true ∧ c.dom w = i := by
  unfold cnt; rw [num_pos]; simp

theorem cnt_zero {c : Cfg} {f : Pc → Bool} {i : Nat} {s : St} : cnt c f i s = 0 ↔ ∀ w, w < c.N → c.dom w = i → f (s.pc w) = false := by
  unfold cnt; rw [num_zero]; simp only [Bool.and_eq_false_iff, beq_eq_false_iff_ne]
  constructor
  · intro h w hw he; rcases h w hw with h | h
    · exact h
    · exact absurd he h
  · intro h w hw
    by_cases e : c.dom w = i
    · exact .inl (h w hw e)
    · exact .inr e

structure Counts (c : Cfg) (s : St) : Prop where
  rep : ∀ i, Rep (s.val i) (s.n i) (cnt c reg i s)
  thief : ∀ i, s.thief i = cnt c isThief i s
  active : s.active = num c.N fun w => isActive (s.pc w)
  latch : s.latch = num c.N fun w => before (s.pc w)

theorem start_counts (c : Cfg) : Counts c (St.start c) where
  rep i := by
    have : cnt c reg i (St.start c) = 0 := cnt_zero.2 fun _ _ _ => rfl
    rw [this]; unfold Rep P32 St.start; simp
  thief i := (cnt_zero.2 fun _ _ _ => rfl).symm
  active := (num_zero.2 fun _ _ => rfl).symm
  latch := by simp [St.start, num, before]

set_option maxHeartbeats 4000000 in
theorem rep_step {c : Cfg} (hc : c.Ok) {a : Actor} {s s' : St} (h : Counts c s) (st : Step c a s s') (i : Nat) :
    Rep (s'.val i) (s'.n i) (cnt c reg i s') := by
  have h0 := h.rep i
  have hle := cnt_le c reg i s'
  have hs := hc.small
  have ha : ∀ v n k, Rep v n k → k + 1 < P32 → Rep (addWaiter v) n (k + 1) := fun v n k => Rep.addWaiter
  have hb : ∀ v n k, Rep v n (k + 1) → Rep (subWaiter v) n k := fun v n k => Rep.subWaiter
  have hd : ∀ v n k, Rep v n k → Rep (addEpoch v) (n + 1) k := fun v n k => Rep.addEpoch
  cases a with
  | worker w =>
    have hw := worker_lt st
    have hk := cnt_worker st hw reg rfl i
    generalize cnt c reg i s = k0 at *
    generalize cnt c reg i s' = k at *
    cases st <;>
      simp only [doWake, doPop, doPrep, doCancel, St.bump, doUnthief, doSleep, doAct, doNext, St.go, upd_apply, reg, *] at hk ⊢ <;>
      by_cases e : c.dom w = i <;>
      grind [reg]
  | submit j =>
    have hk := cnt_other st (by simp) reg rfl i
    generalize cnt c reg i s = k0 at *
    generalize cnt c reg i s' = k at *
    cases st <;> simp only [St.bump, upd_apply] at hk ⊢ <;> grind
  | dtor =>
    have hk := cnt_other st (by simp) reg rfl i
    generalize cnt c reg i s = k0 at *
    generalize cnt c reg i s' = k at *
    cases st <;> simp only [St.bump, upd_apply] at hk ⊢ <;> grind

set_option maxHeartbeats 4000000 in
theorem thief_step {c : Cfg} (hc : c.Ok) {a : Actor} {s s' : St} (h : Counts c s) (st : Step c a s s') (i : Nat) :
    s'.thief i = cnt c isThief i s' := by
  have h0 := h.thief i
  have hle := cnt_le c isThief i s'
  have hle0 := cnt_le c isThief i s
  have hs := hc.small
  have ha : ∀ x, x < P32 → inc x = x + 1 := fun x => inc_of
  have hb : ∀ x, 0 < x → x ≤ P32 → decr x = x - 1 := fun x => decr_of
  cases a with
  | worker w =>
    have hw := worker_lt st
    have hk := cnt_worker st hw isThief rfl i
    generalize cnt c isThief i s = k0 at *
    generalize cnt c isThief i s' = k at *
    cases st <;>
      simp only [doWake, doPop, doPrep, doCancel, St.bump, doUnthief, doSleep, doAct, doNext, St.go, upd_apply, isThief, *] at hk ⊢ <;>
      by_cases e : c.dom w = i <;>
      grind [isThief]
  | submit j =>
    have hk := cnt_other st (by simp) isThief rfl i
    generalize cnt c isThief i s = k0 at *
    generalize cnt c isThief i s' = k at *
    cases st <;> simp only [St.bump] at hk ⊢ <;> grind
  | dtor =>
    have hk := cnt_other st (by simp) isThief rfl i
    generalize cnt c isThief i s = k0 at *
    generalize cnt c isThief i s' = k at *
    cases st <;> simp only [St.bump] at hk ⊢ <;> grind

set_option maxHeartbeats 4000000 in
theorem active_step {c : Cfg} (hc : c.Ok) {a : Actor} {s s' : St} (h : Counts c s) (st : Step c a s s') :
    s'.active = num c.N fun w => isActive (s'.pc w) := by
  have h0 := h.active
  have hle := num_le c.N fun w => isActive (s'.pc w)
  have hle0 := num_le c.N fun w => isActive (s.pc w)
  have hs := hc.small
  have ha : ∀ x, x < P32 → inc x = x + 1 := fun x => inc_of
  have hb : ∀ x, 0 < x → x ≤ P32 → decr x = x - 1 := fun x => decr_of
  cases a with
  | worker w =>
    have hw := worker_lt st
    have hk := all_worker st hw isActive rfl
    generalize (num c.N fun w => isActive (s.pc w)) = k0 at *
    generalize (num c.N fun w => isActive (s'.pc w)) = k at *
    cases st <;>
      simp only [doWake, doPop, doPrep, doCancel, St.bump, doUnthief, doSleep, doAct, doNext, St.go, upd_apply, isActive, *] at hk ⊢ <;>
      grind [isActive]
  | submit j =>
    have hk := all_other st (by simp) isActive rfl
    generalize (num c.N fun w => isActive (s.pc w)) = k0 at *
    generalize (num c.N fun w => isActive (s'.pc w)) = k at *
    cases st <;> simp only [St.bump] at hk ⊢ <;> grind
  | dtor =>
    have hk := all_other st (by simp) isActive rfl
    generalize (num c.N fun w => isActive (s.pc w)) = k0 at *
    generalize (num c.N fun w => isActive (s'.pc w)) = k at *
    cases st <;> simp only [St.bump] at hk ⊢ <;> grind

set_option maxHeartbeats 4000000 in
theorem latch_step {c : Cfg} {a : Actor} {s s' : St} (h : Counts c s) (st : Step c a s s') :
    s'.latch = num c.N fun w => before (s'.pc w) := by
  have h0 := h.latch
  cases a with
  | worker w =>
    have hw := worker_lt st
    have hk := all_worker st hw before rfl
    generalize (num c.N fun w => before (s.pc w)) = k0 at *
    generalize (num c.N fun w => before (s'.pc w)) = k at *
    cases st <;>
      simp only [doWake, doPop, doPrep, doCancel, St.bump, doUnthief, doSleep, doAct, doNext, St.go, upd_apply, before, *] at hk ⊢ <;>
      grind [before]
  | submit j =>
    have hk := all_other st (by simp) before rfl
    generalize (num c.N fun w => before (s.pc w)) = k0 at *
    generalize (num c.N fun w => before (s'.pc w)) = k at *
    cases st <;> simp only [St.bump] at hk ⊢ <;> grind
  | dtor =>
    have hk := all_other st (by simp) before rfl
    generalize (num c.N fun w => before (s.pc w)) = k0 at *
    generalize (num c.N fun w => before (s'.pc w)) = k at *
    cases st <;> simp only [St.bump] at hk ⊢ <;> grind

theorem counts_step {c : Cfg} (hc : c.Ok) {a : Actor} {s s' : St} (h : Counts c s) (st : Step c a s s') : Counts c s' :=
  ⟨rep_step hc h st, thief_step hc h st, active_step hc h st, latch_step h st⟩

theorem reach_counts {c : Cfg} (hc : c.Ok) {s : St} (h : Reach c s) : Counts c s := by
  induction h with
  | start => exact start_counts c
  | step _ _ st ih => exact counts_step hc ih st

end Verif.LazyPool
