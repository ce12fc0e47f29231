import Verif.Hb.Closed
import Verif.Mem.Example

/-! An execution with a steal that meets the hypotheses of C72, and one of a program with a race. -/
namespace Verif.Hb
open Verif.Mem (P prog pPend prog_disc idle stolen)
open Verif.Runtime (Few)

def exec (body : P → Mem.Act P Nat Nat Nat) : List (Nat × Runtime.Choice) → HS P Nat Nat Nat → Option (HS P Nat Nat Nat)
  | [], a => some a
  | (w, ch) :: l, a =>
    match step body w (.go ch) a with
    | .ok a' => exec body l a'
    | _ => none

/-- An execution of the runtime, without asking that there be few steals: C56 shows there are. -/
theorem few_reach {cell : Nat → Nat} {a : HS P Nat Nat Nat} (h : Reach (prog cell) pPend (fun _ => False) idle (fun _ => 0) a) : Few a.s.x.c := by
  have hr := reach_x h
  have ha : Exn.ReachAny (Mem.ctl (prog cell)) pPend (fun _ => True) a.s.x := by
    clear h
    generalize a.s.x = x at hr
    induction hr with
    | start y => exact .start y
    | submit w _ _ hp ih => exact .submit w ih hp
    | step _ _ hc hs ih => exact .step ih hc hs
  exact (Exn.reach_of_bounded (Mem.disc_ctl (prog_disc cell)) (fun y => by cases y <;> simp [pPend]) ha).2

theorem exec_reach {cell : Nat → Nat} {l : List (Nat × Runtime.Choice)} {a a' : HS P Nat Nat Nat} (h : Reach (prog cell) pPend (fun _ => False) idle (fun _ => 0) a)
    (he : exec (prog cell) l a = some a') : Reach (prog cell) pPend (fun _ => False) idle (fun _ => 0) a' := by
  induction l generalizing a with
  | nil => cases he; exact h
  | cons y l ih =>
    obtain ⟨w, ch⟩ := y
    simp only [exec] at he
    split at he
    · rename_i a1 hs
      exact ih (Reach.step (ch := .go ch) h (few_reach h) trivial hs) he
    · cases he

/-- Thread 7 submits the task of Verif.Mem.Example to worker 0; worker 1 steals it from worker 0 (`stolen`). -/
def after (cell : Nat → Nat) : Option (HS P Nat Nat Nat) := exec (prog cell) stolen (submit (HS.start .main fun _ => 0) 7 .main 0)

theorem after_reach {cell : Nat → Nat} {a : HS P Nat Nat Nat} (h : after cell = some a) : Reach (prog cell) pPend (fun _ => False) idle (fun _ => 0) a :=
  exec_reach (.submit 7 0 (.start _) (few_reach (cell := cell) (.start _)) rfl ⟨rfl, fun c' ⟨_, _, h, _⟩ => by cases h⟩) h

/-- The accesses to the cells: step 6 of task 2 on worker 1, step 12 of task 1 on worker 0, and 17 to 19 of the task itself, after the join on worker 0.
The leaves' writes are not ordered; both happen before what comes after the join, and before what thread 7 does after waiting. -/
theorem after_trace : (after id).map (fun a => (a.tr.filterMap fun r => r.acc.map fun x => (r.no, r.task, x.1, x.2, r.known), a.h.kr 0)) = some
    ([(19, 0, 2, true, [19, 18, 17, 16, 15, 14, 13, 12, 2, 0, 1, 11, 10, 9, 8, 7, 6, 5, 4, 2, 0, 1, 3]),
      (18, 0, 1, false, [18, 17, 16, 15, 14, 13, 12, 2, 0, 1, 11, 10, 9, 8, 7, 6, 5, 4, 2, 0, 1, 3]),
      (17, 0, 0, false, [17, 16, 15, 14, 13, 12, 2, 0, 1, 11, 10, 9, 8, 7, 6, 5, 4, 2, 0, 1, 3]),
      (12, 1, 0, true, [12, 2, 0, 1]),
      (6, 2, 1, true, [6, 5, 4, 2, 0, 1, 3])],
    some [20, 19, 18, 17, 16, 15, 14, 13, 12, 2, 0, 1, 11, 10, 9, 8, 7, 6, 5, 4, 2, 0, 1, 3]) := rfl

/-- C72 on it: thread 7 waits for the task; all steps of the leaves happen before what it does next. -/
example : ∃ a a', Reach (prog id) pPend (fun _ => False) idle (fun _ => 0) a ∧ wait a 7 0 = .ok a' ∧ (∃ r ∈ a.tr, r.task = 2 ∧ r.acc = some (1, true)) ∧
    ∀ r ∈ a.tr, Under a.g.par 0 r.task → r.no ∈ a'.h.kt 7 := by
  have h1 : (after id).map (fun a => (a.h.kr 0).isSome && a.tr.any fun r => decide (r.task = 2) && decide (r.acc = some (1, true))) = some true := by decide +kernel
  obtain ⟨a, ha, h2⟩ := Option.map_eq_some_iff.1 h1
  rw [Bool.and_eq_true, List.any_eq_true] at h2
  obtain ⟨h3, r, hr, h4⟩ := h2
  rw [Bool.and_eq_true, decide_eq_true_eq, decide_eq_true_eq] at h4
  obtain ⟨k, hk⟩ := Option.isSome_iff_exists.1 h3
  have hw : ∃ a', wait a 7 0 = .ok a' := by unfold wait; rw [hk]; exact ⟨_, rfl⟩
  obtain ⟨a', hw⟩ := hw
  exact ⟨a, a', after_reach ha, hw, ⟨r, hr, h4⟩, C72_wait (prog_disc id) (after_reach ha) hw⟩

/-- If both leaves write one cell, two accesses conflict and neither happens before the other: the runtime does not order what the program does not. -/
theorem race_unordered : ∃ a, Reach (prog fun _ => 0) pPend (fun _ => False) idle (fun _ => 0) a ∧
    ∃ r ∈ a.tr, ∃ r' ∈ a.tr, Conflict r r' ∧ r'.no ∉ r.known ∧ r.no ∉ r'.known := by
  have h1 : (after fun _ => 0).map (fun a => a.tr.any fun r => a.tr.any fun r' => decide (r.acc = some (0, true)) && decide (r'.acc = some (0, true)) &&
      decide (r'.no ∉ r.known) && decide (r.no ∉ r'.known)) = some true := by decide +kernel
  obtain ⟨a, ha, h2⟩ := Option.map_eq_some_iff.1 h1
  simp only [List.any_eq_true, Bool.and_eq_true, decide_eq_true_eq] at h2
  obtain ⟨r, hr, r', hr', ⟨⟨h3, h4⟩, h5⟩, h6⟩ := h2
  exact ⟨a, after_reach ha, r, hr, r', hr', ⟨0, true, true, h3, h4, .inl rfl⟩, h5, h6⟩

end Verif.Hb
