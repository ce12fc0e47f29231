import Verif.Own.Props
import Verif.Hb.Example

/-! An execution in which a stack passes from one worker to another, which meets the hypotheses of C75; and why `top` is called before the decrement. -/
namespace Verif.Own
open Verif.Mem (P prog pPend prog_disc idle t)
open Verif.Hb (HS few_reach)

def exec (body : P → Mem.Act P Nat Nat Nat) : List (Nat × Runtime.Choice) → OS P Nat Nat Nat → Option (OS P Nat Nat Nat)
  | [], o => some o
  | (w, ch) :: l, o =>
    match step body w (.go ch) o with
    | .ok o' => exec body l o'
    | _ => none

theorem exec_reach {cell : Nat → Nat} {l : List (Nat × Runtime.Choice)} {o o' : OS P Nat Nat Nat} (h : Reach (prog cell) pPend (fun _ => False) idle (fun _ => 0) o)
    (he : exec (prog cell) l o = some o') : Reach (prog cell) pPend (fun _ => False) idle (fun _ => 0) o' := by
  induction l generalizing o with
  | nil => cases he; exact h
  | cons y l ih =>
    obtain ⟨w, ch⟩ := y
    simp only [exec] at he
    split at he
    · rename_i o1 hs
      exact ih (Reach.step (ch := .go ch) h (few_reach (reach_hb h)) trivial hs) he
    · cases he

/-- Worker 1 steals the task; worker 0 runs the first leaf and gives the stack of the task away when it reports (step 8); worker 1 runs the second leaf, joins, and takes the stack (step 15);
only then does worker 0 replace its own stack. -/
def passed : List (Nat × Runtime.Choice) :=
  [t 0, t 0, (1, .steal 0), t 1, t 0, t 0, t 0, t 0, t 1, t 1, t 1, t 1, t 1, t 1, t 1]

def after (l : List (Nat × Runtime.Choice)) : Option (OS P Nat Nat Nat) := exec (prog id) l (submit ⟨HS.start .main fun _ => 0, []⟩ 7 .main 0)

theorem after_reach {l : List (Nat × Runtime.Choice)} {o : OS P Nat Nat Nat} (h : after l = some o) : Reach (prog id) pPend (fun _ => False) idle (fun _ => 0) o :=
  exec_reach (.submit 7 0 (.start _) (few_reach (cell := id) (.start _)) rfl ⟨rfl, fun c' ⟨_, _, h, _⟩ => by cases h⟩) h

/-- The accesses, newest first: step, stack, and what happens before. Worker 1 uses stack 0 in step 15; steps 1, 2, 6 and 7 were worker 0's. -/
theorem passed_trace : (after passed).map (fun o => o.tr.map fun r => (r.no, r.stack, r.known)) = some
    [(15, 3, [15, 8, 7, 6, 5, 2, 0, 1, 14, 13, 12, 11, 10, 9, 4, 2, 0, 1, 3]),
      (15, 0, [15, 8, 7, 6, 5, 2, 0, 1, 14, 13, 12, 11, 10, 9, 4, 2, 0, 1, 3]), (11, 3, [11, 10, 9, 4, 2, 0, 1, 3]),
      (9, 3, [9, 4, 2, 0, 1, 3]), (7, 0, [7, 6, 5, 2, 0, 1]), (6, 0, [6, 5, 2, 0, 1]), (3, 3, [2, 0, 1, 3]),
      (2, 0, [2, 0, 1]), (1, 1, [0, 1]), (1, 0, [0, 1]), (0, 0, [0])] := rfl

/-- C75 on it, and after worker 0 has got its new stack. -/
example : ∃ o, Reach (prog id) pPend (fun _ => False) idle (fun _ => 0) o ∧ (∃ r ∈ o.tr, ∃ r' ∈ o.tr, r.stack = r'.stack ∧ r.no = 15 ∧ r'.no = 7) ∧
    o.tr.Pairwise fun later earlier => later.stack = earlier.stack → earlier.no ∈ later.known := by
  have h1 : (after (passed ++ [t 0])).map (fun o => o.tr.any fun r => o.tr.any fun r' => decide (r.stack = r'.stack) && decide (r.no = 15) && decide (r'.no = 7)) = some true := by decide +kernel
  obtain ⟨o, ho, h2⟩ := Option.map_eq_some_iff.1 h1
  simp only [List.any_eq_true, Bool.and_eq_true, decide_eq_true_eq] at h2
  obtain ⟨r, hr, r', hr', ⟨h3, h4⟩, h5⟩ := h2
  exact ⟨o, after_reach ho, ⟨r, hr, r', hr', h3, h4, h5⟩, C75_stacks (prog_disc id) (after_reach ho)⟩

/-- The order in promise.hpp:86-92 matters ("Need to call while we own tls_stack"): a worker that has decremented the join counter of its parent and not won may still have the pointer to a stack that
another worker is using, and what that worker does to it is not ordered before anything the first one does. A call of `top` then would be a data race. -/
theorem C75_after_report : ∃ o w, Reach (prog id) pPend (fun _ => False) idle (fun _ => 0) o ∧ o.a.s.x.c.pc w = .finLose true ∧
    ∃ r ∈ o.tr, r.stack = o.a.s.x.c.wk w ∧ r.no ∉ o.a.h.kn w := by
  have h1 : (after passed).map (fun o => decide (o.a.s.x.c.pc 0 = .finLose true) && o.tr.any fun r => decide (r.stack = o.a.s.x.c.wk 0) && decide (r.no ∉ o.a.h.kn 0)) = some true := by decide +kernel
  obtain ⟨o, ho, h2⟩ := Option.map_eq_some_iff.1 h1
  simp only [List.any_eq_true, Bool.and_eq_true, decide_eq_true_eq] at h2
  obtain ⟨h3, r, hr, h4, h5⟩ := h2
  exact ⟨o, 0, after_reach ho, h3, r, hr, h4, h5⟩

end Verif.Own
