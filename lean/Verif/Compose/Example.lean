import Verif.Compose.Exec

/-!
The Fibonacci task of README.md on two workers over the deque of deque.hpp: every hypothesis of Verif.Compose.Props is met by an
execution in which worker 1 steals from worker 0 while worker 0 is in the middle of its `push` and, later, of its `pop`.
-/
namespace Verif.Compose
open Verif.Runtime

/-- Run a schedule: which worker advances, and its choice if it is in its scheduler loop. -/
def run {σ V : Type} (body : σ → Act σ V) (maxCap cap : Nat) : List (Nat × Choice) → ICS σ V maxCap cap → Res (ICS σ V maxCap cap)
  | [], x => .ok x
  | (w, ch) :: l, x =>
    match advance body maxCap cap w ch x with
    | .ok x' => run body maxCap cap l x'
    | .ub => .ub
    | .no => .no

theorem run_reach {σ V : Type} {body : σ → Act σ V} {pend : σ → Nat} {maxCap cap : Nat} {l : List (Nat × Choice)}
    {x x' : ICS σ V maxCap cap} (h : Reach body pend (implObj maxCap cap) x) (he : run body maxCap cap l x = .ok x') :
    Reach body pend (implObj maxCap cap) x' := by
  induction l generalizing x with
  | nil => cases he; exact h
  | cons a l ih =>
    obtain ⟨w, ch⟩ := a
    simp only [run] at he
    have hs := advance_step (body := body) (x := x) (w := w) (ch := ch)
    cases ha : advance body maxCap cap w ch x with
    | ok x1 =>
      rw [ha] at he hs
      rcases hs with e | e
      · cases e
      · exact ih (h.step e) he
    | ub => rw [ha] at he; cases he
    | no => rw [ha] at he; cases he

/-- Two workers with empty deques of capacity 1, `fib(2)` submitted to worker 0. -/
def fib2 : ICS Fib Nat 1024 1 :=
  { c := submit (State.start (.start 2)) (.start 2) 0, dq := fun _ => .init fun _ => ⟨1, fun _ => 0⟩, call := fun _ => .none }

theorem fib2_reach : Reach fib fibPend (implObj 1024 1) fib2 := by
  have h := (Reach.start (body := fib) (pend := fibPend) (M := implObj 1024 1) (.start 2) (fun _ => .init fun _ => ⟨1, fun _ => 0⟩)
    (fun _ => ⟨_, rfl, rfl⟩)).submit (c := .start 2) 0 rfl
  exact h

def times (n : Nat) (w : Nat) : List (Nat × Choice) := List.replicate n (w, .take)

/-- Worker 0 forks and is in the middle of its `push` when worker 1 calls `steal`; worker 1 takes the parent before worker 0 has returned
from `push` and arrives at the join first; the child, on worker 0, finds its deque empty and resumes the parent. -/
def sched : List (Nat × Choice) :=
  times 4 0 ++ [(1, .steal 0)] ++ times 1 1 ++ times 3 0 ++ times 5 1 ++ times 1 0 ++ times 4 1 ++ times 2 0 ++ times 9 1 ++ times 9 0

def schedLog : List (Ev Fib Nat) :=
  [.done 0 1, .resume 0 0, .done 1 1, .suspend 0 .join, .resume 0 1, .done 2 0, .resume 2 1, .suspend 0 (.call 2), .resume 0 1,
    .resume 1 0, .suspend 0 (.fork 1), .resume 0 0, .submit 0 (.start 2) 0]

theorem sched_log : (run fib 1024 1 sched fib2).get?.map (·.c.log) = some schedLog := rfl

theorem sched_reach : ∃ x, Reach fib fibPend (implObj 1024 1) x ∧ x.c.log = schedLog := by
  have h := sched_log
  rw [Option.map_eq_some_iff] at h
  obtain ⟨x, hx, e⟩ := h
  exact ⟨x, run_reach fib2_reach (get_ok hx), e⟩

/-- `composed_serial` on this execution. -/
example : Ser fib (.start 2) [] 1 := by
  obtain ⟨x, hr, e⟩ := sched_reach
  exact (composed_serial fib_disc fib_small ⟨0, rfl⟩ hr (f := 0) (w := 0) (by rw [e]; simp [schedLog]) (by rw [e]; simp [schedLog])).1

/-- `composed_join`: the child had returned when worker 0 resumed the parent. -/
example : ∃ v, Ev.done 1 v ∈ schedLog.drop 2 := by
  obtain ⟨x, hr, e⟩ := sched_reach
  exact composed_join fib_disc fib_small ⟨0, rfl⟩ hr (f := 0) (w := 0) (l2 := [.done 0 1]) (l1 := schedLog.drop 2) e rfl 1 (by decide)

/-- Halfway: the steal has taken effect, neither it nor the `push` of the task has returned (`composed_progress`: both go on). -/
example : ∃ x, Reach fib fibPend (implObj 1024 1) x ∧ x.call 0 = .push ∧ x.call 1 = .steal 0 ∧ (x.dq 0).top = 1 ∧
    (∀ v, (x.dq 0).opc ≠ .ret (.threw v)) := by
  have h : ((run fib 1024 1 (sched.take 13) fib2).get?.map fun x => (x.call 0, x.call 1, (x.dq 0).top,
    match (x.dq 0).opc with | .ret (.threw _) => true | _ => false)) = some (.push, .steal 0, 1, false) := rfl
  rw [Option.map_eq_some_iff] at h
  obtain ⟨x, hx, e⟩ := h
  simp only [Prod.mk.injEq] at e
  refine ⟨x, run_reach fib2_reach (get_ok hx), e.1, e.2.1, e.2.2.1, fun v hv => ?_⟩
  have := e.2.2.2
  rw [hv] at this
  cases this

/-- The end: both workers are in their scheduler loops (`composed_idle`, `composed_nothing_lost`). -/
example : ∃ x, Reach fib fibPend (implObj 1024 1) x ∧ (∀ w, x.call w = .none) ∧ (∀ w, x.c.pc w = .idle) ∧ (∀ w, x.c.inbox w = []) ∧
    x.c.nf = 3 := by
  have h : ((run fib 1024 1 sched fib2).get?.map fun x => x.c.nf) = some 3 := rfl
  rw [Option.map_eq_some_iff] at h
  obtain ⟨x, hx, hn⟩ := h
  refine ⟨x, run_reach fib2_reach (get_ok hx), ?_, ?_, ?_, hn⟩ <;>
  · intro w
    injection hx with hx
    subst hx
    match w with
    | 0 => rfl
    | 1 => rfl
    | w + 2 => rfl

end Verif.Compose
