import Verif.Space.Par
import Verif.WholeM.Example
import Verif.Busy.Example

/-!
Executions that meet the hypotheses of C69: a fold of three elements, of whose tasks at most three are nested when one thread executes it; on two workers there are at some
time four frames, on two stacks.
-/
namespace Verif.Space.Example
open Verif.Runtime (Ev)
open Verif.Par (T Dat task vals fold3 fold3_eq mem3)
open Verif.Mem (ctl disc_ctl)

theorem fold3_algo : IsAlgo 3 fold3 := .fold (by decide) fold3_eq

section lazy
open Verif.LazyPool.Example (two two_ok)
open Verif.WholeM.Example

/-- Worker 1 has stolen the fold and is in the second half's own child. -/
@[irreducible] def both : List (WholeX.Move D) := death.take (stolen.length + 4 + 6)

theorem both_end : (at_ 1 one both).x.x.c.al 0 = [1, 0] ∧ (at_ 1 one both).x.x.c.al 3 = [3, 2] := by decide +kernel

/-- C69: the hypotheses of `C69_algorithms` are met in a state with more frames than one thread would need. -/
example : ∃ s : S, WholeM.Reach two Par.body (fun _ : D => False) 1 (fun i => task (one i)) (WholeM.depOf after) (vals mem3) s ∧ bytes (fun _ => 1) s.x.x.c [0, 3] = 4 ∧
    bytes (fun _ => 1) s.x.x.c [0, 3] ≤ (2 + 1) * ((2 + 1) * 1) ∧ Needs (ctl Par.body) (fun _ => 1) 3 (task fold3) := by
  have h := reach 1 one (stolen.length + 4 + 6)
  rw [run_st (l := both) (by unfold both; rfl)] at h
  refine ⟨_, h, by simp [bytes, frames, both_end.1, both_end.2], ?_, needs_task (B := 1) (fun _ => Nat.le_refl _) _ (nest_algo fold3_algo (t := 2) (by decide))⟩
  exact C69_algorithms (len := fun _ => 3) (t := 2) (B := 1) two_ok (fun _ _ => fold3_algo) (fun _ _ => by decide) (fun _ => Nat.le_refl _) h (O := [0]) (fun i hi => .inl (by
    have : i = 0 := by omega
    subst this; exact List.mem_singleton_self 0)) (ks := [0, 3]) (by decide)
end lazy

section busy
open Verif.Busy.Example

@[irreducible] def both' : List Busy.Move := Busy.Example.stolen ++ Busy.Example.steps 1 3

theorem both_end' : (at_ busy2 1 one both').M.x.c.al 0 = [1, 0] ∧ (at_ busy2 1 one both').M.x.c.al 3 = [3, 2] ∧ ((at_ busy2 1 one both').M.x.c.q 1).length = 1 ∧
    waiting (at_ busy2 1 one both').M.x.c 2 = 0 := by decide +kernel

theorem reach' : Busy.Reach busy2 Par.body (fun _ : D => False) 1 (fun i => task (one i)) (Busy.depOf after) (vals mem3) (at_ busy2 1 one both') := reach both'

theorem fold3_needs : Needs (ctl (Par.body (L := Algo.Loc) (V := List Nat) (E := Nat))) (fun _ => 1) 3 (task fold3) :=
  needs_task (B := 1) (fun _ => Nat.le_refl _) _ (nest_algo fold3_algo (t := 2) (by decide))

/-- Those of `C69_busy`, `C69_busy_calls` and `C69_algorithms_busy`. -/
example : bytes (fun _ => 1) (at_ busy2 1 one both').M.x.c [0, 3] = 4 ∧ bytes (fun _ => 1) (at_ busy2 1 one both').M.x.c [0, 3] ≤ 2 * 3 ∧
    bytes (fun _ => 1) (at_ busy2 1 one both').M.x.c [0, 3] ≤ (2 + 1) * ((2 + 1) * 1) := by
  refine ⟨by simp [bytes, frames, both_end'.1, both_end'.2.1], ?_, ?_⟩
  · have := C69_busy Par.disc Par.pend_le (fun i _ => (Par.next_pend _).1) (fun i _ => fold3_needs) reach' (ks := [0, 3]) (by decide)
    rw [show busy2.N = 2 from rfl, both_end'.2.2.2] at this
    exact this
  · exact C69_algorithms_busy (len := fun _ => 3) (t := 2) (B := 1) (fun _ _ => fold3_algo) (fun _ _ => by decide) (fun _ => Nat.le_refl _) reach' (O := [0]) (fun i f hi => .inl (by
      obtain ⟨fr, js, hcl⟩ := Busy.calls reach'
      have : i < 1 := hcl.lt i (by rw [hi]; simp)
      have : i = 0 := by omega
      subst this; exact List.mem_singleton_self 0)) (ks := [0, 3]) (by decide)

/-- Those of `C69_space`, `C69_stacks`, `C69_queue` and `C69_busy_leaves`. -/
example : [0, 3].length ≤ (2 + 0) * 3 ∧ ((at_ busy2 1 one both').M.x.c.q 1).length ≤ 3 ∧
    ((∃ w, holds (at_ busy2 1 one both').M.x.c w = some 2) ∨ (∃ w, 2 ∈ (at_ busy2 1 one both').M.x.c.inbox w) ∨
      ∃ c k', c ∈ (at_ busy2 1 one both').M.x.c.al k' ∧ Runtime.linkPar ((at_ busy2 1 one both').M.x.c.link c) = some 2) := by
  have hx := Busy.reach_exn Par.disc Par.pend_le (fun i _ => (Par.next_pend _).1) reach'
  have hs : ∀ f c w, Ev.submit f c w ∈ (at_ busy2 1 one both').M.x.c.log → Needs (ctl Par.body) (fun _ => 1) 3 c := fun f c w hf => by
    obtain ⟨i, _, rfl⟩ := busy_subs reach' hf
    exact fold3_needs
  refine ⟨?_, C69_queue (disc_ctl Par.disc) hx hs 1, C69_busy_leaves (disc_ctl Par.disc) hx (k := 3) (by rw [both_end'.2.1]; simp)⟩
  have := C69_stacks (disc_ctl Par.disc) hx (busy_within Par.disc Par.pend_le (fun i _ => (Par.next_pend _).1) reach') hs (ks := [0, 3]) (by decide) (by
    intro k hk
    have : k = 0 ∨ k = 3 := by simpa using hk
    rcases this with rfl | rfl
    · rw [both_end'.1]; simp
    · rw [both_end'.2.1]; simp)
  rw [show busy2.N = 2 from rfl, both_end'.2.2.2] at this
  exact this
end busy

end Verif.Space.Example
