import Verif.Weak.Props

/-!
What the relaxed store of the new buffer (deque.hpp:395) allows. Capacity 1. The owner pushes 5 and 6; the second push
grows the buffer: it copies 5 into buffer 1, stores the pointer with a relaxed store, and only then executes the release
fence of line 402. A thief that has read `m_bottom = 1` (the first push) may read the new pointer, which carries no view,
and then the initial content of slot 0 of the new buffer. Its CAS succeeds: it hands out a value that was never pushed.

On real hardware this is a store-store reordering (or an out-of-order load without an address dependency through the
pointed-to memory being up to date) on ARM and POWER; x86 does not do it.
-/
namespace Verif.Weak
open Verif.Deque (Ev OOp ORet SRet setT pushesInvoked handedOut pushesThrew)

instance {L : Type} [DecidableEq L] (m : Mem L) (tv : TV L) (l : L) (i : Nat) : Decidable (CanRead m tv l i) :=
  inferInstanceAs (Decidable (_ ∧ _))

/-- Content of fresh memory in the example. -/
def junk77 : Nat → Nat → Int := fun _ _ => 77

def bugHist : List (Ev (Fin 1) Int) :=
  [.oinv (.push 5), .ores .pushed, .sinv 0, .oinv (.push 6), .sres 0 (.got 77)]

theorem bug_run (relBuf : Bool) (h : relBuf = false) : ∃ s : St (Fin 1), Reach relBuf 1 bugHist s := by
  subst h
  have r := Reach.init (ι := Fin 1) (relBuf := false) (cap := 1) junk77
  replace r := r.vis (.oinvPush 5 rfl)
  replace r := r.tau (.push0 (i := 0) rfl (by decide +kernel))
  replace r := r.tau (.push1 (i := 0) rfl (by decide +kernel))
  replace r := r.tau (.push2 (i := 0) rfl (by decide +kernel) (by decide +kernel))
  replace r := r.tau (.push5 rfl)
  replace r := r.tau (.push6 rfl)
  replace r := r.tau (.push7 rfl)
  replace r := r.vis (.oret rfl)
  replace r := r.vis (.sinv (i := 0) rfl)
  replace r := r.tau (.st0 (i := 0) (j := 0) rfl (by decide +kernel))
  replace r := r.tau (.stF (i := 0) rfl)
  replace r := r.tau (.st1 (i := 0) (k := 1) rfl (by decide +kernel) (by decide +kernel))
  replace r := r.vis (.oinvPush 6 rfl)
  replace r := r.tau (.push0 (i := 1) rfl (by decide +kernel))
  replace r := r.tau (.push1 (i := 0) rfl (by decide +kernel))
  replace r := r.tau (.push2full (i := 0) rfl (by decide +kernel) (by decide +kernel))
  replace r := r.tau (.copy (j := 1) rfl (by decide +kernel) (by decide +kernel))
  replace r := r.tau (.copied rfl (by decide +kernel))
  replace r := r.tau (.push4 rfl)
  replace r := r.tau (.st2 (i := 0) (j := 1) rfl (by decide +kernel))
  replace r := r.tau (.st3 (i := 0) (j := 0) rfl (by decide +kernel))
  replace r := r.tau (.st4ok (i := 0) rfl (by decide +kernel))
  replace r := r.vis (.sret (i := 0) rfl)
  exact ⟨_, r⟩

/-- **C41 is false of the code.** An execution of the code hands out 77, which was never pushed. -/
theorem weak_deque_violates : ∃ (h : List (Ev (Fin 1) Int)) (s : St (Fin 1)), Reach false 1 h s ∧
    handedOut (fun v => v == 77) h = 1 ∧ pushesInvoked (fun v => v == 77) h = 0 ∧ ¬ WLinearizable h := by
  obtain ⟨s, r⟩ := bug_run false rfl
  refine ⟨bugHist, s, r, rfl, rfl, ?_⟩
  rintro ⟨a, ha⟩
  obtain ⟨L, b⟩ := bal_whist (fun v => v == 77) ha
  have := b.bal
  have h1 : handedOut (fun v => v == 77) bugHist = 1 := rfl
  have h2 : pushesInvoked (fun v => v == 77) bugHist = 0 := rfl
  omega

/-- Growth is needed: the partial theorems say that no such execution exists as long as only one buffer was published. -/
example {cap : Nat} (hc : 0 < cap) {s : St (Fin 1)} (hr : Reach false cap bugHist s) : s.mem.len .ptr ≠ 1 := by
  intro h
  have := weak_no_dup_partial hc hr h (fun v => v == 77)
  have h1 : handedOut (fun v => v == 77) bugHist = 1 := rfl
  have h2 : pushesInvoked (fun v => v == 77) bugHist = 0 := rfl
  omega

/-- And the relaxed order is needed: with a release store the history is impossible. -/
example {cap : Nat} (hc : 0 < cap) {s : St (Fin 1)} : ¬ Reach true cap bugHist s := by
  intro hr
  have := weak_no_dup_if_release hc hr (fun v => v == 77)
  have h1 : handedOut (fun v => v == 77) bugHist = 1 := rfl
  have h2 : pushesInvoked (fun v => v == 77) bugHist = 0 := rfl
  omega

/-- A run meeting the hypotheses of the theorems about a release store: growth, a successful steal, a pop, and a steal that
fails although an item is there (allowed by `WLinearizable`, not by `Linearizable`). -/
example : ∃ s : St (Fin 2), Reach true 1
    [.oinv (.push 5), .ores .pushed, .oinv (.push 6), .ores .pushed, .sinv 1, .sres 1 .empty, .sinv 0, .sres 0 (.got 5),
      .oinv .pop, .ores (.got 6)] s := by
  have r := Reach.init (ι := Fin 2) (relBuf := true) (cap := 1) junk77
  replace r := r.vis (.oinvPush 5 rfl)
  replace r := r.tau (.push0 (i := 0) rfl (by decide +kernel))
  replace r := r.tau (.push1 (i := 0) rfl (by decide +kernel))
  replace r := r.tau (.push2 (i := 0) rfl (by decide +kernel) (by decide +kernel))
  replace r := r.tau (.push5 rfl)
  replace r := r.tau (.push6 rfl)
  replace r := r.tau (.push7 rfl)
  replace r := r.vis (.oret rfl)
  replace r := r.vis (.oinvPush 6 rfl)
  replace r := r.tau (.push0 (i := 1) rfl (by decide +kernel))
  replace r := r.tau (.push1 (i := 0) rfl (by decide +kernel))
  replace r := r.tau (.push2full (i := 0) rfl (by decide +kernel) (by decide +kernel))
  replace r := r.tau (.copy (j := 1) rfl (by decide +kernel) (by decide +kernel))
  replace r := r.tau (.copied rfl (by decide +kernel))
  replace r := r.tau (.push4 rfl)
  replace r := r.tau (.push5 rfl)
  replace r := r.tau (.push6 rfl)
  replace r := r.tau (.push7 rfl)
  replace r := r.vis (.oret rfl)
  replace r := r.vis (.sinv (i := 1) rfl)
  replace r := r.tau (.st0 (i := 1) (j := 0) rfl (by decide +kernel))
  replace r := r.tau (.stF (i := 1) rfl)
  replace r := r.tau (.st1empty (i := 1) (k := 0) rfl (by decide +kernel) (by decide +kernel))
  replace r := r.vis (.sret (i := 1) rfl)
  replace r := r.vis (.sinv (i := 0) rfl)
  replace r := r.tau (.st0 (i := 0) (j := 0) rfl (by decide +kernel))
  replace r := r.tau (.stF (i := 0) rfl)
  replace r := r.tau (.st1 (i := 0) (k := 1) rfl (by decide +kernel) (by decide +kernel))
  replace r := r.tau (.st2 (i := 0) (j := 1) rfl (by decide +kernel))
  replace r := r.tau (.st3 (i := 0) (j := 1) rfl (by decide +kernel))
  replace r := r.tau (.st4ok (i := 0) rfl (by decide +kernel))
  replace r := r.vis (.sret (i := 0) rfl)
  replace r := r.vis (.oinvPop rfl)
  replace r := r.tau (.pop0 (i := 2) rfl (by decide +kernel))
  replace r := r.tau (.pop1 (i := 1) rfl (by decide +kernel))
  replace r := r.tau (.pop2 rfl)
  replace r := r.tau (.popF rfl)
  replace r := r.tau (.pop3eq (i := 1) rfl (by decide +kernel) (by decide +kernel))
  replace r := r.tau (.pop4ok rfl (by decide +kernel))
  replace r := r.tau (.pop6 rfl)
  replace r := r.tau (.pop7 (i := 1) rfl (by decide +kernel))
  replace r := r.vis (.oret rfl)
  exact ⟨_, r⟩

/-- A run of the code without growth meeting the hypotheses of the partial theorems. -/
example : ∃ s : St (Fin 2), Reach false 2 [.oinv (.push 5), .ores .pushed, .sinv 0, .sres 0 (.got 5)] s ∧ s.mem.len .ptr = 1 := by
  have r := Reach.init (ι := Fin 2) (relBuf := false) (cap := 2) junk77
  replace r := r.vis (.oinvPush 5 rfl)
  replace r := r.tau (.push0 (i := 0) rfl (by decide +kernel))
  replace r := r.tau (.push1 (i := 0) rfl (by decide +kernel))
  replace r := r.tau (.push2 (i := 0) rfl (by decide +kernel) (by decide +kernel))
  replace r := r.tau (.push5 rfl)
  replace r := r.tau (.push6 rfl)
  replace r := r.tau (.push7 rfl)
  replace r := r.vis (.oret rfl)
  replace r := r.vis (.sinv (i := 0) rfl)
  replace r := r.tau (.st0 (i := 0) (j := 0) rfl (by decide +kernel))
  replace r := r.tau (.stF (i := 0) rfl)
  replace r := r.tau (.st1 (i := 0) (k := 1) rfl (by decide +kernel) (by decide +kernel))
  replace r := r.tau (.st2 (i := 0) (j := 0) rfl (by decide +kernel))
  replace r := r.tau (.st3 (i := 0) (j := 1) rfl (by decide +kernel))
  replace r := r.tau (.st4ok (i := 0) rfl (by decide +kernel))
  replace r := r.vis (.sret (i := 0) rfl)
  exact ⟨_, r, by decide +kernel⟩

end Verif.Weak
