import Verif.Weak.SimStep
import Verif.Deque.Count

/-!
C41: the deque under the C++ memory model. In every theorem `Reach relBuf cap h s` says: starting from an empty deque of
capacity `cap`, some execution of the view machine, with one owner and any number of thieves, produces the history `h` of
invocations and responses. `relBuf` is the memory order of the store of the new buffer (deque.hpp:395): `true` for release,
`false` for relaxed. **The code is `relBuf = false`.**
-/
namespace Verif.Weak
open Verif.Deque (Ev OOp ORet SRet setT AState AO AT AStep Bal bal_step pushesInvoked handedOut pushesThrew tPart)
variable {ι : Type} [DecidableEq ι]

theorem bal_wstep {p : Int → Bool} {h : List (Ev ι Int)} {a a' : AState ι Int} {L : Finset ι} {e : Option (Ev ι Int)}
    (b : Bal p h a L) (hs : WStep a e a') : ∃ L', Bal p (h ++ e.toList) a' L' := by
  cases hs with
  | spec hs => exact bal_step b hs
  | @spurious i d r ho hr =>
    refine ⟨_, b.thief i _ a.q ?_⟩
    rw [ho]
    rcases hr with rfl | rfl <;> simp [tPart]

theorem bal_whist (p : Int → Bool) {h : List (Ev ι Int)} {a : AState ι Int} (ha : WHist h a) : ∃ L, Bal p h a L := by
  induction ha with
  | init => exact ⟨∅, fun _ _ => rfl, by simp [pushesInvoked, handedOut, pushesThrew, AState.init, Verif.Deque.oPart]⟩
  | tau _ hs ih => obtain ⟨L, b⟩ := ih; simpa using bal_wstep b hs
  | vis _ hs ih => obtain ⟨L, b⟩ := ih; simpa using bal_wstep b hs

/-- **C41, with a release store in line 395.** Every execution is linearizable, except that steals may fail without a
reason: pops are never wrong and never fail on a non-empty deque, and successful steals take the oldest item. -/
theorem weak_linearizable_if_release {cap : Nat} (hc : 0 < cap) {h : List (Ev ι Int)} {s : St ι}
    (hr : Reach true cap h s) : WLinearizable h := by
  obtain ⟨ct, _, hw⟩ := sim_reach hc hr (.inl rfl)
  exact ⟨_, hw⟩

/-- **C41, with a release store in line 395.** No item is handed out twice and none is invented, whatever set `p` of items
one looks at. -/
theorem weak_no_dup_if_release {cap : Nat} (hc : 0 < cap) {h : List (Ev ι Int)} {s : St ι}
    (hr : Reach true cap h s) (p : Int → Bool) : handedOut p h + pushesThrew p h ≤ pushesInvoked p h := by
  obtain ⟨ct, _, hw⟩ := sim_reach hc hr (.inl rfl)
  obtain ⟨L, b⟩ := bal_whist p hw
  have := b.bal
  omega

/-- **C41 for the code as it is, partial: executions in which the deque never grows** (only one buffer has ever been
published). Missing: executions with growth, for which the claim is false, see `weak_deque_violates`. -/
theorem weak_linearizable_partial {cap : Nat} (hc : 0 < cap) {h : List (Ev ι Int)} {s : St ι}
    (hr : Reach false cap h s) (hg : s.mem.len .ptr = 1) : WLinearizable h := by
  obtain ⟨ct, _, hw⟩ := sim_reach hc hr (.inr hg)
  exact ⟨_, hw⟩

theorem weak_no_dup_partial {cap : Nat} (hc : 0 < cap) {h : List (Ev ι Int)} {s : St ι}
    (hr : Reach false cap h s) (hg : s.mem.len .ptr = 1) (p : Int → Bool) :
    handedOut p h + pushesThrew p h ≤ pushesInvoked p h := by
  obtain ⟨ct, _, hw⟩ := sim_reach hc hr (.inr hg)
  obtain ⟨L, b⟩ := bal_whist p hw
  have := b.bal
  omega

end Verif.Weak
