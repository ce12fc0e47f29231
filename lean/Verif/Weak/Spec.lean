import Verif.Deque.Spec

/-!
What remains true of the deque on a memory model weaker than sequential consistency. The abstract machine is that of
`Deque/Spec.lean`: a plain list; `push` appends at the back, `pop` removes at the back or reports an empty list, `steal`
removes at the front. The only difference: a `steal` may also fail (`err::empty` or `err::lost`) without a reason, since
nothing forces a thief to see the most recent pushes.
-/
namespace Verif.Weak
open Verif.Deque (Ev AState AStep SRet setT)
variable {ι V : Type} [DecidableEq ι]

inductive WStep : AState ι V → Option (Ev ι V) → AState ι V → Prop where
  | spec {a e a'} : AStep a e a' → WStep a e a'
  | spurious {a} {i : ι} {d} {r : SRet V} : a.thief i = .pend d → (r = .lost ∨ r = .empty) →
      WStep a none { a with thief := setT a.thief i (.done r) }

/-- `WHist h a`: the abstract machine can produce the history `h` and be in state `a`. -/
inductive WHist : List (Ev ι V) → AState ι V → Prop where
  | init : WHist [] .init
  | tau {h a a'} : WHist h a → WStep a none a' → WHist h a'
  | vis {h a e a'} : WHist h a → WStep a (some e) a' → WHist (h ++ [e]) a'

/-- The history can be explained by calls that take effect one at a time, each between its invocation and its response,
where steals may fail without a reason. -/
def WLinearizable (h : List (Ev ι V)) : Prop := ∃ a : AState ι V, WHist h a

end Verif.Weak
