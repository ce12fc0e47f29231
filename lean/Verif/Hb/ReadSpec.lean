import Verif.Hb.Spec

/-! What a C++ program may read: the accesses of an execution, and which of them happen before which. -/
namespace Verif.Hb
open Verif.Mem (Acc)
variable {E L : Type}

/-- What was read or written in a step. -/
def Same (r : Rec L) : Acc E L → Prop
  | .load f l _ => r.task = f ∧ r.acc = some (l, false)
  | .store f l _ => r.task = f ∧ r.acc = some (l, true)

/-- The load `r` reads, from `l`, what was there at the start, and all writes to `l` happen after it; or the value of a write that happens before it, and every other one
happens before that or after `r`: then no rule of the C++ memory model lets it read anything else. -/
def Sees (m : L → E) (o : List (Rec L × Acc E L)) (r : Rec L) (l : L) (d : E) : Prop :=
  (d = m l ∧ ∀ r' g d', (r', .store g l d') ∈ o → r.no ∈ r'.known) ∨
  ∃ r' g, (r', .store g l d) ∈ o ∧ r'.no ∈ r.known ∧ ∀ r'' g' d', (r'', .store g' l d') ∈ o → r'' = r' ∨ r''.no ∈ r'.known ∨ r.no ∈ r''.known

end Verif.Hb
