/-
What "constructed once, destroyed once, in memory of its own" means (C52), without reference to stacks or stacklets: the
object lifetimes of a C++ program, as the list of the constructor calls that completed and of the destructor calls.
-/
namespace Verif.Stack.CoNew

/-- An object is the bytes from `a` up to `a + n`. -/
inductive Ev where
  | ctor (a n : Nat)
  | dtor (a n : Nat)
  deriving DecidableEq

/-- Do two objects share no byte? -/
def apart (x y : Nat × Nat) : Bool := decide (x.1 + x.2 ≤ y.1) || decide (y.1 + y.2 ≤ x.1)

/-- Replay lifetimes, starting with the objects `live`: an object is only constructed in bytes that no live object has, and
only a live object is destroyed; `none` when this is broken. -/
def replay : List Ev → List (Nat × Nat) → Option (List (Nat × Nat))
  | [], live => some live
  | .ctor a n :: es, live => if live.all (apart (a, n)) then replay es ((a, n) :: live) else none
  | .dtor a n :: es, live => if (a, n) ∈ live then replay es (live.erase (a, n)) else none

/-- `k` elements of `sz` bytes, the first at `p`, constructed in order. -/
def ctors (p sz : Nat) : Nat → List Ev
  | 0 => []
  | k + 1 => ctors p sz k ++ [.ctor (p + k * sz) sz]

/-- They are destroyed, in order. -/
def dtors (p sz : Nat) : Nat → List Ev
  | 0 => []
  | k + 1 => dtors p sz k ++ [.dtor (p + k * sz) sz]

/-- The number of objects a trace constructs. -/
def built : List Ev → Nat
  | [] => 0
  | .ctor _ _ :: es => built es + 1
  | .dtor _ _ :: es => built es

end Verif.Stack.CoNew
