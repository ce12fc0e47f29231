import Verif.Algo.Model

/-! Specification of `fold`, independent of the recursion. -/
namespace Verif.Algo
variable {V E : Type}

/-- The values stored in `len` consecutive cells. -/
def cells (m : Mem Loc V) (head len : Nat) : List V := (List.range len).map (fun i => m (.cell (head + i)))

/-- `v` is the value of some way of putting brackets around `p(x₀) ∘ p(x₁) ∘ … ∘ p(xₖ)`, operands in order. -/
inductive Bracketed (proj : V → Except E V) (bop : V → V → Except E V) : List V → V → Prop where
  | leaf {x v} : proj x = .ok v → Bracketed proj bop [x] v
  | node {xs ys a b v} : Bracketed proj bop xs a → Bracketed proj bop ys b → bop a b = .ok v →
      Bracketed proj bop (xs ++ ys) v

/-- The exception `e` was thrown by the projection of an element of `zs`, or by combining the values of two adjacent
sub-ranges. -/
inductive Thrown (proj : V → Except E V) (bop : V → V → Except E V) : List V → E → Prop where
  | proj {pre x post e} : proj x = .error e → Thrown proj bop (pre ++ x :: post) e
  | bop {pre xs ys post a b e} : Bracketed proj bop xs a → Bracketed proj bop ys b → bop a b = .error e →
      Thrown proj bop (pre ++ (xs ++ ys) ++ post) e

end Verif.Algo
