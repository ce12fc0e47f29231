import Verif.Algo.Lang

/-
Model of include/libfork/algorithm/{map,for_each,fold}.hpp in the language of `Verif.Algo.Lang`.

Simplifications: iterators are addresses (natural numbers) of consecutive cells; `fun ∘ proj` is one function that may
throw; the effect of the function handed to `for_each` is an update of the element it is applied to; copies of the
function objects are not modelled (the functions are state-less).
-/
namespace Verif.Algo

/-- Locations: cells of the user's ranges, locals of the coroutine frame at a position of the recursion tree (the path
is the list of turns, last turn first), the destination of the final result. The iterators and the locals of map.hpp:46-122 and fold.hpp:53-152. -/
inductive Loc where
  | cell (a : Nat)
  | tmp (path : List Bool) (k : Nat)
  | res
deriving DecidableEq, Repr

variable {V E : Type}

/-- The algorithms (map.hpp, for_each.hpp, fold.hpp) as programs. -/
abbrev Prog (V E : Type) := Cmd Loc V E

/-- map.hpp:60-62: `for (; head != tail; ++head, ++out) *out = co_await just(fun)(co_await just(proj)(*head));` with `k`
iterations left. -/
def mapLoop (g : V → Except E V) (head out : Nat) : Nat → Prog V E
  | 0 => .halt .ok
  | k + 1 => .seq (.atom1 (.cell out) (.cell head) g) (mapLoop g (head + 1) (out + 1) k)

/-- map.hpp:45-82: the chunked version, `len = tail - head`. -/
def mapN (g : V → Except E V) (n head out len : Nat) : Prog V E :=
  if n = 0 then .halt .ub                        -- LF_ASSERT(n > 0)
  else if len = 0 then .halt .ok
  else if len ≤ n then mapLoop g head out len
  else .par (mapN g n head out (len / 2)) (mapN g n (head + len / 2) (out + len / 2) (len - len / 2))
termination_by len
decreasing_by all_goals omega

/-- map.hpp:93-127: the version without a chunk size. -/
def mapOne (g : V → Except E V) (head out len : Nat) : Prog V E :=
  if len = 0 then .halt .ok
  else if len = 1 then .atom1 (.cell out) (.cell head) g
  else .par (mapOne g head out (len / 2)) (mapOne g (head + len / 2) (out + len / 2) (len - len / 2))
termination_by len
decreasing_by all_goals omega

/-- map.hpp:137-151: range version. -/
def mapRange (g : V → Except E V) (n head out len : Nat) : Prog V E :=
  if n = 0 then .halt .ub else if n = 1 then mapOne g head out len else mapN g n head out len

/-- for_each.hpp:59-61: `for (; head != tail; ++head) co_await just(fun)(co_await just(proj)(*head));`. -/
def forLoop (g : V → Except E V) (head : Nat) : Nat → Prog V E
  | 0 => .halt .ok
  | k + 1 => .seq (.atom1 (.cell head) (.cell head) g) (forLoop g (head + 1) k)

/-- for_each.hpp:44-80. -/
def forN (g : V → Except E V) (n head len : Nat) : Prog V E :=
  if n = 0 then .halt .ub
  else if len = 0 then .halt .ok
  else if len ≤ n then forLoop g head len
  else .par (forN g n head (len / 2)) (forN g n (head + len / 2) (len - len / 2))
termination_by len
decreasing_by all_goals omega

/-- for_each.hpp:89-118. -/
def forOne (g : V → Except E V) (head len : Nat) : Prog V E :=
  if len = 0 then .halt .ok
  else if len = 1 then .atom1 (.cell head) (.cell head) g
  else .par (forOne g head (len / 2)) (forOne g (head + len / 2) (len - len / 2))
termination_by len
decreasing_by all_goals omega

/-- for_each.hpp:130-141. -/
def forRange (g : V → Except E V) (n head len : Nat) : Prog V E :=
  if n = 0 then .halt .ub else if n = 1 then forOne g head len else forN g n head len

/-- fold.hpp:68-74 (synchronous operator): `for (++head; …) lhs = bop(move(lhs), proj(*head));`, `acc` is the local
`lhs`. -/
def foldLoop (proj : V → Except E V) (bop : V → V → Except E V) (acc : Loc) (head : Nat) : Nat → Prog V E
  | 0 => .halt .ok
  | k + 1 => .seq (.atom2 acc acc (.cell head) (fun a x => proj x >>= bop a)) (foldLoop proj bop acc (head + 1) k)

/-- fold.hpp:53-105, the chunked recursion. `ret` is where the result goes (the return object of the task), `tmp path 0`
is the local `lhs` of a leaf, `tmp path 1`/`tmp path 2` are the two `eventually` locals of an inner node. -/
def foldN (proj : V → Except E V) (bop : V → V → Except E V) (n : Nat) (ret : Loc) (path : List Bool)
    (head len : Nat) : Prog V E :=
  if n ≤ 1 then .halt .ub                        -- LF_ASSERT(n > 1)
  else if len = 0 then .halt .ub                 -- LF_ASSERT(len > 0)
  else if len ≤ n then
    .seq (.atom1 (.tmp path 0) (.cell head) proj)
      (.seq (foldLoop proj bop (.tmp path 0) (head + 1) (len - 1)) (.atom1 ret (.tmp path 0) .ok))
  else if len / 2 = 0 ∨ len - len / 2 = 0 then .halt .ub  -- LF_ASSERT(mid - head > 0), LF_ASSERT(tail - mid > 0)
  else
    .seq (.par (foldN proj bop n (.tmp path 1) (false :: path) head (len / 2))
               (foldN proj bop n (.tmp path 2) (true :: path) (head + len / 2) (len - len / 2)))
      (.atom2 ret (.tmp path 1) (.tmp path 2) bop)
termination_by len
decreasing_by all_goals omega

/-- fold.hpp:113-155, the recursion for `n = 1`. -/
def foldOne (proj : V → Except E V) (bop : V → V → Except E V) (ret : Loc) (path : List Bool)
    (head len : Nat) : Prog V E :=
  if len = 0 then .halt .ub                      -- LF_ASSERT(false && "Unreachable")
  else if len = 1 then .atom1 ret (.cell head) proj
  else if len / 2 = 0 ∨ len - len / 2 = 0 then .halt .ub  -- fold.hpp:128-129
  else
    .seq (.par (foldOne proj bop (.tmp path 1) (false :: path) head (len / 2))
               (foldOne proj bop (.tmp path 2) (true :: path) (head + len / 2) (len - len / 2)))
      (.atom2 ret (.tmp path 1) (.tmp path 2) bop)
termination_by len
decreasing_by all_goals omega

/-- fold.hpp:190-208 and 238-262: `none` is the early `co_return std::nullopt` for an empty range. -/
def foldTop (proj : V → Except E V) (bop : V → V → Except E V) (n head len : Nat) : Option (Prog V E) :=
  if len = 0 then none
  else if n = 1 then some (foldOne proj bop .res [] head len)
  else some (foldN proj bop n .res [] head len)

end Verif.Algo
