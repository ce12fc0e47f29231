import Verif.Algo.Model

/-
Model of include/libfork/algorithm/scan.hpp in the language of `Verif.Algo.Lang`.

The result `ready` of the sync fork at each node of the up-sweep (scan.hpp:270) depends on the schedule; here it is an
arbitrary function `rdy` of the position of the node in the recursion tree (the path is the list of turns, last turn
first), and the theorems hold for every such function. If `ready` is true the left child has already completed, so the
right child runs after it; otherwise they run in parallel. The iterator returned by the up-sweep is a function of `rdy`
(`riseEnd`), so it is computed outside of memory.

Simplifications: `bop` and `proj` do not throw (what happens when they do is the subject of C15); for an asynchronous
`bop` the call is one atomic step, as for a synchronous one.
-/
namespace Verif.Algo
variable {V E : Type}

/-- scan.hpp:44-53 `enum class op`. -/
inductive SOp where
  | scan | fold
deriving DecidableEq, Repr

/-- scan.hpp:66-71 `enum class interval`. -/
inductive Ival where
  | all | lhs | mid | rhs
deriving DecidableEq, Repr

/-- scan.hpp:76-87 `l_child_of`. -/
def Ival.l : Ival → Ival
  | .all => .lhs
  | .lhs => .lhs
  | .mid => .mid
  | .rhs => .mid

/-- scan.hpp:92-103 `r_child_of`. -/
def Ival.r : Ival → Ival
  | .all => .rhs
  | .rhs => .rhs
  | .lhs => .mid
  | .mid => .mid

/-- The accumulation loops of scan.hpp:226-233, 246-253 and 364-371:
`for (; beg != last; ++beg, ++out) { acc = bop(move(acc), proj(*beg)); *out = acc; }`, `k` iterations. -/
def scanLoop (pr : V → V) (op : V → V → V) (acc : Loc) (beg out : Nat) : Nat → Prog V E
  | 0 => .halt .ok
  | k + 1 =>
    .seq (.atom2 acc acc (.cell beg) (fun a v => .ok (op a (pr v))))
      (.seq (.atom1 (.cell out) acc .ok) (scanLoop pr op acc (beg + 1) (out + 1) k))

/-- scan.hpp:196-256: the `size <= n` branch of `rise_sweep`. The local `acc` is `tmp path 0`. -/
def riseLeaf (pr : V → V) (op : V → V → V) (o : SOp) (iv : Ival) (path : List Bool) (beg size out : Nat) :
    Prog V E :=
  match o, iv with
  | .fold, .mid =>                                 -- scan.hpp:201-214
    .seq (.atom1 (.tmp path 0) (.cell beg) (fun v => .ok (pr v)))
      (.seq (foldLoop (fun v => .ok (pr v)) (fun a b => .ok (op a b)) (.tmp path 0) (beg + 1) (size - 1))
        (.atom1 (.cell (out + size - 1)) (.tmp path 0) .ok))
  | .fold, .rhs => .halt .ok                       -- scan.hpp:215-219: nothing to do
  | .fold, _ => .halt .ub                          -- static_assert, scan.hpp:199
  | .scan, .mid | .scan, .rhs =>                   -- scan.hpp:221-236: a scan with left sibling
    .seq (.atom1 (.tmp path 0) (.cell (out - 1)) .ok) (scanLoop pr op (.tmp path 0) beg out size)
  | .scan, .all | .scan, .lhs =>                   -- scan.hpp:238-255: a scan with no left sibling
    .seq (.atom1 (.tmp path 0) (.cell beg) (fun v => .ok (pr v)))
      (.seq (.atom1 (.cell out) (.tmp path 0) .ok)
        (scanLoop pr op (.tmp path 0) (beg + 1) (out + 1) (size - 1)))

/-- scan.hpp:187-309: the iterator returned by `rise_sweep<…, op::scan>`. -/
def riseEnd (rdy : List Bool → Bool) (n : Nat) (path : List Bool) (beg size : Nat) : Nat :=
  if size ≤ n then beg + size
  else if size < 2 then beg
  else
    let leftOut := riseEnd rdy n (false :: path) beg (size / 2)
    if rdy path = true ∧ leftOut = beg + size / 2 then
      riseEnd rdy n (true :: path) (beg + size / 2) (size - size / 2)
    else leftOut
termination_by size
decreasing_by all_goals omega

/-- scan.hpp:187-309 `rise_sweep::operator()`. -/
def riseP (pr : V → V) (op : V → V → V) (rdy : List Bool → Bool) (n : Nat) (o : SOp) (iv : Ival)
    (path : List Bool) (beg size out : Nat) : Prog V E :=
  if size = 0 then .halt .ub                       -- LF_ASSERT(size >= 1)
  else if size ≤ n then riseLeaf pr op o iv path beg size out
  else if size < 2 then .halt .ub                  -- n = 0: the left child is empty and fails its LF_ASSERT
  else
    let mid := size / 2
    let left := riseP pr op rdy n o iv.l (false :: path) beg mid out
    let rightFold := riseP pr op rdy n .fold iv.r (true :: path) (beg + mid) (size - mid) (out + mid)
    -- scan.hpp:290-302: propagate the reduction to the right sibling
    let combine : Prog V E :=
      if iv = .lhs ∨ iv = .mid then
        .atom2 (.cell (out + size - 1)) (.cell (out + mid - 1)) (.cell (out + size - 1)) (fun a b => .ok (op a b))
      else .halt .ok
    match o with
    | .scan =>
      if rdy path = true ∧ riseEnd rdy n (false :: path) beg mid = beg + mid then
        -- scan.hpp:273-277: fuse the child trees into a single scan
        .seq left (riseP pr op rdy n .scan iv.r (true :: path) (beg + mid) (size - mid) (out + mid))
      else if rdy path = true then .seq (.seq left rightFold) combine
      else .seq (.par left rightFold) combine
    | .fold => .seq (.par left rightFold) combine
termination_by size
decreasing_by all_goals omega

/-- scan.hpp:347-393 `fall_sweep_impl::operator()`; only instantiated with `mid` and `rhs` (scan.hpp:322). -/
def fallImplP (pr : V → V) (op : V → V → V) (n : Nat) (iv : Ival) (path : List Bool) (beg size out : Nat) :
    Prog V E :=
  if iv = .all ∨ iv = .lhs then .halt .ub          -- requires-clause
  else if size = 0 then .halt .ub                  -- LF_ASSERT(size > 0)
  else if size ≤ n then
    -- scan.hpp:356-374
    .seq (.atom1 (.tmp path 0) (.cell (out - 1)) .ok)
      (scanLoop pr op (.tmp path 0) beg out (if iv = .rhs then size else size - 1))
  else if size < 2 then .halt .ub
  else
    let mid := size / 2
    -- scan.hpp:378-383
    .seq (.atom2 (.cell (out + mid - 1)) (.cell (out - 1)) (.cell (out + mid - 1)) (fun a b => .ok (op a b)))
      (.par (fallImplP pr op n iv.l (false :: path) beg mid out)
            (fallImplP pr op n iv.r (true :: path) (beg + mid) (size - mid) (out + mid)))
termination_by size
decreasing_by all_goals omega

/-- scan.hpp:434-476 `fall_sweep::operator()`; the `continue` of line 469 is the same as the recursive call of line
464 because `recur_rhs` is then the same instantiation. -/
def fallP (pr : V → V) (op : V → V → V) (n : Nat) (iv : Ival) (path : List Bool) (beg size out scanEnd : Nat) :
    Prog V E :=
  if _h : scanEnd < beg + size then
    if _h0 : size = 0 then .halt .ub                -- does not terminate, never reached
    else
      let mid := size / 2
      if _h1 : scanEnd < beg + mid then
        .par (fallP pr op n iv.l (false :: path) beg mid out scanEnd)
             (fallImplP pr op n iv.r (true :: path) (beg + mid) (size - mid) (out + mid))
      else if scanEnd = beg + mid then
        fallImplP pr op n iv.r (true :: path) (beg + mid) (size - mid) (out + mid)
      else fallP pr op n iv.r (true :: path) (beg + mid) (size - mid) (out + mid) scanEnd
  else .halt .ub                                   -- LF_ASSERT(scan_end < end)
termination_by size
decreasing_by all_goals omega

/-- scan.hpp:491-512 `scan_impl::operator()`; the eight overloads (scan.hpp:526-655) only forward to it, with `out = beg`
for the in-place ones and `n = 1` for the unchunked ones. -/
def scanP (pr : V → V) (op : V → V → V) (rdy : List Bool → Bool) (n src dst len : Nat) : Prog V E :=
  if len = 0 then .halt .ok
  else
    let scanEnd := riseEnd rdy n [] src len
    .seq (riseP pr op rdy n .scan .all [] src len dst)
      (if scanEnd ≠ src + len then fallP pr op n .all [] src len dst scanEnd else .halt .ok)

end Verif.Algo
