import Verif.Algo.ScanModel
import Verif.Par.Model
import Verif.Sync.Model

/-!
`lf::scan` (include/libfork/algorithm/scan.hpp) as tasks of the runtime (Verif.Mem.Model with the `sync_outside` forks of Verif.Sync.Model): each
call of `rise_sweep`, `fall_sweep_impl`, `fall_sweep` and `scan_impl` is a task that reads and writes memory one location at a time, forks,
calls and joins other such tasks, and returns an iterator (a `Nat`; 0 from a task that returns nothing). In contrast to Verif.Algo.ScanModel
the answers of the `sync_outside` forks are those the runtime gives, and the iterators are what the tasks return.

Simplifications, as in Verif.Algo.ScanModel: `bop` and `proj` do not throw (C48 is about what happens if they do), and an asynchronous `bop` is one of
the accesses of its caller. Nor does allocation fail.
-/
namespace Verif.Scan
open Verif.Algo (Cmd Out Loc Prog SOp Ival riseLeaf scanLoop)

/-- What a coroutine of scan.hpp:187-512 does from some point on. -/
inductive C (L V : Type) where
  /-- `co_return r`. -/
  | ret (r : Nat)
  /-- A failed LF_ASSERT. -/
  | ub
  | get (l : L) (k : V → C L V)
  | set (l : L) (v : V) (k : C L V)
  /-- `co_await lf::call(f)(...)` (scan.hpp:284) or `co_await lf::just(f)(...)` (scan.hpp:276, 505, 509). -/
  | call (c : C L V) (k : Nat → C L V)
  /-- `co_await lf::fork(f)(...)` (scan.hpp:279, 384). -/
  | fork (c : C L V) (k : C L V)
  /-- `co_await dispatch<tag::fork, modifier::sync_outside>(&left_out, f)(...)` (scan.hpp:268-273): `some r` if `ready` and `left_out = r`, else `none`. -/
  | out (c : C L V) (k : Option Nat → C L V)
  /-- `co_await lf::join` (scan.hpp:289, 391); `k` gets what the forked children returned. -/
  | join (k : List Nat → C L V)

variable {L V : Type}

/-- A read of the code of Verif.Algo.Cmd.atom, and then the write (scan.hpp:206, 226, 296 etc.). -/
def rd (w : L) : Par.Rd L V Empty → C L V → C L V
  | .done (.ok v), k => .set w v k
  | .done (.error e), _ => nomatch e
  | .ask l g, k => .get l fun v => rd w (g v) k

/-- Sequential code of Verif.Algo.ScanModel (scan.hpp:196-256, 290-302, 356-383), one access at a time, and then `k`. -/
def lin : Cmd L V Empty → C L V → C L V
  | .halt .ok, k => k
  | .halt _, _ => .ub
  | .atom w n rs f, k => rd w (Par.rdOf n rs f) k
  | .seq p q, k => lin p (lin q k)
  | .par _ _, _ => .ub

/-- scan.hpp:290-308: propagate the reduction to the right sibling, return `r`. -/
def combine (op : V → V → V) (iv : Ival) (size out r : Nat) : C Loc V :=
  lin (if iv = .lhs ∨ iv = .mid then
    .atom2 (.cell (out + size - 1)) (.cell (out + size / 2 - 1)) (.cell (out + size - 1)) (fun a b => .ok (op a b)) else .halt .ok) (.ret r)

/-- No code: `left_out`, which the forked child returned (scan.hpp:289, 306). -/
def only (k : Nat → C L V) : List Nat → C L V
  | [r] => k r
  | _ => .ub

/-- scan.hpp:187-309 `rise_sweep::operator()`. -/
def rise (pr : V → V) (op : V → V → V) (n : Nat) (o : SOp) (iv : Ival) (path : List Bool) (beg size out : Nat) : C Loc V :=
  if size = 0 then .ub                                            -- LF_ASSERT(size >= 1)
  else if size ≤ n then lin (riseLeaf pr op o iv path beg size out) (.ret (if o = .scan then beg + size else 0))
  else if size < 2 then .ub                                       -- n = 0: the left child is empty and fails its LF_ASSERT
  else
    let mid := size / 2
    match o with
    | .scan => .out (rise pr op n .scan iv.l (false :: path) beg mid out) fun
      | some leftOut =>
        if leftOut = beg + mid then                               -- scan.hpp:273-277
          .call (rise pr op n .scan iv.r (true :: path) (beg + mid) (size - mid) (out + mid)) .ret
        else .call (rise pr op n .fold iv.r (true :: path) (beg + mid) (size - mid) (out + mid)) fun _ => .join fun _ => combine op iv size out leftOut
      | none => .call (rise pr op n .fold iv.r (true :: path) (beg + mid) (size - mid) (out + mid)) fun _ => .join (only (combine op iv size out))
    | .fold => .fork (rise pr op n .fold iv.l (false :: path) beg mid out)
      (.call (rise pr op n .fold iv.r (true :: path) (beg + mid) (size - mid) (out + mid)) fun _ => .join fun _ => combine op iv size out 0)
termination_by size
decreasing_by all_goals omega

/-- scan.hpp:347-393 `fall_sweep_impl::operator()`. -/
def fallImpl (pr : V → V) (op : V → V → V) (n : Nat) (iv : Ival) (path : List Bool) (beg size out : Nat) : C Loc V :=
  if iv = .all ∨ iv = .lhs then .ub                               -- requires-clause
  else if size = 0 then .ub                                       -- LF_ASSERT(size > 0)
  else if size ≤ n then
    lin (.seq (.atom1 (.tmp path 0) (.cell (out - 1)) .ok) (scanLoop pr op (.tmp path 0) beg out (if iv = .rhs then size else size - 1))) (.ret 0)
  else if size < 2 then .ub
  else
    let mid := size / 2
    lin (.atom2 (.cell (out + mid - 1)) (.cell (out - 1)) (.cell (out + mid - 1)) (fun a b => .ok (op a b)))
      (.fork (fallImpl pr op n iv.l (false :: path) beg mid out)
        (.call (fallImpl pr op n iv.r (true :: path) (beg + mid) (size - mid) (out + mid)) fun _ => .join fun _ => .ret 0))
termination_by size
decreasing_by all_goals omega

/-- scan.hpp:434-476 `fall_sweep::operator()`. Simplification: the `continue` of line 469 is a call, as in line 464. -/
def fall (pr : V → V) (op : V → V → V) (n : Nat) (iv : Ival) (path : List Bool) (beg size out scanEnd : Nat) : C Loc V :=
  if _h : scanEnd < beg + size then
    if _h0 : size = 0 then .ub                                    -- does not terminate
    else
      let mid := size / 2
      if _h1 : scanEnd < beg + mid then
        .fork (fall pr op n iv.l (false :: path) beg mid out scanEnd)
          (.call (fallImpl pr op n iv.r (true :: path) (beg + mid) (size - mid) (out + mid)) fun _ => .join fun _ => .ret 0)
      else if scanEnd = beg + mid then .call (fallImpl pr op n iv.r (true :: path) (beg + mid) (size - mid) (out + mid)) fun _ => .ret 0
      else .call (fall pr op n iv.r (true :: path) (beg + mid) (size - mid) (out + mid) scanEnd) fun _ => .ret 0
  else .ub                                                        -- LF_ASSERT(scan_end < end)
termination_by size
decreasing_by all_goals omega

/-- scan.hpp:491-512 `scan_impl::operator()`, to which all the overloads forward (scan.hpp:526-655). Ghost: that the up-sweep has scanned at least one element
is asserted here. `path`: a name for this call, which its locals have (Verif.Algo.Loc). -/
def scan (pr : V → V) (op : V → V → V) (n : Nat) (path : List Bool) (src dst len : Nat) : C Loc V :=
  if len = 0 then .ret 0
  else .call (rise pr op n .scan .all path src len dst) fun scanEnd =>
    if scanEnd ≠ src + len then
      if src < scanEnd then .call (fall pr op n .all path src len dst scanEnd) fun _ => .ret 0 else .ub
    else .ret 0

/-- A task: what it does, and whether it has a child to join; or it has failed an assertion or got an exception, which it throws when it has joined its
child: the theorems say that this does not happen. No code: the coroutine frames of scan.hpp:187-512. -/
inductive T (L V : Type) where
  | go (p : Bool) (c : C L V)
  | lost (p : Bool)
  | fail

/-- What the task does next (scan.hpp:187-512). The data of the shared memory are the elements; exceptions are not modelled (`default`: any). -/
def body [Inhabited V] : T L V → Sync.Act (T L V) Nat V L
  | .go false (.ret r) => .plain (.ret r)
  | .go p (.get l k) => .plain (.load l fun v => .go p (k v))
  | .go p (.set l v k) => .plain (.store l v (.go p k))
  | .go p (.call c k) => .plain (.call (.go false c) (fun | some r => .go p (k r) | none => .lost p) fun _ => .lost p)
  | .go false (.fork c k) => .plain (.fork (.go false c) (fun _ => .go true k) fun _ => .lost false)
  | .go false (.out c k) => .out (.go false c) (fun | some r => .go false (k (some r)) | none => .go true (k none)) fun _ => .lost false
  | .go _ (.join k) => .plain (.join (fun l => .go false (k l)) fun _ _ => .fail)
  | .fail => .plain (.throw default)
  | _ => .plain (.join (fun _ => .fail) fun _ _ => .fail)

end Verif.Scan
