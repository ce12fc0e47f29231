import Verif.Algo.ScanModel

/-!
C48: what the parallel algorithms do when the functions given to them throw.

The language of `Algo/Lang.lean` has no frames: there an exception thrown by a forked child is simply remembered until the join. That
is right only if each exception that a task captures is rethrown by a later `join` of the same task. Here every task has a frame with the
pending exception (core/impl/frame.hpp: `m_except`, `m_eptr`), as the code has it:

* `frame pd p`: a task (with pending exception `pd`) whose body is `p`. At its end `final_suspend` asserts that nothing is pending
  (promise.hpp:310).
* `atom`: a piece of sequential code, as in `Algo/Lang.lean`, that may also throw, `.error (e, false)`, or have called an asynchronous
  function that threw, `.error (e, true)`. In the latter case the exception has been captured in the frame of the caller
  (promise.hpp:327), the caller goes on (see C15: `await_resume` does not rethrow, promise.hpp:217-228), the result was not
  produced: the location has some value.
* `par p q`: `co_await fork(p); try { co_await call(q) } catch (...) { stash_exception(); } co_await join;`, both branches are tasks.
  The join rethrows the pending exception; if none was pending before the fork it is the one of either branch (frame.hpp:222-237).
* `sfork eag p q r`: the sync fork of scan.hpp:270 which completed synchronously: `p`, then `q`; but if `p` threw, `r` with the exception
  captured in the frame. `eag` is what the documentation says: then the exception is rethrown at once (control_flow.hpp:132-134).

The log records everything that was thrown by the user's functions.
-/
namespace Verif.Algo.Throw
variable {L V E : Type}

/-- The control structure of the algorithms, as in Verif.Algo.Lang, with `just` (core/just.hpp:55-122) and the places where exceptions are (core/impl/frame.hpp:86,222-285). -/
inductive Cmd (L V E : Type) where
  | halt (o : Out E)
  | atom (w : L) (k : Nat) (rs : Fin k → L) (f : (Fin k → V) → Except (E × Bool) V)
  | seq (p q : Cmd L V E)
  | par (p q : Cmd L V E)
  | sfork (eag : Bool) (p q r : Cmd L V E)
  | frame (pd : Option E) (p : Cmd L V E)

/-- promise.hpp:300-313 `final_suspend`: LF_ASSERT(!unsafe_has_exception()). -/
def taskEnd : Option E → Out E → Out E
  | none, o => o
  | some _, _ => .ub

/-- frame.hpp:222-237 `capture_exception`: the first one is kept. -/
def capture : Option E → E → Option E
  | none, e => some e
  | some e, _ => some e

/-- awaitables.hpp:497 with frame.hpp:222-267: what `join` does, given what was pending before the fork and how the branches ended. -/
inductive JoinOut : Option E → Out E → Out E → Out E → Prop
  | ubL {x o} : JoinOut x .ub o .ub
  | ubR {x o} : JoinOut x o .ub .ub
  | ok : JoinOut none .ok .ok .ok
  | left {e o} : o ≠ .ub → JoinOut none (.exn e) o (.exn e)
  | right {e o} : o ≠ .ub → JoinOut none o (.exn e) (.exn e)
  | pending {e o1 o2} : o1 ≠ .ub → o2 ≠ .ub → JoinOut (some e) o1 o2 (.exn e)

/-- Memory, pending exception of the running task, log. core/impl/frame.hpp:45,86: `m_eptr` and `m_except`. -/
structure St (L V E : Type) where
  m : Mem L V
  pd : Option E
  log : List (E × Bool)

variable [DecidableEq L]

/-- Interleaving semantics. core/impl/awaitables.hpp:235-508, core/just.hpp:55-122, core/impl/frame.hpp:222-285. -/
inductive Step : Cmd L V E → St L V E → Cmd L V E → St L V E → Prop where
  | atomOk {w k rs f s v} : f (fun i => s.m (rs i)) = .ok v →
      Step (.atom w k rs f) s (.halt .ok) { s with m := upd s.m w v }
  | atomErr {w k rs f s e} : f (fun i => s.m (rs i)) = .error (e, false) →
      Step (.atom w k rs f) s (.halt (.exn e)) { s with log := s.log ++ [(e, false)] }
  | atomCap {w k rs f s e} (v : V) : f (fun i => s.m (rs i)) = .error (e, true) →
      Step (.atom w k rs f) s (.halt .ok) { m := upd s.m w v, pd := capture s.pd e, log := s.log ++ [(e, true)] }
  | seqStep {p q s p' s'} : Step p s p' s' → Step (.seq p q) s (.seq p' q) s'
  | seqOk {q s} : Step (.seq (.halt .ok) q) s q s
  | seqAbort {o q s} : o ≠ .ok → Step (.seq (.halt o) q) s (.halt o) s
  | parL {p q s pd p' m' pd' log'} : Step p { s with pd } p' ⟨m', pd', log'⟩ →
      Step (.par (.frame pd p) q) s (.par (.frame pd' p') q) ⟨m', s.pd, log'⟩
  | parR {p q s pd q' m' pd' log'} : Step q { s with pd } q' ⟨m', pd', log'⟩ →
      Step (.par p (.frame pd q)) s (.par p (.frame pd' q')) ⟨m', s.pd, log'⟩
  | parEndL {pd o q s} : Step (.par (.frame pd (.halt o)) q) s (.par (.halt (taskEnd pd o)) q) s
  | parEndR {pd o p s} : Step (.par p (.frame pd (.halt o))) s (.par p (.halt (taskEnd pd o))) s
  | parJoin {o1 o2 o s} : JoinOut s.pd o1 o2 o → Step (.par (.halt o1) (.halt o2)) s (.halt o) { s with pd := none }
  | sforkStep {eag p q r s p' s'} : Step p s p' s' → Step (.sfork eag p q r) s (.sfork eag p' q r) s'
  | sforkOk {eag q r s} : Step (.sfork eag (.halt .ok) q r) s q s
  | sforkUb {eag q r s} : Step (.sfork eag (.halt .ub) q r) s (.halt .ub) s
  | sforkThrow {q r s e} : Step (.sfork true (.halt (.exn e)) q r) s (.halt (.exn e)) s
  | sforkCap {q r s e} : Step (.sfork false (.halt (.exn e)) q r) s r { s with pd := capture s.pd e }
  | frameStep {p s pd p' m' pd' log'} : Step p { s with pd } p' ⟨m', pd', log'⟩ →
      Step (.frame pd p) s (.frame pd' p') ⟨m', s.pd, log'⟩
  | frameEnd {pd o s} : Step (.frame pd (.halt o)) s (.halt (taskEnd pd o)) s

/-- No code: any number of steps. -/
inductive Steps : Cmd L V E → St L V E → Cmd L V E → St L V E → Prop where
  | refl {p s} : Steps p s p s
  | head {p s p' s' p'' s''} : Step p s p' s' → Steps p' s' p'' s'' → Steps p s p'' s''

/-! ### The algorithms -/

/-- The algorithms (map.hpp, fold.hpp) as programs. -/
abbrev Prog (V E : Type) := Cmd Loc V E

/-- `*w = f(*a)`. map.hpp:60-62. -/
abbrev atom1 (w a : Loc) (f : V → Except (E × Bool) V) : Prog V E := .atom w 1 (fun _ => a) fun v => f (v 0)

/-- `*w = f(*a, *b)`. fold.hpp:64-104. -/
abbrev atom2 (w a b : Loc) (f : V → V → Except (E × Bool) V) : Prog V E :=
  .atom w 2 (fun i => if i = 0 then a else b) fun v => f (v 0) (v 1)

/-- The user's functions: the projection (called through `just`, which rethrows, just.hpp:84-92), the operator, whether it is
asynchronous (`async_bop`, scan.hpp:181, fold.hpp:48); `eag`: whether the modifiers `eager_throw_outside` and `sync_outside` rethrow
(in the code they do not, C15). -/
structure Fns (V E : Type) where
  pr : V → Except E V
  op : V → V → Except E V
  async : Bool
  eag : Bool

/-- An exception thrown by a synchronous function or rethrown by `just`. core/just.hpp:55-122. -/
def thrown {α : Type} : Except E α → Except (E × Bool) α
  | .ok v => .ok v
  | .error e => .error (e, false)

/-- fold.hpp:64-104: the projection of an element. -/
def Fns.proj (F : Fns V E) (x : V) : Except (E × Bool) V := thrown (F.pr x)

/-- `bop(a, b)`: scan.hpp:208-212, fold.hpp:69-73: invoked, or called with `eager_throw_outside`. -/
def Fns.bop (F : Fns V E) (a b : V) : Except (E × Bool) V :=
  match F.op a b with
  | .ok v => .ok v
  | .error e => .error (e, F.async && !F.eag)

/-- `bop(move(acc), co_await just(proj)(*beg))`. fold.hpp:64-104. -/
def Fns.acc (F : Fns V E) (a x : V) : Except (E × Bool) V :=
  match F.proj x with
  | .ok y => F.bop a y
  | .error e => .error e

/-- fold.hpp:68-74. -/
def foldLoop (F : Fns V E) (acc : Loc) (head : Nat) : Nat → Prog V E
  | 0 => .halt .ok
  | k + 1 => .seq (atom2 acc acc (.cell head) F.acc) (foldLoop F acc (head + 1) k)

/-- fold.hpp:53-105; the final combination (line 101) is through `just`, which rethrows. -/
def foldN (F : Fns V E) (n : Nat) (ret : Loc) (path : List Bool) (head len : Nat) : Prog V E :=
  if n ≤ 1 then .halt .ub
  else if len = 0 then .halt .ub
  else if len ≤ n then
    .seq (atom1 (.tmp path 0) (.cell head) F.proj)
      (.seq (foldLoop F (.tmp path 0) (head + 1) (len - 1)) (atom1 ret (.tmp path 0) .ok))
  else if len / 2 = 0 ∨ len - len / 2 = 0 then .halt .ub
  else
    .seq (.par (.frame none (foldN F n (.tmp path 1) (false :: path) head (len / 2)))
               (.frame none (foldN F n (.tmp path 2) (true :: path) (head + len / 2) (len - len / 2))))
      (atom2 ret (.tmp path 1) (.tmp path 2) fun a b => thrown (F.op a b))
termination_by len
decreasing_by all_goals omega

/-- fold.hpp:113-155. -/
def foldOne (F : Fns V E) (ret : Loc) (path : List Bool) (head len : Nat) : Prog V E :=
  if len = 0 then .halt .ub
  else if len = 1 then atom1 ret (.cell head) F.proj
  else if len / 2 = 0 ∨ len - len / 2 = 0 then .halt .ub
  else
    .seq (.par (.frame none (foldOne F (.tmp path 1) (false :: path) head (len / 2)))
               (.frame none (foldOne F (.tmp path 2) (true :: path) (head + len / 2) (len - len / 2))))
      (atom2 ret (.tmp path 1) (.tmp path 2) fun a b => thrown (F.op a b))
termination_by len
decreasing_by all_goals omega

/-- fold.hpp:190-208, 238-262, for a range that is not empty; all the calls are through `just`. -/
def foldTop (F : Fns V E) (n head len : Nat) : Prog V E :=
  .frame none (.frame none (if n = 1 then foldOne F .res [] head len else foldN F n .res [] head len))

/-- scan.hpp:226-233, 246-253, 364-371. -/
def scanLoop (F : Fns V E) (acc : Loc) (beg out : Nat) : Nat → Prog V E
  | 0 => .halt .ok
  | k + 1 =>
    .seq (atom2 acc acc (.cell beg) F.acc)
      (.seq (atom1 (.cell out) acc .ok) (scanLoop F acc (beg + 1) (out + 1) k))

/-- scan.hpp:196-256. -/
def riseLeaf (F : Fns V E) (o : SOp) (iv : Ival) (path : List Bool) (beg size out : Nat) : Prog V E :=
  match o, iv with
  | .fold, .mid =>
    .seq (atom1 (.tmp path 0) (.cell beg) F.proj)
      (.seq (foldLoop F (.tmp path 0) (beg + 1) (size - 1)) (atom1 (.cell (out + size - 1)) (.tmp path 0) .ok))
  | .fold, .rhs => .halt .ok
  | .fold, _ => .halt .ub
  | .scan, .mid | .scan, .rhs =>
    .seq (atom1 (.tmp path 0) (.cell (out - 1)) .ok) (scanLoop F (.tmp path 0) beg out size)
  | .scan, .all | .scan, .lhs =>
    .seq (atom1 (.tmp path 0) (.cell beg) F.proj)
      (.seq (atom1 (.cell out) (.tmp path 0) .ok) (scanLoop F (.tmp path 0) (beg + 1) (out + 1) (size - 1)))

/-- scan.hpp:187-309 `rise_sweep::operator()`. `rdy` as in `Algo/ScanModel.lean`. `gb path` is what the local `left_out`
(scan.hpp:265, default-initialised) holds if the left child did not return: `none` if its value is indeterminate (a pointer), so
that reading it is undefined behaviour; `some v` if it happens to compare like an iterator to `v`. -/
def rise (F : Fns V E) (rdy : List Bool → Bool) (gb : List Bool → Option Nat) (n : Nat) (o : SOp) (iv : Ival)
    (path : List Bool) (beg size out : Nat) : Prog V E :=
  if size = 0 then .halt .ub
  else if size ≤ n then riseLeaf F o iv path beg size out
  else if size < 2 then .halt .ub
  else
    let mid := size / 2
    let left := .frame none (rise F rdy gb n o iv.l (false :: path) beg mid out)
    let rightFold := .frame none (rise F rdy gb n .fold iv.r (true :: path) (beg + mid) (size - mid) (out + mid))
    -- scan.hpp:290-302
    let combine : Prog V E :=
      if iv = .lhs ∨ iv = .mid then
        atom2 (.cell (out + size - 1)) (.cell (out + mid - 1)) (.cell (out + size - 1)) F.bop
      else .halt .ok
    match o with
    | .scan =>
      -- scan.hpp:276, through `just`
      let fused := .frame none (rise F rdy gb n .scan iv.r (true :: path) (beg + mid) (size - mid) (out + mid))
      -- scan.hpp:283-302 when the left child has completed
      let rest := .seq (.par (.halt .ok) rightFold) combine
      if rdy path = true then
        .sfork F.eag left (if riseEnd rdy n (false :: path) beg mid = beg + mid then fused else rest)
          (match gb path with
           | none => .halt .ub
           | some v => if v = beg + mid then fused else rest)
      else .seq (.par left rightFold) combine
    | .fold => .seq (.par left rightFold) combine
termination_by size
decreasing_by all_goals omega

/-- scan.hpp:347-393 `fall_sweep_impl::operator()`. -/
def fallImpl (F : Fns V E) (n : Nat) (iv : Ival) (path : List Bool) (beg size out : Nat) : Prog V E :=
  if iv = .all ∨ iv = .lhs then .halt .ub
  else if size = 0 then .halt .ub
  else if size ≤ n then
    .seq (atom1 (.tmp path 0) (.cell (out - 1)) .ok)
      (scanLoop F (.tmp path 0) beg out (if iv = .rhs then size else size - 1))
  else if size < 2 then .halt .ub
  else
    let mid := size / 2
    .seq (atom2 (.cell (out + mid - 1)) (.cell (out - 1)) (.cell (out + mid - 1)) F.bop)
      (.par (.frame none (fallImpl F n iv.l (false :: path) beg mid out))
            (.frame none (fallImpl F n iv.r (true :: path) (beg + mid) (size - mid) (out + mid))))
termination_by size
decreasing_by all_goals omega

/-- scan.hpp:434-476 `fall_sweep::operator()`; a call through `just` (lines 461, 465) is a frame. -/
def fall (F : Fns V E) (n : Nat) (iv : Ival) (path : List Bool) (beg size out scanEnd : Nat) : Prog V E :=
  if _h : scanEnd < beg + size then
    if _h0 : size = 0 then .halt .ub
    else
      let mid := size / 2
      if _h1 : scanEnd < beg + mid then
        .par (.frame none (fall F n iv.l (false :: path) beg mid out scanEnd))
             (.frame none (fallImpl F n iv.r (true :: path) (beg + mid) (size - mid) (out + mid)))
      else if scanEnd = beg + mid then
        .frame none (fallImpl F n iv.r (true :: path) (beg + mid) (size - mid) (out + mid))
      else .frame none (fall F n iv.r (true :: path) (beg + mid) (size - mid) (out + mid) scanEnd)
  else .halt .ub
termination_by size
decreasing_by all_goals omega

/-- scan.hpp:491-512 `scan_impl::operator()`, called through `just` by the overloads. -/
def scan (F : Fns V E) (rdy : List Bool → Bool) (gb : List Bool → Option Nat) (n src dst len : Nat) : Prog V E :=
  .frame none (.frame none
    (if len = 0 then .halt .ok
     else
      .seq (.frame none (rise F rdy gb n .scan .all [] src len dst))
        (if riseEnd rdy n [] src len ≠ src + len then
           .frame none (fall F n .all [] src len dst (riseEnd rdy n [] src len))
         else .halt .ok)))

end Verif.Algo.Throw
