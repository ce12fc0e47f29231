/-!
C51: the lifetime of pool objects: construction, moves, destruction (include/libfork/schedule/busy_pool.hpp:129-211,
lazy_pool.hpp:293-394). The two classes have the same members in the same order and the same special member functions; the
differences matter for zero workers only.

A program is a sequence of operations on named objects. What the workers do is C38 to C42 and C50; here a thread only ends when
the shared stop flag that it looks at is set, and `join` waits for that.
-/
namespace Verif.Pool.Obj

/-- busy_pool.hpp:126, lazy_pool.hpp:293: which pool. -/
inductive Kind where
  | busy | lazy
  deriving DecidableEq

/-- Which allocation of a constructor fails. busy_pool.hpp:160-192, lazy_pool.hpp:327-369. -/
inductive Fail where
  | none
  | early     -- busy_pool.hpp:129-171: before a thread is started (also: hwloc throws)
  | threads   -- busy_pool.hpp:176-178, inside a noexcept lambda
  | contexts  -- busy_pool.hpp:186-188, lazy_pool.hpp:363-365: `m_contexts.push_back` throws
  deriving DecidableEq

/-- A pool object. busy_pool.hpp:126-140, lazy_pool.hpp:293-310. -/
structure Pool where
  /-- `m_share`: none is null. -/
  share : Option Nat
  /-- `m_worker.size()`. -/
  workers : Nat
  /-- `m_threads`: those that are joinable. -/
  threads : List Nat
  deriving DecidableEq

/-- No code: all pool objects and their threads. -/
structure World where
  /-- The objects that are alive. -/
  objs : Nat → Option Pool
  /-- The shared variables whose flag `stop` is set. -/
  stopped : Nat → Bool
  /-- The shared variables a thread looks at. -/
  sees : Nat → Nat
  /-- The threads that have not ended. -/
  running : List Nat
  /-- The next share and the next thread. -/
  nshare : Nat
  nthread : Nat

/-- No code: no pools. -/
def World.init : World :=
  { objs := fun _ => none, stopped := fun _ => false, sees := fun _ => 0, running := [], nshare := 0, nthread := 0 }

/-- No code: the outcome of an operation. -/
inductive Out where
  | ok (w : World)
  | ub
  /-- `std::terminate`. -/
  | term
  /-- A join that waits forever. -/
  | hang
  /-- Not a C++ program: an operation on an object that does not exist, or a second object of the same name. -/
  | invalid

/-- busy_pool.hpp:140-210, lazy_pool.hpp:307-395: what a user can do to a pool object. -/
inductive Op where
  | make (k : Kind) (x n : Nat) (f : Fail)
  | move (y x : Nat)          -- `pool y{std::move(x)}`
  | assign (y x : Nat)        -- `y = std::move(x)`
  | schedule (x i : Nat)      -- `x.schedule(job)` with worker `i` drawn from `m_dist`
  | destroy (x : Nat)

/-- No code: function update. -/
def set (f : Nat → Option Pool) (x : Nat) (p : Option Pool) : Nat → Option Pool := fun y => if y = x then p else f y

/-- The constructor (busy_pool.hpp:158-189, lazy_pool.hpp:327-366). With no workers `lazy_pool` dereferences the end iterator that
`max_element` returns (lazy_pool.hpp:342-344); hwloc builds report an error instead (`early`). A constructor that throws leaves
the world as it was. `fixed` is a version that reserves `m_contexts` before it starts threads. -/
def make (fixed : Bool) (k : Kind) (x n : Nat) (f : Fail) (w : World) : Out :=
  match w.objs x with
  | some _ => .invalid
  | none =>
    if f = .early then .ok w
    else if k = .lazy ∧ n = 0 then .ub
    else if f = .threads then .term
    else
      let ts := (List.range n).map (w.nthread + ·)
      -- busy_pool.hpp:187: the members are destroyed, `std::thread` objects that are joinable call terminate
      if f = .contexts ∧ n ≠ 0 then (if fixed then .ok w else .term)
      else .ok { w with
        objs := set w.objs x (some { share := some w.nshare, workers := n, threads := ts })
        sees := fun t => if w.nthread ≤ t then w.nshare else w.sees t
        running := w.running ++ ts, nshare := w.nshare + 1, nthread := w.nthread + n }

/-- What is left of an object after a move from it. busy_pool.hpp:140, lazy_pool.hpp:307. -/
def empty : Pool := { share := none, workers := 0, threads := [] }

/-- Stop and join (busy_pool.hpp:204-208, lazy_pool.hpp:385-393). -/
def shut (p : Pool) (w : World) : Out :=
  match p.share with
  | none => .ub
  | some m =>
    let st := fun i => if i = m then true else w.stopped i
    if p.threads.all fun t => st (w.sees t) then
      .ok { w with stopped := st, running := w.running.filter fun t => !p.threads.contains t }
    else .hang

/-- The defaulted move constructor (busy_pool.hpp:140, lazy_pool.hpp:307). -/
def move (y x : Nat) (w : World) : Out :=
  match w.objs x, w.objs y with
  | some p, none => if y = x then .invalid else .ok { w with objs := set (set w.objs x (some empty)) y (some p) }
  | _, _ => .invalid

/-- The defaulted move assignment (busy_pool.hpp:148, lazy_pool.hpp:315): `m_threads` of the target is replaced, and the destructors of its joinable
threads call terminate. `fixed` is a version that stops and joins first. -/
def assign (fixed : Bool) (y x : Nat) (w : World) : Out :=
  match w.objs x, w.objs y with
  | some p, some q =>
    if y = x then .invalid
    else if fixed then
      let go (w : World) : Out := .ok { w with objs := set (set w.objs x (some empty)) y (some p) }
      match q.share with
      | none => go w
      | some _ => match shut q w with
        | .ok w' => go w'
        | o => o
    else if q.threads ≠ [] then .term
    else .ok { w with objs := set (set w.objs x (some empty)) y (some p) }
  | _, _ => .invalid

/-- `m_worker[i]` (busy_pool.hpp:194). -/
def schedule (x i : Nat) (w : World) : Out :=
  match w.objs x with
  | none => .invalid
  | some p => if i < p.workers then .ok w else .ub

/-- The destructor (busy_pool.hpp:201-209, lazy_pool.hpp:381-394). `fixed` is a version that tests `m_share`. -/
def destroy (fixed : Bool) (x : Nat) (w : World) : Out :=
  match w.objs x with
  | none => .invalid
  | some p =>
    if fixed ∧ p.share = none then .ok { w with objs := set w.objs x none }
    else match shut p w with
      | .ok w' => .ok { w' with objs := set w'.objs x none }
      | o => o

/-- busy_pool.hpp:140-210, lazy_pool.hpp:307-395. -/
def step (fixed : Bool) (w : World) : Op → Out
  | .make k x n f => make fixed k x n f w
  | .move y x => move y x w
  | .assign y x => assign fixed y x w
  | .schedule x i => schedule x i w
  | .destroy x => destroy fixed x w

/-- No code: a sequence of operations. -/
def run (fixed : Bool) (w : World) : List Op → Out
  | [] => .ok w
  | o :: os => match step fixed w o with
    | .ok w' => run fixed w' os
    | r => r

end Verif.Pool.Obj
