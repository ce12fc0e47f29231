import Verif.Mem.Model

/-!
The runtime of Verif.Mem.Model (awaitables.hpp, promise.hpp, frame.hpp, resume.hpp, tasks that share memory), together with what happens before
what in the sense of the C++ memory model: every step of a worker or of another thread has a number, and for each of them, and for each
atomic object the runtime synchronises with, the model keeps the numbers of the steps that happen before the next operation (a vector clock,
written as a list). Only the following create an order between different threads:

* the push of a task onto a work-stealing queue and the steal that takes it (C44),
* the push of a task onto a submission list and `try_pop_all` (C47; its `memory_order_consume` is taken as acquire, as all compilers do),
* the decrements of a join counter and the load or decrement that finds them complete (C43): a release sequence, which ends when the counter is constructed anew in `reset`,
* the release of the semaphore of a root task and its acquisition by a waiting thread (C53).

In particular a worker that pops a task from its own queue, fails to win a join, or finds an empty queue acquires nothing.

Simplifications: those of Verif.Mem.Model. A root task's parameters are destroyed after its semaphore has been released (C53); here this is one
step.
-/
namespace Verif.Hb
open Verif.Runtime (Res Link upd maxU16)
open Verif.Exn (XS Choice)
open Verif.Mem (MS Act)

/-- What happens before the next operation. `n`: the number of the next step. `kn`: of a worker. `kt`: of another thread. `kq`, `kb`: published with a task
on a work-stealing queue (deque.hpp:380-404) or on a submission list (list.hpp:80-95). `kj`: published by the decrements of a join counter
(frame.hpp:189-191). `kr`: by the release of a root's semaphore (promise.hpp:339). -/
structure Clk where
  n : Nat
  kn : Nat → List Nat
  kt : Nat → List Nat
  kq : Nat → List Nat
  kb : Nat → List Nat
  kj : Nat → List Nat
  kr : Nat → Option (List Nat)

/-- No code: worker `w` takes a step. -/
def Clk.tick (h : Clk) (w : Nat) : Clk := { h with n := h.n + 1, kn := upd h.kn w (h.n :: h.kn w) }

/-- No code: worker `w` reads what was published with `k` with an acquire operation. -/
def Clk.acquire (h : Clk) (w : Nat) (k : List Nat) : Clk := { h with kn := upd h.kn w (k ++ h.kn w) }

/-- deque.hpp:400-403: a release fence and a store of the bottom index. -/
def Clk.push (h : Clk) (w f : Nat) : Clk := { h with kq := upd h.kq f (h.kn w) }

/-- list.hpp:80-95: a release compare-exchange of the head. -/
def Clk.send (h : Clk) (w f : Nat) : Clk := { h with kb := upd h.kb f (h.kn w) }

/-- promise.hpp:339: the release of the semaphore. -/
def Clk.signal (h : Clk) (w f : Nat) : Clk := { h with kr := upd h.kr f (some (h.kn w)) }

/-- promise.hpp:92-94, awaitables.hpp:463-469: `fetch_sub` with release order, which continues the release sequence; then, if it finds the
join complete (`won`), an acquire fence. -/
def Clk.sub (h : Clk) (w f : Nat) (won : Bool) : Clk :=
  let j := h.kn w ++ h.kj f
  { h with kj := upd h.kj f j, kn := if won then upd h.kn w j else h.kn }

/-- frame.hpp:57-68, 206-215: the join counter is constructed (not atomically); what was published by decrements of its predecessor is not published by it. -/
def Clk.store (h : Clk) (f : Nat) : Clk := { h with kj := upd h.kj f [] }

/-- The order relevant operations of a step of worker `w`. deque.hpp:380-470, list.hpp:80-115, promise.hpp:49-138, 302-363, awaitables.hpp:96-508, resume.hpp:38-78.
The load in awaitables.hpp:439 acquires what it reads; that is used only if it finds the join complete. -/
def sync {σ V E L : Type} (body : σ → Act σ V E L) (w : Nat) (ch : Choice E) (x : XS σ V E) (h0 : Clk) : Clk :=
  let h := h0.tick w
  match x.c.pc w with
  | .idle =>
    match ch with
    | .go .take => match x.c.inbox w with | f :: _ => h.acquire w (h.kb f) | [] => h
    | .go (.steal v) => match (x.c.q v).getLast? with | some (p, _) => h.acquire w (h.kq p) | none => h
    | _ => h
  | .run f =>
    match ch, body (x.c.fr f).st with
    | .go _, .fork _ _ _ => (h.store x.c.nf).push w f
    | .go _, .call _ _ _ => h.store x.c.nf
    | .go _, .switch _ _ _ => h.send w f
    | .go _, .ret _ => if x.c.link f = .root then h.signal w f else h
    | .go _, .throw _ => if x.c.link f = .root then h.signal w f else h
    | _, _ => h
  | .joinLoad f => if (x.c.fr f).steal = maxU16 - (x.c.fr f).join then h.acquire w (h.kj f) else h
  | .joinSub f => h.sub w f (decide ((x.c.fr f).steal = maxU16 - (x.c.fr f).join))
  | .finDec p _ _ => h.sub w p (decide ((x.c.fr p).join = 1))
  | .joinTake f => h.store f
  | .finWin f _ => h.store f
  | .finPop _ _ | .finLose _ | .selfSteal | .stole _ | .switchRel _ => h

/-- How a task came to be. No code: the program. -/
inductive Par where
  | root
  | fork (p : Nat)
  | call (p : Nat)
  deriving DecidableEq

/-- What the program itself puts before what, whoever executes it: the order of the statements of a task, a child after the fork or call that
started it, a call's continuation after the callee, a join's after the children, and a sync fork that answers that the child has
completed after the child. `L`: what comes before the next statement of a task. `D`: what the children did that a task has forked since its
last join and that have ended. `T`: before the next statement of a thread. `kid`: the child forked last. No code: the program. -/
structure Ord where
  L : Nat → List Nat
  D : Nat → List Nat
  T : Nat → List Nat
  par : Nat → Par
  kid : Nat → Nat

namespace Ord

/-- Step `n` belongs to task `f`. No code: the program. -/
def act (g : Ord) (n f : Nat) : Ord := { g with L := upd g.L f (n :: g.L f) }

/-- Task `p` forks `c`. No code: the program. -/
def fork (g : Ord) (p c : Nat) : Ord :=
  { g with L := upd g.L c (g.L p), D := upd g.D c [], par := upd g.par c (.fork p), kid := upd g.kid p c }

/-- Task `p` calls `c`. No code: the program. -/
def call (g : Ord) (p c : Nat) : Ord := { g with L := upd g.L c (g.L p), D := upd g.D c [], par := upd g.par c (.call p) }

/-- Task `f` has ended. No code: the program. -/
def ended (g : Ord) (f : Nat) : Ord :=
  match g.par f with
  | .root => g
  | .fork p => { g with D := upd g.D p (g.L f ++ g.D p) }
  | .call p => { g with L := upd g.L p (g.L f ++ g.L p) }

/-- Task `f` passes a join. No code: the program. -/
def join (g : Ord) (f : Nat) : Ord := { g with L := upd g.L f (g.D f ++ g.L f), D := upd g.D f [] }

/-- The child that `p` forked last has completed, and `p` is told so. No code: the program. -/
def told (g : Ord) (p : Nat) : Ord := { g with L := upd g.L p (g.L (g.kid p) ++ g.L p) }

/-- Thread `t` takes step `n`. No code: the program. -/
def thread (g : Ord) (n t : Nat) : Ord := { g with T := upd g.T t (n :: g.T t) }

/-- Thread `t` submits task `f`. No code: the program. -/
def submit (g : Ord) (t f : Nat) : Ord := { g with L := upd g.L f (g.T t), D := upd g.D f [], par := upd g.par f .root }

/-- Thread `t` has waited for task `f`. No code: the program. -/
def saw (g : Ord) (t f : Nat) : Ord := { g with T := upd g.T t (g.L f ++ g.T t) }

end Ord

/-- A step of a worker for a task, by its number: `known`: what happens before it, and itself. `before`: what the program puts before it. `acc`: the location of the
shared memory it reads (`false`) or writes (`true`). `cnt`: the task whose join counter it accesses, and whether it constructs it (`true`) or
uses it atomically. No code: the log. -/
structure Rec (L : Type) where
  no : Nat
  task : Nat
  known : List Nat
  before : List Nat
  acc : Option (L × Bool)
  cnt : Option (Nat × Bool)

/-- The task a step of worker `w` belongs to: whose code it runs, or whose frame it reads and writes without synchronisation. The steps of
a worker on its way to the scheduler belong to none. awaitables.hpp:96-508, promise.hpp:49-138, resume.hpp:38-78. -/
def who {σ V E : Type} (w : Nat) (ch : Choice E) (x : XS σ V E) : Option Nat :=
  match x.c.pc w with
  | .idle => match ch, x.c.inbox w with | .go .take, f :: _ => some f | _, _ => none
  | .run f | .joinLoad f | .joinSub f | .joinTake f | .finWin f _ | .stole f => some f
  | .finPop p c => if x.c.q w = [] then some c else some p
  | .finDec _ c _ => some c
  | .finLose _ | .selfSteal | .switchRel _ => none

/-- awaitables.hpp:299-333: what a resumed fork answers, from the steals before the fork and now. -/
def answer {σ V E : Type} (p : Nat) (x x' : XS σ V E) : Bool :=
  match x.aw p with
  | some (.fork pre) => decide ((x'.c.fr p).steal = pre)
  | _ => false

/-- What the program waits for in the step. No code: the program. -/
def merge {σ V E L : Type} (body : σ → Act σ V E L) (w : Nat) (ch : Choice E) (x x' : XS σ V E) (g : Ord) : Ord :=
  match x.c.pc w with
  | .run f =>
    match ch, body (x.c.fr f).st with
    | .go _, .join _ _ => if (x.c.fr f).steal = 0 then g.join f else g
    | _, _ => g
  | .joinTake f => g.join f
  | .finWin f _ => g.join f
  | .finPop p _ => if x.c.q w = [] then g else if answer p x x' then g.told p else g
  | .stole p => if answer p x x' then g.told p else g
  | _ => g

/-- What the program starts or ends in the step; a forked child ends when it has told its parent. No code: the program. -/
def post {σ V E L : Type} (body : σ → Act σ V E L) (w : Nat) (ch : Choice E) (x : XS σ V E) (g : Ord) : Ord :=
  match x.c.pc w with
  | .run f =>
    match ch, body (x.c.fr f).st with
    | .go _, .fork _ _ _ => g.fork f x.c.nf
    | .go _, .call _ _ _ => g.call f x.c.nf
    | .go _, .ret _ => g.ended f
    | .go _, .throw _ => g.ended f
    | _, _ => g
  | .finDec _ c _ => g.ended c
  | _ => g

/-- The join counter a step of a task accesses, and whether it constructs it. frame.hpp:57-68 (a new frame), 206-215 (`reset`: awaitables.hpp:418, promise.hpp:112),
189-191 (awaitables.hpp:439, 463, promise.hpp:92). Simplification: the loads in assertions are left out. -/
def counter {σ V E L : Type} (body : σ → Act σ V E L) (w : Nat) (ch : Choice E) (x : XS σ V E) : Option (Nat × Bool) :=
  match x.c.pc w with
  | .run f =>
    match ch, body (x.c.fr f).st with
    | .go _, .fork _ _ _ => some (x.c.nf, true)
    | .go _, .call _ _ _ => some (x.c.nf, true)
    | _, _ => none
  | .joinLoad f => some (f, false)
  | .joinSub f => some (f, false)
  | .finDec p _ _ => some (p, false)
  | .joinTake f => some (f, true)
  | .finWin f _ => some (f, true)
  | _ => none

/-- The access to shared memory of a step. No code: the program. -/
def access {σ V E L : Type} (body : σ → Act σ V E L) (w : Nat) (x : XS σ V E) : Option (L × Bool) :=
  match x.c.pc w with
  | .run f =>
    match body (x.c.fr f).st with
    | .load l _ => some (l, false)
    | .store l _ _ => some (l, true)
    | _ => none
  | _ => none

/-- Everything. `tr`: the steps that belong to tasks, newest first. frame.hpp:38-81, deque.hpp, list.hpp, and the program. -/
structure HS (σ V E L : Type) where
  s : MS σ V E L
  h : Clk
  g : Ord
  tr : List (Rec L)

variable {σ V E L : Type}

/-- The log of a step. No code. -/
def log (body : σ → Act σ V E L) (w : Nat) (ch : Choice E) (a : HS σ V E L) (x' : XS σ V E) : List (Rec L) :=
  match who w ch a.s.x with
  | some f => ⟨a.h.n, f, (sync body w ch a.s.x a.h).kn w, (merge body w ch a.s.x x' a.g).L f, access body w a.s.x, counter body w ch a.s.x⟩ :: a.tr
  | none => a.tr

/-- The program's order after a step. No code: the program. -/
def order (body : σ → Act σ V E L) (w : Nat) (ch : Choice E) (a : HS σ V E L) (x' : XS σ V E) : Ord :=
  let g := merge body w ch a.s.x x' a.g
  post body w ch a.s.x (match who w ch a.s.x with | some f => g.act a.h.n f | none => g)

/-- One step of worker `w`. awaitables.hpp:55-508, promise.hpp:49-138, resume.hpp:38-78. -/
def step [Inhabited E] [DecidableEq L] (body : σ → Act σ V E L) (w : Nat) (ch : Choice E) (a : HS σ V E L) : Res (HS σ V E L) :=
  match Mem.step body w ch a.s with
  | .ok s' => .ok ⟨s', sync body w ch a.s.x a.h, order body w ch a s'.x, log body w ch a s'.x⟩
  | .ub => .ub
  | .no => .no

/-- sync_wait.hpp:246-290: thread `t` submits a root task to worker `w`. -/
def submit (a : HS σ V E L) (t : Nat) (c : σ) (w : Nat) : HS σ V E L :=
  let f := a.s.x.c.nf
  let k := a.h.n :: a.h.kt t
  ⟨Mem.submit a.s c w, { a.h with n := a.h.n + 1, kt := upd a.h.kt t k, kb := upd a.h.kb f k, kj := upd a.h.kj f [], kr := upd a.h.kr f none },
    (a.g.thread a.h.n t).submit t f, ⟨a.h.n, f, k, a.g.T t, none, some (f, true)⟩ :: a.tr⟩

/-- sync_wait.hpp:190-203 `future::wait`: thread `t` acquires the semaphore of the root `f`. -/
def wait (a : HS σ V E L) (t f : Nat) : Res (HS σ V E L) :=
  match a.h.kr f with
  | some k => .ok { a with h := { a.h with n := a.h.n + 1, kt := upd a.h.kt t (a.h.n :: (k ++ a.h.kt t)) }, g := (a.g.saw t f).thread a.h.n t }
  | none => .no

/-- Thread `t` does something else. No code: the user's. -/
def other (a : HS σ V E L) (t : Nat) : HS σ V E L :=
  { a with h := { a.h with n := a.h.n + 1, kt := upd a.h.kt t (a.h.n :: a.h.kt t) }, g := a.g.thread a.h.n t }

/-- Thread `t` does something that happens after all that thread `u` has done so far (it joins it, or locks a mutex `u` has unlocked). No code: the user's. -/
def meet (a : HS σ V E L) (t u : Nat) : HS σ V E L :=
  { a with
    h := { a.h with n := a.h.n + 1, kt := upd a.h.kt t (a.h.n :: (a.h.kt u ++ a.h.kt t)) }
    g := ({ a.g with T := upd a.g.T t (a.g.T u ++ a.g.T t) } : Ord).thread a.h.n t }

/-- No task yet. No code: the initial state. -/
def HS.start (y : σ) (m : L → E) : HS σ V E L :=
  ⟨MS.start y m, ⟨0, fun _ => [], fun _ => [], fun _ => [], fun _ => [], fun _ => [], fun _ => none⟩,
    ⟨fun _ => [], fun _ => [], fun _ => [], fun _ => .root, fun _ => 0⟩, []⟩

end Verif.Hb
