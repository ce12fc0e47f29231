import Verif.Fair
import Verif.Pool.Model
import Verif.Mem.Model
import Verif.Mem.Spec

/-!
A whole program on a `busy_pool` or `unit_pool` (schedule/busy_pool.hpp, schedule/unit_pool.hpp): the workers' loops with the runtime of
Verif.Mem.Model (awaitables.hpp, promise.hpp, frame.hpp, resume.hpp, with exceptions and tasks that share memory) inside them, the threads that call
`lf::schedule` or `lf::sync_wait` (core/sync_wait.hpp), and the destructor of the pool, which may be called while tasks still run.

A worker's step contains at most one access to memory shared with others (sequentially consistent). The list of a worker's submissions is the one of
Verif.Runtime.Model, of which the worker has the first `hand` in its hands.

Simplifications: those of Verif.Mem.Model; the constructor has returned (C50, C51); the allocations of `lf::schedule` itself do not fail (C19).
-/
namespace Verif.Busy
open Verif.Runtime (Res Ev upd)
open Verif.Exn (Choice)
open Verif.Mem (MS Act Allowed)
open Verif.Pool (Pc DPc Cfg)

/-- A thread that uses the pool: sync_wait.hpp:193-302. -/
inductive Caller (R : Type) where
  /-- It has not called `schedule` (or `sync_wait`) yet. -/
  | before
  /-- It picks a worker: busy_pool.hpp:194 `m_dist(m_rng)`. -/
  | picking
  /-- `schedule` has returned a future for task `f`; `get` (which is what `sync_wait` calls) waits for it. -/
  | waiting (f : Nat)
  /-- `get` has returned or thrown `r`. -/
  | back (f : Nat) (r : R)

/-- busy_pool.hpp:46-66, 128-140, unit_pool.hpp:83-88, the workers, the tasks and the callers. -/
structure B (σ V E L : Type) where
  /-- busy_pool.hpp:65, unit_pool.hpp:83 -/
  stop : Bool
  /-- busy_pool.hpp:61 -/
  latch : Nat
  pc : Nat → Pc
  /-- How many of the worker's submissions `try_pop_all` has already given to it (busy_pool.hpp:97, 108, unit_pool.hpp:49, 55). -/
  hand : Nat → Nat
  dpc : DPc
  caller : Nat → Caller (Except E V)
  /-- The tasks, stacks, queues, submissions and memory. -/
  M : MS σ V E L

variable {σ V E L : Type}

/-- No code: worker `w` goes on at `p`. -/
def B.go (s : B σ V E L) (w : Nat) (p : Pc) : B σ V E L := { s with pc := upd s.pc w p }

/-- Not inside a task. No code. -/
def B.idle (s : B σ V E L) (w : Nat) : Bool :=
  match s.M.x.c.pc w with
  | .idle => true
  | _ => false

/-- context.hpp:76-84 `try_pop_all` (list.hpp:102-116). -/
def B.pop (s : B σ V E L) (w : Nat) (some none : Pc) : B σ V E L :=
  if s.M.x.c.inbox w = [] then s.go w none else { s.go w some with hand := upd s.hand w (s.M.x.c.inbox w).length }

/-- The worker's loop outside `resume` and `try_steal`. busy_pool.hpp:85-111, unit_pool.hpp:42-58. -/
def loop (c : Cfg) (s : B σ V E L) (w : Nat) : Option (B σ V E L) :=
  match s.pc w with
  | .chk => some (s.go w (if s.stop then .dpop else .pop))
  | .pop => some (s.pop w .run (if c.unit then .chk else .steal))
  | .run => if s.idle w ∧ s.hand w = 0 then some (s.go w .chk) else none
  | .steal => none
  | .task => if s.idle w then some (s.go w .chk) else none
  | .dpop => some (s.pop w .drun (if c.unit then .fin4 else .fin1))
  | .drun => if s.idle w ∧ s.hand w = 0 then some (s.go w .dpop) else none
  | .fin1 => some { s.go w .fin2 with stop := true }
  | .fin2 => some { s.go w .fin3 with latch := s.latch - 1 }
  | .fin3 => if s.latch = 0 then some (s.go w .fin4) else none
  | .fin4 => none

/-- The worker has not yet finalised its context: busy_pool.hpp:90, unit_pool.hpp:42. -/
def B.alive (c : Cfg) (s : B σ V E L) (d : Nat) : Prop := d < c.N ∧ s.pc d ≠ .fin4

/-- Worker `w` is in a task, at a context switch to worker `d`. awaitables.hpp:96-165. -/
def AtSwitch (body : σ → Act σ V E L) (s : B σ V E L) (w d : Nat) : Prop :=
  ∃ f k x, s.M.x.c.pc w = .run f ∧ body (s.M.x.c.fr f).st = .switch d k x

/-- From the state `y` a task (or a task it makes) may come to `z` next. awaitables.hpp:96-500: what a coroutine can do. Simplification: a load may give any
value, a fork, call or switch may fail with any exception. -/
inductive Next (body : σ → Act σ V E L) : σ → σ → Prop
  | child {y c k x} : body y = .fork c k x → Next body y c
  | fork {y c k x} (b : Bool) : body y = .fork c k x → Next body y (k b)
  | forkX {y c k x} (e : E) : body y = .fork c k x → Next body y (x e)
  | callee {y c k x} : body y = .call c k x → Next body y c
  | call {y c k x} (r : Option V) : body y = .call c k x → Next body y (k r)
  | callX {y c k x} (e : E) : body y = .call c k x → Next body y (x e)
  | join {y k x} (l : List V) : body y = .join k x → Next body y (k l)
  | joinX {y k x} (e : E) (l : List (Option V)) : body y = .join k x → Next body y (x e l)
  | switch {y d k x} : body y = .switch d k x → Next body y k
  | switchX {y d k x} (e : E) : body y = .switch d k x → Next body y (x e)
  | load {y l k} (d : E) : body y = .load l k → Next body y (k d)
  | store {y l d k} : body y = .store l d k → Next body y k

/-- Any number of steps. No code. -/
inductive After (body : σ → Act σ V E L) : σ → σ → Prop
  | refl (y : σ) : After body y y
  | next {x y z : σ} : Next body x y → After body y z → After body x z

/-- busy_pool.hpp:125-126: "a point where they will submit no more work to the pool". -/
def Still (body : σ → Act σ V E L) (y : σ) : Prop := ∀ z, After body y z → ∀ d k x, body z ≠ .switch d k x

/-- Who takes a step. No code. -/
inductive Actor where
  | worker (w : Nat)
  | caller (i : Nat)
  | dtor
  deriving DecidableEq

/-- The outcome, mapped. No code. -/
def Res.map {α β : Type} (f : α → β) : Res α → Res β
  | .ok a => .ok (f a)
  | .ub => .ub
  | .no => .no

/-- `K` threads, thread `i` calls `schedule` with a root task that starts in the state `root i`, and perhaps waits for it. `dep i j`: call `i` is made after
the result of call `j` has been got (by the same thread, or because threads synchronise). `may`: the exceptions a fork, call or switch can throw by
itself. busy_pool.hpp:71-210, unit_pool.hpp:38-82, resume.hpp:38-78, sync_wait.hpp:193-302; see the constructors. -/
inductive Step [Inhabited E] [DecidableEq L] (c : Cfg) (body : σ → Act σ V E L) (may : E → Prop) (K : Nat) (root : Nat → σ) (dep : Nat → Nat → Prop) :
    Actor → B σ V E L → Res (B σ V E L) → Prop
  | loop (s s' : B σ V E L) (w : Nat) : w < c.N → loop c s w = some s' → Step c body may K root dep (.worker w) s (.ok s')
  /-- busy_pool.hpp:102: nothing was stolen. -/
  | noSteal (s : B σ V E L) (w : Nat) : w < c.N → s.pc w = .steal → Step c body may K root dep (.worker w) s (.ok (s.go w .chk))
  /-- busy_pool.hpp:102: the oldest task in the queue of worker `v` was stolen. Undefined if `v` has finalised its context, to which its queue belongs. -/
  | stole (s : B σ V E L) (w v : Nat) : w < c.N → v < c.N → s.pc w = .steal →
      Step c body may K root dep (.worker w) s
        (if s.pc v = .fin4 then .ub else Res.map (fun M => { s.go w .task with M := M }) (Mem.step body w (.go (.steal v)) s.M))
  /-- busy_pool.hpp:98, 109, unit_pool.hpp:50, 56, resume.hpp:38-58: the next of the submissions in the worker's hands. -/
  | take (s : B σ V E L) (w : Nat) : w < c.N → s.pc w = .run ∨ s.pc w = .drun → s.M.x.c.pc w = .idle → s.hand w ≠ 0 →
      Step c body may K root dep (.worker w) s
        (Res.map (fun M => { s with hand := upd s.hand w (s.hand w - 1), M := M }) (Mem.step body w (.go .take) s.M))
  /-- A step inside `resume`, of a task or of the runtime. awaitables.hpp, promise.hpp. -/
  | work (s : B σ V E L) (w : Nat) (ch : Choice E) : w < c.N → s.pc w = .run ∨ s.pc w = .drun ∨ s.pc w = .task → s.M.x.c.pc w ≠ .idle → Allowed may ch →
      (∀ d, AtSwitch body s w d → s.alive c d) →
      Step c body may K root dep (.worker w) s (Res.map (fun M => { s with M := M }) (Mem.step body w ch s.M))
  /-- awaitables.hpp:106-125: a context switch to a worker that does not exist (any more). -/
  | lost (s : B σ V E L) (w d : Nat) : w < c.N → s.pc w = .run ∨ s.pc w = .drun ∨ s.pc w = .task → AtSwitch body s w d → ¬ s.alive c d →
      Step c body may K root dep (.worker w) s .ub
  /-- busy_pool.hpp:194: the generator is used. -/
  | begin (s : B σ V E L) (i : Nat) : i < K → s.caller i = .before → (c.unit = false → ∀ k, k < K → s.caller k ≠ .picking) →
      (∀ j, dep i j → ∃ f r, s.caller j = .back f r) → Step c body may K root dep (.caller i) s (.ok { s with caller := upd s.caller i .picking })
  /-- Undefined if another thread uses it now. -/
  | race (s : B σ V E L) (i k : Nat) : i < K → s.caller i = .before → c.unit = false → k < K → s.caller k = .picking →
      (∀ j, dep i j → ∃ f r, s.caller j = .back f r) → Step c body may K root dep (.caller i) s .ub
  /-- busy_pool.hpp:194, unit_pool.hpp:72, context.hpp:72: the task is submitted to worker `d`. -/
  | submit (s : B σ V E L) (i d : Nat) : i < K → s.caller i = .picking → d < c.N →
      Step c body may K root dep (.caller i) s
        (if s.pc d = .fin4 then .ub else .ok { s with caller := upd s.caller i (.waiting s.M.x.c.nf), M := Mem.submit s.M (root i) d })
  /-- The semaphore has been released; promise.hpp:318-339, sync_wait.hpp:193-227. -/
  | get (s : B σ V E L) (i f : Nat) (r : Except E V) : i < K → s.caller i = .waiting f → Ev.done f r ∈ s.M.x.c.log →
      Step c body may K root dep (.caller i) s (.ok { s with caller := upd s.caller i (.back f r) })
  /-- busy_pool.hpp:204, unit_pool.hpp:78. The pool must not be used any more, and (busy_pool.hpp:125-126) its tasks must not submit work to it any more. -/
  | dstop (s : B σ V E L) : s.dpc = .alive → (∀ i, i < K → (∃ f, s.caller i = .waiting f) ∨ ∃ f r, s.caller i = .back f r) →
      (∀ f, f < s.M.x.c.nf → Still body (s.M.x.c.fr f).st) → Step c body may K root dep .dtor s (.ok { s with stop := true, dpc := .joining })
  /-- busy_pool.hpp:206-208, unit_pool.hpp:79 -/
  | djoin (s : B σ V E L) : s.dpc = .joining → (∀ w, w < c.N → s.pc w = .fin4) → Step c body may K root dep .dtor s (.ok { s with dpc := .gone })

/-- busy_pool.hpp:160-192, unit_pool.hpp:66-69: the pool has been constructed, nobody has called `schedule`, memory is `m`. -/
def B.start (c : Cfg) (y : σ) (m : L → E) : B σ V E L where
  stop := false
  latch := c.N
  pc _ := .chk
  hand _ := 0
  dpc := .alive
  caller _ := .before
  M := MS.start y m

/-- The states reached in any schedule in which nothing undefined has happened. No code: reachability. -/
inductive Reach [Inhabited E] [DecidableEq L] (c : Cfg) (body : σ → Act σ V E L) (may : E → Prop) (K : Nat) (root : Nat → σ) (dep : Nat → Nat → Prop)
    (m : L → E) : B σ V E L → Prop
  | start (y : σ) : Reach c body may K root dep m (B.start c y m)
  | step {s s' : B σ V E L} {a : Actor} : Reach c body may K root dep m s → Step c body may K root dep a s (.ok s') → Reach c body may K root dep m s'

/-- Who can take a step and is obliged to. (Nobody is obliged to call `schedule` or the destructor.) No code: the fairness assumption. -/
def ready (c : Cfg) (s : B σ V E L) : Actor → Prop
  | .worker w => w < c.N ∧ s.pc w ≠ .fin4 ∧ (s.pc w = .fin3 → s.latch = 0)
  | .caller i =>
    match s.caller i with
    | .before => False
    | .picking => True
    | .waiting f => ∃ r, Ev.done f r ∈ s.M.x.c.log
    | .back _ _ => False
  | .dtor => s.dpc = .joining ∧ ∀ w, w < c.N → s.pc w = .fin4

/-- The whole program. No code: the above as a transition system. -/
def system [Inhabited E] [DecidableEq L] (c : Cfg) (body : σ → Act σ V E L) (may : E → Prop) (K : Nat) (root : Nat → σ) (dep : Nat → Nat → Prop)
    (m : L → E) : Fair.Sys (B σ V E L) Actor where
  init s := ∃ y, s = B.start c y m
  step a s s' := Step c body may K root dep a s (.ok s')
  ready s a := ready c s a

end Verif.Busy
