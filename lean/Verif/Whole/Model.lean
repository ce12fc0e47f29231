import Verif.LazyPool.Model
import Verif.Runtime.Spec
import Verif.Runtime.Props

/-!
A whole program: threads that call `lf::sync_wait` on one `lazy_pool`, the pool's workers, and its destructor. The workers run the
loop of Verif.LazyPool (every atomic access of lazy_pool.hpp, event_count.hpp and of the submission) and, where lazy_pool.hpp:129 calls
`resume`, the runtime of Verif.Runtime (awaitables.hpp, promise.hpp, resume.hpp); a theft by the loop is a theft in the runtime, and
the runtime's lists of submissions are the pool's. sync_wait.hpp:210-302 and lazy_pool.hpp:371 are added.

Simplifications: those of the two models, except that what a task does when it is resumed, whether a theft succeeds, and who submits are
now given by the program. `try_steal` (numa_context.hpp:190-240) tries any victims in any order (C34), and may fail at any time
(`lost`). Allocation does not fail. A caller's future is used as in `sync_wait`: `get` at once (all uses: C18).
-/
namespace Verif.Whole
open Verif.Runtime (State Res Ev)
open Verif.LazyPool (Cfg St)
open Verif.EventCount (upd)

/-- A thread that calls `sync_wait`. sync_wait.hpp:255-302. -/
inductive Caller (V : Type) where
  | before
  /-- In lazy_pool.hpp:371 `m_dist(m_rng)`: the generator is a plain object. -/
  | picking
  /-- In `worker_context::schedule` (context.hpp:70-78) with job `j`, for the root task `f`. -/
  | calling (j f : Nat)
  /-- In `future::get`, for the root task `f`. -/
  | waiting (f : Nat)
  /-- `sync_wait` has returned `v`. -/
  | back (v : V)

/-- lazy_pool.hpp, resume.hpp, sync_wait.hpp: the pool, the runtime in its workers, and the callers. -/
structure W (σ V : Type) where
  /-- The pool. -/
  l : St
  /-- The tasks, the stacks and the work queues; `inbox` is not used (see `rt`). -/
  r : State σ V
  /-- The task a job (an entry in a list of submissions) refers to. -/
  task : Nat → Nat
  /-- Ghost: the number of jobs so far. -/
  nj : Nat
  /-- The job whose submission (by a context switch, context.hpp:76) a worker has not finished. -/
  out : Nat → Option Nat
  caller : Nat → Caller V

variable {σ V : Type}

/-- The runtime as it is: the tasks submitted to a worker are those in its local `handle` (lazy_pool.hpp:97) and those in its list. -/
def W.rt (s : W σ V) : State σ V := { s.r with inbox := fun w => (s.l.hand w ++ s.l.inbox w).map s.task }

/-- No code. -/
def Res.map {α β : Type} (f : α → β) : Res α → Res β
  | .ok a => .ok (f a)
  | .ub => .ub
  | .no => .no

/-- context.hpp:72: the push of job `s.nj`, which refers to task `f`, to the list of worker `d`. -/
def push (s : W σ V) (d f : Nat) : W σ V :=
  { s with
    l := { s.l with
      inbox := upd s.l.inbox d (s.l.inbox d ++ [s.nj])
      call := upd s.l.call s.nj (.pushed d)
      loc := upd s.l.loc s.nj (.inbox d) }
    task := upd s.task s.nj f
    nj := s.nj + 1 }

/-- lazy_pool.hpp:129, resume.hpp:38-58: the next of the submitted tasks in the worker's hands is resumed. -/
def started (s : W σ V) (w j : Nat) (js : List Nat) : St :=
  { s.l with
    hand := upd s.l.hand w js
    started := j :: s.l.started
    loc := upd s.l.loc j .started }

/-- Who takes a step. No code. -/
inductive Actor where
  | worker (w : Nat)
  | caller (i : Nat)
  | dtor
  deriving DecidableEq

/-- At a context switch to worker `d`. awaitables.hpp:96-165. -/
def AtSwitch (body : σ → Runtime.Act σ V) (s : W σ V) (w f d : Nat) (k : σ) : Prop := s.r.pc w = .run f ∧ body (s.r.fr f).st = .switch d k

/-- `K` threads, thread `i` calls `sync_wait` with a root task that starts in the state `root i`.
lazy_pool.hpp:97-395, resume.hpp:38-78, awaitables.hpp, promise.hpp, sync_wait.hpp:193-302; see the constructors. -/
inductive Step (c : Cfg) (body : σ → Runtime.Act σ V) (K : Nat) (root : Nat → σ) : Actor → W σ V → Res (W σ V) → Prop
  /-- The worker's loop, except where it steals or works. -/
  | pool (s : W σ V) (w : Nat) (l : St) : s.l.pc w ≠ .steal → s.l.pc w ≠ .work → LazyPool.Step c (.worker w) s.l l →
      Step c body K root (.worker w) s (.ok { s with l := l })
  /-- lazy_pool.hpp:208: nothing was stolen. -/
  | noSteal (s : W σ V) (w : Nat) : w < c.N → s.l.pc w = .steal → Step c body K root (.worker w) s (.ok { s with l := s.l.go w .prep })
  /-- lazy_pool.hpp:208: the oldest task in the queue of worker `v` was stolen. -/
  | stole (s : W σ V) (w v : Nat) : w < c.N → v < c.N → s.l.pc w = .steal → Runtime.step body w (.steal v) s.rt ≠ .no →
      Step c body K root (.worker w) s (Res.map (fun r => { s with l := s.l.go w .tws1, r := r }) (Runtime.step body w (.steal v) s.rt))
  /-- A step of the runtime inside `resume`. -/
  | work (s : W σ V) (w : Nat) : w < c.N → s.l.pc w = .work → s.r.pc w ≠ .idle → s.out w = none → (∀ f d k, ¬ AtSwitch body s w f d k) →
      Step c body K root (.worker w) s (Res.map (fun r => { s with r := r }) (Runtime.step body w .take s.rt))
  /-- awaitables.hpp:106-125, the context switcher calls `schedule` of a worker's context. -/
  | switch (s : W σ V) (w f d : Nat) (k : σ) : w < c.N → s.l.pc w = .work → s.out w = none → AtSwitch body s w f d k →
      Step c body K root (.worker w) s
        (if d < c.N then Res.map (fun r => { push { s with r := r } d f with out := upd s.out w (some s.nj) }) (Runtime.step body w .take s.rt)
        else .ub)
  /-- The rest of that call. -/
  | notify (s : W σ V) (w j : Nat) (l : St) : w < c.N → s.out w = some j → LazyPool.Step c (.submit j) s.l l →
      Step c body K root (.worker w) s (.ok { s with l := l, out := if l.call j = .returned then upd s.out w none else s.out })
  | take (s : W σ V) (w j : Nat) (js : List Nat) : w < c.N → s.l.pc w = .work → s.r.pc w = .idle → s.l.hand w = j :: js →
      Step c body K root (.worker w) s (Res.map (fun r => { s with l := started s w j js, r := r }) (Runtime.step body w .take s.rt))
  /-- `resume` returns. -/
  | worked (s : W σ V) (w : Nat) : w < c.N → s.l.pc w = .work → s.r.pc w = .idle → s.l.hand w = [] →
      Step c body K root (.worker w) s (.ok { s with l := s.l.go w .deact })
  /-- lazy_pool.hpp:371: undefined if another thread uses the generator now. -/
  | begin (s : W σ V) (i : Nat) : i < K → s.caller i = .before → (∀ k, k < K → s.caller k ≠ .picking) →
      Step c body K root (.caller i) s (.ok { s with caller := upd s.caller i .picking })
  | race (s : W σ V) (i k : Nat) : i < K → s.caller i = .before → k < K → s.caller k = .picking → Step c body K root (.caller i) s .ub
  /-- Worker `d` was picked. -/
  | submit (s : W σ V) (i d : Nat) : i < K → s.caller i = .picking → d < c.N →
      Step c body K root (.caller i) s
        (.ok { push { s with r := Runtime.submit s.rt (root i) d } d s.r.nf with caller := upd s.caller i (.calling s.nj s.r.nf) })
  | call (s : W σ V) (i j f : Nat) (l : St) : i < K → s.caller i = .calling j f → LazyPool.Step c (.submit j) s.l l →
      Step c body K root (.caller i) s
        (.ok { s with l := l, caller := if l.call j = .returned then upd s.caller i (.waiting f) else s.caller })
  /-- The semaphore has been released; promise.hpp:339, sync_wait.hpp:193-227. -/
  | get (s : W σ V) (i f : Nat) (v : V) : i < K → s.caller i = .waiting f → Ev.done f v ∈ s.r.log →
      Step c body K root (.caller i) s (.ok { s with caller := upd s.caller i (.back v) })
  /-- lazy_pool.hpp:290-291: the destructor must not be called before the tasks are done; here: before all callers are back. -/
  | dtor (s : W σ V) (l : St) : (∀ i, i < K → ∃ v, s.caller i = .back v) → LazyPool.Step c .dtor s.l l →
      Step c body K root .dtor s (.ok { s with l := l })

/-- The pool has been constructed, nobody has called `sync_wait`. lazy_pool.hpp:327-369. -/
def W.start (c : Cfg) (x : σ) : W σ V := ⟨St.start c, State.start x, fun _ => 0, 0, fun _ => none, fun _ => .before⟩

/-- The states reached in any schedule in which `Few` (C21) holds and nothing undefined has happened. No code: reachability. -/
inductive Reach (c : Cfg) (body : σ → Runtime.Act σ V) (K : Nat) (root : Nat → σ) : W σ V → Prop
  | start (x : σ) : Reach c body K root (W.start c x)
  | step {s s' : W σ V} {a : Actor} : Reach c body K root s → LazyPool.Few c s.l → Step c body K root a s (.ok s') → Reach c body K root s'

end Verif.Whole
