import Verif.Exn.Model
import Verif.Exn.Spec
import Verif.Whole.Model
import Verif.Whole.Live

/-!
A whole program in which tasks throw and forks, calls and context switches fail: Verif.Whole.Model with the runtime of Verif.Exn.Model
(awaitables.hpp, promise.hpp, frame.hpp, resume.hpp with exceptions) in place of that of Verif.Runtime.Model. sync_wait.hpp:210-302:
`sync_wait` returns what the root task returned or throws what left it.

Simplifications: those of Verif.Whole.Model and Verif.Exn.Model; the allocations of `lf::schedule` itself do not fail (C19).
-/
namespace Verif.WholeX
open Verif.Runtime (Res Ev)
open Verif.LazyPool (Cfg St)
open Verif.EventCount (upd)
open Verif.Exn (XS Act Choice Allowed)
open Verif.Whole (Caller Actor Res.map)

/-- As Verif.Whole.W. lazy_pool.hpp, resume.hpp, sync_wait.hpp. -/
structure X (σ V E : Type) where
  /-- The pool. -/
  l : St
  /-- The tasks, the stacks and the work queues; `inbox` is not used (see `xt`). -/
  x : XS σ V E
  task : Nat → Nat
  nj : Nat
  out : Nat → Option Nat
  /-- `back r`: `sync_wait` has returned or thrown `r`. -/
  caller : Nat → Caller (Except E V)

variable {σ V E : Type}

/-- The runtime as it is: the tasks submitted to a worker are those in its local `handle` (lazy_pool.hpp:97) and those in its list. -/
def X.xt (s : X σ V E) : XS σ V E := { s.x with c := { s.x.c with inbox := fun w => (s.l.hand w ++ s.l.inbox w).map s.task } }

/-- context.hpp:72: the push of job `s.nj`, which refers to task `f`, to the list of worker `d`. -/
def push (s : X σ V E) (d f : Nat) : X σ V E :=
  { s with
    l := { s.l with
      inbox := upd s.l.inbox d (s.l.inbox d ++ [s.nj])
      call := upd s.l.call s.nj (.pushed d)
      loc := upd s.l.loc s.nj (.inbox d) }
    task := upd s.task s.nj f
    nj := s.nj + 1 }

/-- lazy_pool.hpp:129, resume.hpp:38-58: the next of the submitted tasks in the worker's hands is resumed. -/
def started (s : X σ V E) (w j : Nat) (js : List Nat) : St :=
  { s.l with
    hand := upd s.l.hand w js
    started := j :: s.l.started
    loc := upd s.l.loc j .started }

/-- At a context switch to worker `d`. awaitables.hpp:96-165. -/
def AtSwitch (body : σ → Act σ V E) (s : X σ V E) (w f d : Nat) (k : σ) : Prop := s.x.c.pc w = .run f ∧ ∃ h, body (s.x.c.fr f).st = .switch d k h

/-- `K` threads, thread `i` calls `sync_wait` with a root task that starts in the state `root i`; `may`: the exceptions a fork, call or switch
can throw by itself. lazy_pool.hpp:97-395, resume.hpp:38-78, awaitables.hpp, promise.hpp, sync_wait.hpp:193-302; see the constructors. -/
inductive Step (c : Cfg) (body : σ → Act σ V E) (may : E → Prop) (K : Nat) (root : Nat → σ) : Actor → X σ V E → Res (X σ V E) → Prop
  /-- The worker's loop, except where it steals or works. -/
  | pool (s : X σ V E) (w : Nat) (l : St) : s.l.pc w ≠ .steal → s.l.pc w ≠ .work → LazyPool.Step c (.worker w) s.l l →
      Step c body may K root (.worker w) s (.ok { s with l := l })
  /-- lazy_pool.hpp:208: nothing was stolen. -/
  | noSteal (s : X σ V E) (w : Nat) : w < c.N → s.l.pc w = .steal → Step c body may K root (.worker w) s (.ok { s with l := s.l.go w .prep })
  /-- lazy_pool.hpp:208: the oldest task in the queue of worker `v` was stolen. -/
  | stole (s : X σ V E) (w v : Nat) : w < c.N → v < c.N → s.l.pc w = .steal →
      Step c body may K root (.worker w) s
        (Res.map (fun x => { s with l := s.l.go w .tws1, x := x }) (Exn.step body w (.go (.steal v)) s.xt))
  /-- A step of the runtime inside `resume`: a task goes on, or what it does throws, or its context switcher has nothing to do. -/
  | work (s : X σ V E) (w : Nat) (ch : Choice E) : w < c.N → s.l.pc w = .work → s.x.c.pc w ≠ .idle → s.out w = none → Allowed may ch →
      (∀ f d k ch', ch = .go ch' → ¬ AtSwitch body s w f d k) →
      Step c body may K root (.worker w) s (Res.map (fun x => { s with x := x }) (Exn.step body w ch s.xt))
  /-- awaitables.hpp:106-125, the context switcher calls `schedule` of a worker's context. -/
  | switch (s : X σ V E) (w f d : Nat) (k : σ) : w < c.N → s.l.pc w = .work → s.out w = none → AtSwitch body s w f d k →
      Step c body may K root (.worker w) s
        (if d < c.N then
          Res.map (fun x => { push { s with x := x } d f with out := upd s.out w (some s.nj) }) (Exn.step body w (.go .take) s.xt)
        else .ub)
  /-- The rest of that call. -/
  | notify (s : X σ V E) (w j : Nat) (l : St) : w < c.N → s.out w = some j → LazyPool.Step c (.submit j) s.l l →
      Step c body may K root (.worker w) s (.ok { s with l := l, out := if l.call j = .returned then upd s.out w none else s.out })
  | take (s : X σ V E) (w j : Nat) (js : List Nat) : w < c.N → s.l.pc w = .work → s.x.c.pc w = .idle → s.l.hand w = j :: js →
      Step c body may K root (.worker w) s
        (Res.map (fun x => { s with l := started s w j js, x := x }) (Exn.step body w (.go .take) s.xt))
  /-- `resume` returns. -/
  | worked (s : X σ V E) (w : Nat) : w < c.N → s.l.pc w = .work → s.x.c.pc w = .idle → s.l.hand w = [] →
      Step c body may K root (.worker w) s (.ok { s with l := s.l.go w .deact })
  /-- lazy_pool.hpp:371: undefined if another thread uses the generator now. -/
  | begin (s : X σ V E) (i : Nat) : i < K → s.caller i = .before → (∀ k, k < K → s.caller k ≠ .picking) →
      Step c body may K root (.caller i) s (.ok { s with caller := upd s.caller i .picking })
  | race (s : X σ V E) (i k : Nat) : i < K → s.caller i = .before → k < K → s.caller k = .picking →
      Step c body may K root (.caller i) s .ub
  /-- Worker `d` was picked. -/
  | submit (s : X σ V E) (i d : Nat) : i < K → s.caller i = .picking → d < c.N →
      Step c body may K root (.caller i) s
        (.ok { push { s with x := Exn.submit s.xt (root i) d } d s.x.c.nf with caller := upd s.caller i (.calling s.nj s.x.c.nf) })
  | call (s : X σ V E) (i j f : Nat) (l : St) : i < K → s.caller i = .calling j f → LazyPool.Step c (.submit j) s.l l →
      Step c body may K root (.caller i) s
        (.ok { s with l := l, caller := if l.call j = .returned then upd s.caller i (.waiting f) else s.caller })
  /-- The semaphore has been released; promise.hpp:318-339, sync_wait.hpp:193-227. -/
  | get (s : X σ V E) (i f : Nat) (r : Except E V) : i < K → s.caller i = .waiting f → Ev.done f r ∈ s.x.c.log →
      Step c body may K root (.caller i) s (.ok { s with caller := upd s.caller i (.back r) })
  /-- lazy_pool.hpp:290-291: the destructor must not be called before the tasks are done; here: before all callers are back. -/
  | dtor (s : X σ V E) (l : St) : (∀ i, i < K → ∃ r, s.caller i = .back r) → LazyPool.Step c .dtor s.l l →
      Step c body may K root .dtor s (.ok { s with l := l })

/-- The pool has been constructed, nobody has called `sync_wait`. lazy_pool.hpp:327-369. -/
def X.start (c : Cfg) (y : σ) : X σ V E := ⟨St.start c, XS.start y, fun _ => 0, 0, fun _ => none, fun _ => .before⟩

/-- The states reached in any schedule in which `Few` (C21) holds and nothing undefined has happened. No code: reachability. -/
inductive Reach (c : Cfg) (body : σ → Act σ V E) (may : E → Prop) (K : Nat) (root : Nat → σ) : X σ V E → Prop
  | start (y : σ) : Reach c body may K root (X.start c y)
  | step {s s' : X σ V E} {a : Actor} : Reach c body may K root s → LazyPool.Few c s.l → Step c body may K root a s (.ok s') →
      Reach c body may K root s'

/-- Who can take a step and is obliged to, as Verif.Whole.ready. No code: the fairness assumption. -/
def ready (c : Cfg) (s : X σ V E) : Actor → Prop
  | .worker w => LazyPool.Ready c s.l (.worker w)
  | .caller i =>
    match s.caller i with
    | .before => False
    | .picking => True
    | .calling _ _ => True
    | .waiting f => ∃ r, Ev.done f r ∈ s.x.c.log
    | .back _ => False
  | .dtor => LazyPool.Ready c s.l .dtor

/-- The whole program. No code: the above as a transition system. -/
def system (c : Cfg) (body : σ → Act σ V E) (may : E → Prop) (K : Nat) (root : Nat → σ) : Fair.Sys (X σ V E) Actor where
  init s := ∃ y, s = X.start c y
  step a s s' := Step c body may K root a s (.ok s')
  ready s a := ready c s a

end Verif.WholeX
