import Verif.Mem.Model
import Verif.Mem.Spec
import Verif.WholeX.Model

/-!
A whole program whose tasks share memory: the pool, the runtime and the callers of `sync_wait` of Verif.WholeX.Model (lazy_pool.hpp, context.hpp,
resume.hpp, sync_wait.hpp, awaitables.hpp, promise.hpp), where the tasks also read and write memory as in Verif.Mem.Model.

Simplifications: those of Verif.WholeX.Model and Verif.Mem.Model.
-/
namespace Verif.WholeM
open Verif.Runtime (Res Ev)
open Verif.LazyPool (Cfg St)
open Verif.Exn (XS goOn)
open Verif.Mem (Act Acc ctl put)
open Verif.Whole (Caller Actor Res.map)
open Verif.WholeX (X)

/-- The pool, the tasks and the callers (Verif.WholeX.X: lazy_pool.hpp, resume.hpp, sync_wait.hpp), and the memory the tasks share. `hist`
(ghost): the accesses, newest first. -/
structure Y (σ V E L : Type) where
  x : X σ V E
  m : L → E
  hist : List (Acc E L)

variable {σ V E L : Type}

/-- The runtime and the memory, without the pool (lazy_pool.hpp) and the callers. -/
def Y.mem (s : Y σ V E L) : Mem.MS σ V E L := ⟨s.x.xt, s.m, s.hist⟩

/-- Worker `w` is inside `resume` (resume.hpp:38-78), in task `f`, which is in the state `y`. -/
structure InTask (s : X σ V E) (w f : Nat) (y : σ) : Prop where
  work : s.l.pc w = .work
  out : s.out w = none
  run : s.x.c.pc w = .run f
  st : (s.x.c.fr f).st = y

/-- The task goes on in the state `k` without a suspension point. No code: the coroutine just runs on. -/
def cont (s : X σ V E) (f : Nat) (k : σ) : X σ V E := { s with x := { s.xt with c := goOn s.xt.c f k } }

/-- `K` calls of `sync_wait`, call `i` with a root task that starts in the state `root i`. `dep i j`: call `i` is made after call `j` has returned or
thrown (by the same thread, or because the threads synchronise); calls that are not so ordered may be at the same time. The other arguments as
in Verif.WholeX.Step. lazy_pool.hpp:97-395, resume.hpp:38-78, awaitables.hpp, promise.hpp, sync_wait.hpp:193-302. -/
inductive Step [Inhabited E] [DecidableEq L] (c : Cfg) (body : σ → Act σ V E L) (may : E → Prop) (K : Nat) (root : Nat → σ) (dep : Nat → Nat → Prop) :
    Actor → Y σ V E L → Res (Y σ V E L) → Prop
  /-- A task, an ordinary coroutine, reads an object between two suspension points (e.g. algorithm/map.hpp:60-62). -/
  | load (s : Y σ V E L) (w f : Nat) (y : σ) (l : L) (k : E → σ) : w < c.N → InTask s.x w f y → body y = .load l k →
      Step c body may K root dep (.worker w) s (.ok ⟨cont s.x f (k (s.m l)), s.m, .load f l (s.m l) :: s.hist⟩)
  /-- It writes one. -/
  | store (s : Y σ V E L) (w f : Nat) (y : σ) (l : L) (d : E) (k : σ) : w < c.N → InTask s.x w f y → body y = .store l d k →
      Step c body may K root dep (.worker w) s (.ok ⟨cont s.x f k, put s.m l d, .store f l d :: s.hist⟩)
  /-- Everything else that a worker, a caller or the destructor does (lazy_pool.hpp:60-400, context.hpp:60-110, sync_wait.hpp:210-302). -/
  | other (s : Y σ V E L) (a : Actor) (r : Res (X σ V E)) : WholeX.Step c (ctl body) may K root a s.x r →
      (∀ w f y, a = .worker w → InTask s.x w f y → (∀ l k, body y ≠ .load l k) ∧ ∀ l d k, body y ≠ .store l d k) →
      (∀ i, a = .caller i → s.x.caller i = .before → ∀ j, dep i j → ∃ v, s.x.caller j = .back v) →
      Step c body may K root dep a s (Res.map (fun x => { s with x := x }) r)

/-- lazy_pool.hpp:327-360 has constructed the pool, nobody has called `sync_wait`, memory is `m`. -/
def Y.start (c : Cfg) (y : σ) (m : L → E) : Y σ V E L := ⟨X.start c y, m, []⟩

/-- The states reached in any schedule in which `Few` (C21) holds and nothing undefined has happened (no code; as Verif.WholeX.Reach). -/
inductive Reach [Inhabited E] [DecidableEq L] (c : Cfg) (body : σ → Act σ V E L) (may : E → Prop) (K : Nat) (root : Nat → σ) (dep : Nat → Nat → Prop)
    (m : L → E) : Y σ V E L → Prop
  | start (y : σ) : Reach c body may K root dep m (Y.start c y m)
  | step {s s' : Y σ V E L} {a : Actor} : Reach c body may K root dep m s → LazyPool.Few c s.x.l → Step c body may K root dep a s (.ok s') →
      Reach c body may K root dep m s'

/-- The whole program (lazy_pool.hpp, sync_wait.hpp, ...); who is obliged to take a step: as Verif.WholeX.ready. -/
def system [Inhabited E] [DecidableEq L] (c : Cfg) (body : σ → Act σ V E L) (may : E → Prop) (K : Nat) (root : Nat → σ) (dep : Nat → Nat → Prop)
    (m : L → E) : Fair.Sys (Y σ V E L) Actor where
  init s := ∃ y, s = Y.start c y m
  step a s s' := Step c body may K root dep a s (.ok s')
  ready s a := WholeX.ready c s.x a

end Verif.WholeM
