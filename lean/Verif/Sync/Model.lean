import Verif.Mem.Model

/-!
`sync_outside` forks (core/control_flow.hpp:126-133, core/impl/promise.hpp:235-242, core/impl/awaitables.hpp:289-333), on top of the
runtime with shared memory of Verif.Mem.Model: a task is told whether the child it has just forked has completed. If it has, no
fork-join scope has been opened: the task may use the child's return object at once, and may return without a join (as
algorithm/scan.hpp:268-277 does). If it has not, there is a child to be joined.

The runtime does exactly what it does for every other fork; nothing in it knows that no join will come.
-/
namespace Verif.Sync
open Verif.Runtime (Res Ev upd)
open Verif.Exn (Choice)
open Verif.Mem (MS)

/-- What a task does next: as Verif.Mem.Act (awaitables.hpp:96-500, promise.hpp:302-363), or `co_await dispatch<tag::fork, modifier::sync_outside>(&r, f)(...)`
(control_flow.hpp:126-133): the task goes on with `some v` (told that the child has completed, it reads `v` from `r`) or with `none` (told that
it has not). Simplification: a task that is told so reads the return object at once. -/
inductive Act (σ V E L : Type) where
  | plain (a : Mem.Act σ V E L)
  | out (c : σ) (k : Option V → σ) (x : E → σ)

/-- Where a task is: `here y`, in the state `y`; `answer y`: it has been told that the child it forked in the state `y` has
completed (awaitables.hpp:299-333: `await_resume` returns `true`), and is about to read the return object. `bad` (ghost) is no state of any
program (see `seen`). -/
inductive St (σ : Type) where
  | here (y : σ)
  | answer (y : σ)
  | bad

variable {σ V E L : Type}

/-- No code: the places where a task goes on, renamed. -/
def lift : Mem.Act σ V E L → Mem.Act (St σ) V E L
  | .ret v => .ret v
  | .throw e => .throw e
  | .fork c k x => .fork (.here c) (fun b => .here (k b)) fun e => .here (x e)
  | .call c k x => .call (.here c) (fun r => .here (k r)) fun e => .here (x e)
  | .join k x => .join (fun l => .here (k l)) fun e l => .here (x e l)
  | .switch d k x => .switch d (.here k) fun e => .here (x e)
  | .load l k => .load l fun d => .here (k d)
  | .store l d k => .store l d (.here k)

/-- No code: where a task goes on with the only result of a join. -/
def one (k : V → σ) : List V → St σ
  | [v] => .here (k v)
  | _ => .bad

/-- The task `out c k x` read as one that knows no `sync_outside`: a `sync` fork that, when the answer is yes, joins at once. What
promise.hpp:235-242 and awaitables.hpp:239-271, 299-333 do for the fork is what they do for a `sync` fork. That the join is not
there in the code is the difference between `seen` and `step`. -/
def seen (body : σ → Act σ V E L) : St σ → Mem.Act (St σ) V E L
  | .here y =>
    match body y with
    | .plain a => lift a
    | .out c k x => .fork (.here c) (fun b => if b then .answer y else .here (k none)) fun e => .here (x e)
  | .answer y =>
    match body y with
    | .plain _ => .join (fun _ => .bad) fun _ _ => .bad
    | .out _ k _ => .join (one fun v => k (some v)) fun _ _ => .bad
  | .bad => .join (fun _ => .bad) fun _ _ => .bad

/-- scan.hpp:270-275: the task, told that the child has completed, reads the return object; undefined if nothing was written to it, which is
what it is if the child threw (promise.hpp:318-330; for such return objects `await_resume` does not rethrow, promise.hpp:217,
awaitables.hpp:311-329). No counter, no exception and no stack is looked at. Ghost: the return object is not one of a pending child any
more; the history notes a join that took no time. -/
def readAnswer (body : σ → Act σ V E L) (s : MS (St σ) V E L) (w f : Nat) (y : σ) : Res (MS (St σ) V E L) :=
  match body y, (s.x.c.fr f).slots with
  | .out _ k _, [some (.ok v)] =>
    .ok { s with x := { s.x with c := { s.x.c with
      fr := upd s.x.c.fr f { s.x.c.fr f with st := .here (k (some v)), slots := [], inits := [] }
      log := .resume f w :: .suspend f .join :: s.x.c.log } } }
  | _, _ => .ub

/-- No code: whether the task of a worker is about to read an answer. -/
def atAnswer (s : MS (St σ) V E L) (w : Nat) : Option (Nat × σ) :=
  match s.x.c.pc w with
  | .run f => match (s.x.c.fr f).st with
    | .answer y => some (f, y)
    | _ => none
  | _ => none

/-- One step of worker `w` (resume.hpp:38-78, awaitables.hpp:96-500). -/
def step [Inhabited E] [DecidableEq L] (body : σ → Act σ V E L) (w : Nat) (ch : Choice E) (s : MS (St σ) V E L) : Res (MS (St σ) V E L) :=
  match atAnswer s w, ch with
  | some (f, y), .go _ => readAnswer body s w f y
  | some _, _ => .no
  | none, _ => Mem.step (seen body) w ch s

end Verif.Sync
