import Verif.Exn.Model
import Verif.Exn.Spec

/-!
The fork/call/join/switch runtime of Verif.Exn.Model (awaitables.hpp, promise.hpp, frame.hpp, resume.hpp) run by tasks that share
memory: between two suspension points a task reads and writes objects that other tasks may use as well.

One access is one step of the worker that runs the task; the accesses of different workers interleave in any order (sequentially
consistent memory). What is stored in memory and what is thrown is taken from one type `E` (a sum type tells them apart).
-/
namespace Verif.Mem
open Verif.Runtime (Res Ev)
open Verif.Exn (XS Choice goOn)

/-- What a task does next: as Verif.Exn.Act (awaitables.hpp:96-500, promise.hpp:302-363), or it accesses memory that other tasks can see: what
a task body, an ordinary C++ coroutine (test/source/core/*.cpp, include/libfork/algorithm/*.hpp), does between two suspension points.
Simplification: an access is to one object and atomic. -/
inductive Act (σ V E L : Type) where
  | ret (v : V)
  | throw (e : E)
  | fork (c : σ) (k : Bool → σ) (x : E → σ)
  | call (c : σ) (k : Option V → σ) (x : E → σ)
  | join (k : List V → σ) (x : E → List (Option V) → σ)
  | switch (dest : Nat) (k : σ) (x : E → σ)
  /-- The task reads what is at `l` and goes on with it. -/
  | load (l : L) (k : E → σ)
  /-- The task writes `d` to `l`. -/
  | store (l : L) (d : E) (k : σ)

/-- An access to memory by task `f`: where, and what was read or written (ghost; no code). -/
inductive Acc (E L : Type) where
  | load (f : Nat) (l : L) (d : E)
  | store (f : Nat) (l : L) (d : E)

/-- The workers, queues, stacks and frames (Verif.Exn.XS: awaitables.hpp, promise.hpp, frame.hpp, resume.hpp) and the memory the tasks share.
`hist` (ghost): the accesses, newest first. -/
structure MS (σ V E L : Type) where
  x : XS σ V E
  m : L → E
  hist : List (Acc E L)

variable {σ V E L : Type}

/-- What the runtime sees of a task (awaitables.hpp:96-500: the awaitables are all it sees). The runtime is never asked to run a task that is at a load or store (`step` does that), so what is
said about these does not matter to it; the choice made here is that a load is like a context switcher that is never left but by
an exception, and a store like one that is always ready. -/
def ctl [Inhabited E] (body : σ → Act σ V E L) (y : σ) : Exn.Act σ V E :=
  match body y with
  | .ret v => .ret v
  | .throw e => .throw e
  | .fork c k x => .fork c k x
  | .call c k x => .call c k x
  | .join k x => .join k x
  | .switch d k x => .switch d k x
  | .load _ k => .switch 0 (k default) k
  | .store _ _ k => .switch 0 k fun _ => k

/-- `*l = d` in a task body (e.g. algorithm/map.hpp:60-62, for_each.hpp:58-61 through the user's function). -/
def put [DecidableEq L] (m : L → E) (l : L) (d : E) : L → E := fun l' => if l' = l then d else m l'

/-- A step of the runtime (Verif.Exn.step: awaitables.hpp:96-500, promise.hpp:60-130, 302-363, resume.hpp:38-78), which does not touch the
memory the tasks share. -/
def control [Inhabited E] (body : σ → Act σ V E L) (w : Nat) (ch : Choice E) (s : MS σ V E L) : Res (MS σ V E L) :=
  Exn.Res.bind (Exn.step (ctl body) w ch s.x) fun x => .ok { s with x := x }

/-- One step of worker `w` (resume.hpp:38-78: `resume` of a task, which runs until its next suspension point): an access of the task it runs, or
a step of the runtime. -/
def step [Inhabited E] [DecidableEq L] (body : σ → Act σ V E L) (w : Nat) (ch : Choice E) (s : MS σ V E L) : Res (MS σ V E L) :=
  match s.x.c.pc w with
  | .run f =>
    match body (s.x.c.fr f).st with
    | .load l k => .ok ⟨{ s.x with c := goOn s.x.c f (k (s.m l)) }, s.m, .load f l (s.m l) :: s.hist⟩
    | .store l d k => .ok ⟨{ s.x with c := goOn s.x.c f k }, put s.m l d, .store f l d :: s.hist⟩
    | _ => control body w ch s
  | _ => control body w ch s

/-- No task yet: lazy_pool.hpp:327-360, busy_pool.hpp:160-190 have constructed the workers. -/
def MS.start (y : σ) (m : L → E) : MS σ V E L := ⟨XS.start y, m, []⟩

/-- sync_wait.hpp:250-290 `schedule`: a root task is submitted to worker `w`. -/
def submit (s : MS σ V E L) (c : σ) (w : Nat) : MS σ V E L := { s with x := Exn.submit s.x c w }

end Verif.Mem
