import Verif.Hb.Model

/-!
The runtime of Verif.Hb.Model together with the accesses to the segmented stacks. The stacklets of a stack (stack.hpp:76-200: their size, how much of them is used, their
links) are plain memory: nothing in stack.hpp is atomic. Which stack a step uses is that of Verif.Runtime.Model: a stack is a number, and
Verif.Cactus proves (C71) that the stacklets behind different numbers are different memory. Here every step also records the stacks
whose stacklets it reads or writes, and what happens before it.

Simplifications: those of Verif.Hb.Model. A step that allocates or frees on a stack, asks whether it is empty, takes its top stacklet or destroys it is one
access. The loads of the debug assertions are accesses, too. The pointer `m_fib` of a stack object is thread local (tls.hpp:33-51) and is not
an access: `release` (stack.hpp:268-272) reads nothing but it.
-/
namespace Verif.Own
open Verif.Runtime (State Res upd)
open Verif.Exn (XS Choice)
open Verif.Mem (Act)
open Verif.Hb (HS sync)

/-- An access to the stacklets of `stack` by step `no`; `known`: the steps that happen before it, and itself. No code: the log. -/
structure Acc where
  no : Nat
  stack : Nat
  known : List Nat

variable {σ V E L : Type}

/-- The stacks a step of task `f` on worker `w` uses. promise.hpp:156-166 (a frame is made: stack.hpp:281-303), 302-363 (destroyed: stack.hpp:308-328),
awaitables.hpp:114-120, 495 (`top`, in assertions: stack.hpp:342-345). -/
def touchRun (body : σ → Act σ V E L) (w f : Nat) (ch : Choice E) (c : State σ (Except E V)) : List Nat :=
  match body (c.fr f).st, ch with
  | .ret _, .go _ => [c.wk w]
  | .throw _, .go _ => [c.wk w]
  | .fork _ _ _, .go _ => [c.wk w]
  | .call _ _ _, .go _ => [c.wk w]
  | .fork _ _ _, .fail _ _ => [c.wk w]
  | .call _ _ _, .fail _ _ => [c.wk w]
  | .join _ _, .go _ => if (c.fr f).steal = 0 then [c.wk w] else []
  | .switch _ _ _, .go _ => [c.wk w]
  | _, _ => []

/-- The stacks a step of worker `w` uses. resume.hpp:38-78 (`empty`, and a task that is taken from the submission list with its stack), awaitables.hpp:55-63, 127-140,
412-419, 495, promise.hpp:86-89 (`top`), 105-111, 124-138 (the new stack made by `release`). -/
def touch (body : σ → Act σ V E L) (w : Nat) (ch : Choice E) (c : State σ (Except E V)) : List Nat :=
  match c.pc w with
  | .idle =>
    match ch, c.inbox w with
    | .go .take, f :: _ => if (c.fr f).steal = 0 then [c.wk w, c.stk f] else [c.wk w]
    | _, _ => [c.wk w]
  | .run f => touchRun body w f ch c
  | .joinTake f => [c.wk w, c.stk f]
  | .finWin _ true => [c.wk w]
  | .finWin f false => [c.wk w, c.stk f]
  | .finLose same => if same then [(Runtime.release c w).wk w] else [c.wk w]
  | .switchRel z => if z then [(Runtime.release c w).wk w] else [c.wk w]
  | .selfSteal => if c.q w = [] then [c.wk w] else []
  | .finPop _ _ => if c.q w = [] then [c.wk w] else []
  | .joinLoad _ | .joinSub _ | .finDec _ _ _ | .stole _ => []

/-- Everything. `tr`: the accesses to stacks, newest first. stack.hpp:76-200 and the runtime. -/
structure OS (σ V E L : Type) where
  a : HS σ V E L
  tr : List Acc

/-- One step of worker `w`. awaitables.hpp:55-508, promise.hpp:49-138, resume.hpp:38-78. -/
def step [Inhabited E] [DecidableEq L] (body : σ → Act σ V E L) (w : Nat) (ch : Choice E) (o : OS σ V E L) : Res (OS σ V E L) :=
  match Hb.step body w ch o.a with
  | .ok a' => .ok ⟨a', (touch body w ch o.a.s.x.c).map (fun k => ⟨o.a.h.n, k, (sync body w ch o.a.s.x o.a.h).kn w⟩) ++ o.tr⟩
  | .ub => .ub
  | .no => .no

/-- sync_wait.hpp:246-290: thread `t` submits a root task to worker `w`; it makes the stack of the task and the task's frame on it. -/
def submit (o : OS σ V E L) (t : Nat) (c : σ) (w : Nat) : OS σ V E L :=
  let a' := Hb.submit o.a t c w
  ⟨a', ⟨o.a.h.n, a'.s.x.c.stk o.a.s.x.c.nf, a'.h.kt t⟩ :: o.tr⟩

end Verif.Own
