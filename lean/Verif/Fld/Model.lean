import Verif.Hb.Model

/-!
The runtime of Verif.Hb.Model together with the accesses to the members of the tasks' frames (frame.hpp:38-81). Only the join counter, and the exception flag
where children use it, are atomic; all else is plain memory, used by whoever runs the task and by its children, and so is the counter when it is constructed. Here every step
also records the members it reads or writes, and what happens before it.

Simplifications: those of Verif.Hb.Model. The loads of the debug assertions are accesses, too. A frame that is made and destroyed within one
step, because a fork or call fails, is no frame. That a frame's memory is given to another frame is the business of its stack (C75): both are steps that use the stack. The
resumption of the caller at the end of a callee (promise.hpp:352) accesses the caller's coroutine with the caller's next step, which the same worker takes next.
-/
namespace Verif.Fld
open Verif.Runtime (Res)
open Verif.Exn (XS Choice)
open Verif.Mem (Act)
open Verif.Hb (HS sync)

/-- What a frame consists of. `co`: the coroutine: its locals and where it is suspended. `steal`: frame.hpp:72 `m_steal`. `fixed`: `m_this_coro`, `m_stacklet` and `m_parent` or `m_sem`
(frame.hpp:47-63). `join`: frame.hpp:68 `m_join`. `flag`: `m_except` and `eptr`: `m_eptr` (frame.hpp:40-45, 74-83). Simplification: `co_new` (awaitables.hpp:214), which
changes `m_stacklet`, is not in this model. -/
inductive Mbr where
  | co | steal | fixed | join | flag | eptr
  deriving DecidableEq

/-- A read or write that is not atomic, or an atomic operation. frame.hpp:38-81. -/
inductive Kind where
  | read | write | atomic
  deriving DecidableEq

/-- An access by step `no` to a member of the frame of task `frame`; `known`: the steps that happen before it, and itself. No code: the log. -/
structure Acc where
  no : Nat
  frame : Nat
  mbr : Mbr
  kind : Kind
  known : List Nat

/-- The whole frame is constructed (promise.hpp:272-276, frame.hpp:122-130) or its memory is given back (promise.hpp:161, 348). -/
def whole (f : Nat) : List (Nat × Mbr × Kind) :=
  [(f, .co, .write), (f, .steal, .write), (f, .fixed, .write), (f, .join, .write), (f, .flag, .write), (f, .eptr, .write)]

variable {σ V E L : Type}

/-- frame.hpp:254-265 `unsafe_rethrow_if_exception`, 93-112 `rethrow`, and the assertions of awaitables.hpp:493-495, at the end of a join. -/
def rethrow (f : Nat) (e : Option E) : List (Nat × Mbr × Kind) :=
  match e with
  | none => [(f, .steal, .read), (f, .join, .atomic), (f, .fixed, .read), (f, .flag, .read)]
  | some _ => [(f, .steal, .read), (f, .join, .atomic), (f, .fixed, .read), (f, .flag, .read), (f, .eptr, .write), (f, .flag, .write)]

/-- frame.hpp:222-234 `capture_exception`: an atomic exchange, and the first one constructs the pointer. -/
def capture (p : Nat) (e : Option E) : List (Nat × Mbr × Kind) :=
  match e with
  | none => [(p, .flag, .atomic), (p, .eptr, .write)]
  | some _ => [(p, .flag, .atomic)]

/-- promise.hpp:289-300: the assertions of `final_suspend`. -/
def asserts (f : Nat) : List (Nat × Mbr × Kind) := [(f, .steal, .read), (f, .join, .atomic), (f, .flag, .read), (f, .fixed, .read)]

/-- What a step of task `f` accesses. promise.hpp:156-166, 231-243, 289-363, awaitables.hpp:104-120, 239-257, 425-431. -/
def touchRun (body : σ → Act σ V E L) (f : Nat) (ch : Choice E) (x : XS σ V E) : List (Nat × Mbr × Kind) :=
  (f, .co, .write) ::
    match body (x.c.fr f).st, ch with
    | .ret _, .go _ =>
      asserts f ++ whole f ++ match x.c.link f with | .call p => [(p, .fixed, .read)] | .fork _ _ => [] | .root => []
    | .throw _, .go _ =>
      asserts f ++ whole f ++ match x.c.link f with | .call p => (p, .fixed, .read) :: capture p (x.exc p) | .fork p _ => capture p (x.exc p) | .root => []
    | .fork _ _ _, .go _ => (f, .steal, .read) :: whole x.c.nf
    | .call _ _ _, .go _ => whole x.c.nf
    | .join _ _, .go _ => (f, .steal, .read) :: if (x.c.fr f).steal = 0 then rethrow f (x.exc f) else []
    | .switch _ _ _, .go _ => [(f, .steal, .read), (f, .fixed, .read)]
    | _, _ => []

/-- What a step of worker `w` accesses. resume.hpp:38-78, awaitables.hpp:55-63, 412-499, promise.hpp:49-138. -/
def touch (body : σ → Act σ V E L) (w : Nat) (ch : Choice E) (x : XS σ V E) : List (Nat × Mbr × Kind) :=
  match x.c.pc w with
  | .idle =>
    match ch, x.c.inbox w with
    | .go .take, f :: _ => [(f, .steal, .read), (f, .fixed, .read), (f, .co, .write)]
    | _, _ => []
  | .run f => touchRun body f ch x
  | .joinLoad f => [(f, .steal, .read), (f, .join, .atomic)]
  | .joinSub f => [(f, .co, .write), (f, .steal, .read), (f, .join, .atomic)]
  | .joinTake f => (f, .co, .write) :: (f, .steal, .write) :: (f, .join, .write) :: rethrow f (x.exc f)
  | .finPop p _ => if x.c.q w = [] then [(p, .fixed, .read)] else [(p, .fixed, .read), (p, .co, .write), (p, .steal, .read)]
  | .finDec p _ _ => [(p, .join, .atomic)]
  | .finWin p _ => (p, .co, .write) :: (p, .steal, .write) :: (p, .join, .write) :: rethrow p (x.exc p)
  | .stole p => [(p, .steal, .write), (p, .fixed, .read), (p, .co, .write)]
  | .finLose _ | .selfSteal | .switchRel _ => []

/-- Everything. `tr`: the accesses to frames, newest first. frame.hpp:38-81 and the runtime. -/
structure FS (σ V E L : Type) where
  a : HS σ V E L
  tr : List Acc

/-- The log of some accesses. No code. -/
def entries (n : Nat) (known : List Nat) (l : List (Nat × Mbr × Kind)) : List Acc := l.map fun y => ⟨n, y.1, y.2.1, y.2.2, known⟩

/-- One step of worker `w`. awaitables.hpp:55-508, promise.hpp:49-138, resume.hpp:38-78. -/
def step [Inhabited E] [DecidableEq L] (body : σ → Act σ V E L) (w : Nat) (ch : Choice E) (o : FS σ V E L) : Res (FS σ V E L) :=
  match Hb.step body w ch o.a with
  | .ok a' => .ok ⟨a', entries o.a.h.n ((sync body w ch o.a.s.x o.a.h).kn w) (touch body w ch o.a.s.x) ++ o.tr⟩
  | .ub => .ub
  | .no => .no

/-- sync_wait.hpp:246-290: thread `t` submits a root task to worker `w`; it makes its frame. -/
def submit (o : FS σ V E L) (t : Nat) (c : σ) (w : Nat) : FS σ V E L :=
  let a' := Hb.submit o.a t c w
  ⟨a', entries o.a.h.n (a'.h.kt t) (whole o.a.s.x.c.nf) ++ o.tr⟩

end Verif.Fld
