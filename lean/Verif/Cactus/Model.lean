import Verif.Exn.Model
import Verif.Stack.Model

/-!
The runtime of Verif.Exn.Model on the segmented stacks of Verif.Stack.Model, all in one heap: every worker has a stack object, every frame
is memory got from the stack of the worker that made it, and where the code asserts or compares something about stacks it is done on the
pointers themselves. Verif.Exn.Model treats a stack as the list of the frames on it; here every step is one of Verif.Exn.Model together with
what the code does to the stacks, and where the two could disagree the pointers decide (`decideSame`), or the outcome is `ub`.

Simplifications: those of Verif.Exn.Model and Verif.Stack.Model; arrays got from `co_new` are in Verif.Stack.CoNew. When a worker gives its
stack away (promise.hpp:91, awaitables.hpp:122) and gets a new one later (promise.hpp:132, awaitables.hpp:136) its stack object keeps the
old pointer in between: so it is here, and others may use, and free, what it points to in the meantime. In `schedule` the stack of the
submitting thread is destroyed before the task is handed over and not after; that of `std::make_shared` cannot fail, nor the scheduler
refuse the task (C19).
-/
namespace Verif.Cactus
open Verif.Runtime (State Res upd)
open Verif.Exn (XS Act Choice)
open Verif.Stack (M Malloc Heap)

/-- `fib`: the `m_fib` of the stack of each worker, 0 if it has none (tls.hpp:33-51). `lab`: the stacklet a frame records (frame.hpp:57,
promise.hpp:290). `addr`: the address of a frame. -/
structure Ptrs where
  fib : Nat → Nat
  lab : Nat → Nat
  addr : Nat → Nat

/-- Everything. frame.hpp:38-81, tls.hpp:33-62, stack.hpp:76-200. -/
structure CS (σ V E : Type) where
  x : XS σ V E
  p : Ptrs
  heap : Heap

/-- No code: the outcome of a step. -/
inductive Out (α : Type) where
  | ok (a : α)
  /-- undefined behaviour or a failed LF_ASSERT -/
  | ub
  /-- the step is not enabled -/
  | no
  /-- `std::terminate`: memory ran out where the code is `noexcept` (promise.hpp:49, awaitables.hpp:135) -/
  | die

/-- No code: `try { x } catch (std::bad_alloc) { y }`. -/
def orElse {α : Type} (x y : M α) : M α := fun h =>
  match x h with
  | .ok a h' => .ok a h'
  | .badAlloc h' => y h'
  | .ub => .ub

/-- `LF_ASSERT(stack->empty())`. promise.hpp:108,343, awaitables.hpp:140,415, resume.hpp:48-57,75-78. -/
def noAlloc (fib : Nat) : M Unit := do
  let e ← Stack.empty fib
  Stack.assert e

/-- `child.destroy()`: promise.hpp:161-166, the destructor asserts that the frame's stacklet is on top, then the memory is given back. -/
def pop (fib lab ptr : Nat) : M Nat := do
  Stack.assert (decide (fib = lab))
  Stack.deallocate fib ptr

/-- `*tls::stack() = stack{frame->stacklet()}`: stack.hpp:213-253, a stack is made from the stacklet, the two are swapped, and the old one is
destroyed. promise.hpp:110, awaitables.hpp:416, resume.hpp:49. -/
def takeStack (fib lab : Nat) : M Nat := do
  let t ← Stack.adopt lab
  Stack.destroy fib
  pure t

/-- `tls::stack()->release()`, the stacklet is forgotten. promise.hpp:132, awaitables.hpp:136. -/
def renew (m : Malloc) (fib : Nat) : M Nat := do
  let r ← Stack.release m fib
  pure r.2

/-- The worker's stack object changes. No code. -/
def Ptrs.setFib (p : Ptrs) (w t : Nat) : Ptrs := { p with fib := upd p.fib w t }

/-- promise.hpp:156,290: the frame `f` is allocated and records the stacklet now on top. -/
def Ptrs.push (p : Ptrs) (w f t a : Nat) : Ptrs := ⟨upd p.fib w t, upd p.lab f t, upd p.addr f a⟩

variable {σ V E : Type}

/-- promise.hpp:156, 290 (a fork or call). -/
def doPush (m : Malloc) (w n f : Nat) (p : Ptrs) : M Ptrs := do
  let r ← Stack.allocate m (p.fib w) n
  pure (p.push w f r.1 r.2)

/-- promise.hpp:156-166: a fork or call that throws after the frame has been made. -/
def doPushPop (m : Malloc) (w n : Nat) (p : Ptrs) : M Ptrs := do
  let r ← Stack.allocate m (p.fib w) n
  let t ← pop r.1 r.1 r.2
  pure (p.setFib w t)

/-- promise.hpp:302-363: the end of a task; a root's worker is back in resume.hpp:55-57. -/
def doPop (w f : Nat) (root : Bool) (p : Ptrs) : M Ptrs := do
  let t ← pop (p.fib w) (p.lab f) (p.addr f)
  if root then noAlloc t else pure ()
  pure (p.setFib w t)

/-- awaitables.hpp:412-419, promise.hpp:105-111, resume.hpp:46-50. -/
def doTake (w f : Nat) (p : Ptrs) : M Ptrs := do
  noAlloc (p.fib w)
  let t ← takeStack (p.fib w) (p.lab f)
  pure (p.setFib w t)

/-- awaitables.hpp:495, after the stack has been taken. -/
def doTakeTop (w f : Nat) (p : Ptrs) : M Ptrs := do
  let p' ← doTake w f p
  Stack.assert (decide (p'.lab f = p'.fib w))
  pure p'

/-- promise.hpp:124-138 and resume.hpp:56-57, 77-78; awaitables.hpp:127-140. -/
def doGive (m : Malloc) (w : Nat) (mine : Bool) (p : Ptrs) : M Ptrs :=
  if mine then do
    let t ← renew m (p.fib w)
    noAlloc t
    pure (p.setFib w t)
  else do
    noAlloc (p.fib w)
    pure p

/-- No code: an assertion that changes nothing. -/
def check (c : Bool) (p : Ptrs) : M Ptrs := do
  Stack.assert c
  pure p

/-- awaitables.hpp:55-63, resume.hpp:46-57, 75-78. -/
def doEmpty (w : Nat) (p : Ptrs) : M Ptrs := do
  noAlloc (p.fib w)
  pure p

/-- What a step of a task that worker `w` runs does to the stacks. awaitables.hpp:96-508, promise.hpp:156-363. -/
def runOps (m : Malloc) (body : σ → Act σ V E) (size : σ → Nat) (w f : Nat) (ch : Choice E) (c : State σ (Except E V)) (p : Ptrs) : M Ptrs :=
  match body (c.fr f).st, ch with
  | .ret _, .go _ => doPop w f (decide (c.link f = .root)) p
  | .throw _, .go _ => doPop w f (decide (c.link f = .root)) p
  | .fork d _ _, .go _ => doPush m w (size d) c.nf p
  | .call d _ _, .go _ => doPush m w (size d) c.nf p
  | .fork d _ _, .fail _ true => doPushPop m w (size d) p
  | .call d _ _, .fail _ true => doPushPop m w (size d) p
  | .join _ _, .go _ => if (c.fr f).steal = 0 then check (decide (p.lab f = p.fib w)) p else pure p
  | .switch _ _ _, .go _ => check (decide (p.lab f = p.fib w) == decide ((c.fr f).steal = 0)) p
  | _, _ => pure p

/-- What a step of worker `w` does to the stacks. awaitables.hpp:55-508, promise.hpp:49-166, resume.hpp:38-78. -/
def ops (m : Malloc) (body : σ → Act σ V E) (size : σ → Nat) (w : Nat) (ch : Choice E) (c : State σ (Except E V)) (p : Ptrs) : M Ptrs :=
  match c.pc w with
  | .idle =>
    match ch, c.inbox w with
    | .go .take, f :: _ => if (c.fr f).steal = 0 then doTake w f p else doEmpty w p
    | _, _ => doEmpty w p
  | .run f => runOps m body size w f ch c p
  | .joinTake f => doTakeTop w f p
  | .finWin f true => check (decide (p.lab f = p.fib w)) p
  | .finWin f false => doTakeTop w f p
  | .finLose same => doGive m w same p
  | .switchRel z => doGive m w z p
  | .selfSteal => if c.q w = [] then doEmpty w p else pure p
  | .joinLoad _ | .joinSub _ | .finPop _ _ | .finDec _ _ _ | .stole _ => pure p

/-- promise.hpp:88-103, 124: whether the parent is on the worker's stack is decided by comparing the stacklets. -/
def decideSame (s : CS σ V E) (w : Nat) (x' : XS σ V E) : XS σ V E :=
  match s.x.c.pc w, s.x.c.q w with
  | .finPop p c, [] => { x' with c := { x'.c with pc := upd x'.c.pc w (.finDec p c (decide (s.p.lab p = s.p.fib w))) } }
  | _, _ => x'

/-- The outcome of the step of Verif.Exn.Model, if the stacks have become `p` and `h`. No code. -/
def after (s : CS σ V E) (w : Nat) (r : Res (XS σ V E)) (p : Ptrs) (h : Heap) : Out (CS σ V E) :=
  match r with
  | .ok x' => .ok ⟨decideSame s w x', p, h⟩
  | .ub => .ub
  | .no => .no

/-- One step of worker `w`; a worker without a stack does nothing. When there is no memory for the frame of a child `std::bad_alloc` (`oom`)
is thrown at the fork or call; when there is none for a new stack of the worker the program ends. awaitables.hpp:55-508,
promise.hpp:49-166, resume.hpp:38-78. -/
def step (m : Malloc) (body : σ → Act σ V E) (size : σ → Nat) (oom : E) (w : Nat) (ch : Choice E) (s : CS σ V E) : Out (CS σ V E) :=
  if s.p.fib w = 0 then .no
  else match Exn.step body w ch s.x with
    | .ok x' =>
      match ops m body size w ch s.x.c s.p s.heap with
      | .ok p h => .ok ⟨decideSame s w x', p, h⟩
      | .badAlloc h =>
        match s.x.c.pc w with
        | .run _ => after s w (Exn.step body w (.fail oom false) s.x) s.p h
        | _ => .die
      | .ub => .ub
    | .ub => .ub
    | .no => .no

/-- sync_wait.hpp:246-287: the top stacklet of the new root's stack and the address of its frame, or nothing if memory ran out. -/
def schedule (m : Malloc) (n : Nat) : M (Option (Nat × Nat)) :=
  orElse
    (do
      let t0 ← Stack.new m
      orElse
        (do
          let r ← Stack.allocate m t0 n
          orElse
            (do
              let t' ← renew m r.1
              Stack.destroy t'
              pure (some r))
            (do
              let t ← pop r.1 r.1 r.2
              Stack.destroy t
              pure none))
        (do
          Stack.destroy t0
          pure none))
    (pure none)

/-- sync_wait.hpp:246-287: a thread that is no worker submits a root task to worker `w`. -/
def submit (m : Malloc) (size : σ → Nat) (s : CS σ V E) (d : σ) (w : Nat) : Out (CS σ V E) :=
  match schedule m (size d) s.heap with
  | .ok (some r) h => .ok ⟨Exn.submit s.x d w, ⟨s.p.fib, upd s.p.lab s.x.c.nf r.1, upd s.p.addr s.x.c.nf r.2⟩, h⟩
  | .ok none h => .ok ⟨s.x, s.p, h⟩
  | .badAlloc _ => .die
  | .ub => .ub

/-- tls.hpp:98-121 `worker_init`: the worker's stack is made. -/
def init (m : Malloc) (w : Nat) (s : CS σ V E) : Out (CS σ V E) :=
  if s.p.fib w = 0 then
    match Stack.new m s.heap with
    | .ok t h => .ok ⟨s.x, s.p.setFib w t, h⟩
    | .badAlloc h => .ok ⟨s.x, s.p, h⟩
    | .ub => .ub
  else .no

/-- tls.hpp:136-155 `finalize`, by a worker that is in its scheduler: its stack is destroyed. -/
def finalize (w : Nat) (s : CS σ V E) : Out (CS σ V E) :=
  if s.p.fib w ≠ 0 ∧ s.x.c.pc w = .idle then
    match Stack.destroy (s.p.fib w) s.heap with
    | .ok _ h => .ok ⟨s.x, s.p.setFib w 0, h⟩
    | .badAlloc _ => .die
    | .ub => .ub
  else .no

/-- No code: nothing has happened yet. -/
def CS.start (x : σ) : CS σ V E := ⟨XS.start x, ⟨fun _ => 0, fun _ => 0, fun _ => 0⟩, fun _ => none⟩

end Verif.Cactus
