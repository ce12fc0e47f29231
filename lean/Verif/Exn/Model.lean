import Verif.Runtime.Model

/-!
The fork/call/join/switch runtime of Verif.Runtime.Model with exceptions: every task body may throw, be it that one of its children
threw and `co_await join` rethrows, or on its own; a fork, call or switch may itself throw because the child's frame or the queue
cannot be allocated, an argument cannot be copied, or the user's context switcher throws. frame.hpp:57-90, 217-285 (the exception
members), promise.hpp:302-330 (`final_suspend`, `unhandled_exception`), awaitables.hpp (every `await_resume`, and what happens
when an `await_suspend` throws) are added to what Verif.Runtime.Model covers; all functions that neither look at a task's body nor at
an exception are those of Verif.Runtime.Model.

Simplifications: those of Verif.Runtime.Model; the flag and the exception pointer of a frame are one cell, written in one step (the
concurrent capture step by step is Verif.Except and, under the C++ memory model, C49). Modifiers other than `sync`, and the return
objects that store exceptions (there a child that throws returns a value), are in Verif.Except.
-/
namespace Verif.Exn
open Verif.Runtime (State Res Fr Pc Loc Link Ev Why upd maxU16 newFrame reset destroy release joinLoad joinSub finPop finDec finLose
  selfSteal stole switchRel steal take doFork doCall)

/-- What a task does at a suspension point. `x` is where the task goes on if the operation throws in the task.
awaitables.hpp:96-508, promise.hpp:171-340: what a coroutine can do between two resumptions. -/
inductive Act (σ V E : Type) where
  /-- `co_return v` -/
  | ret (v : V)
  /-- an exception leaves the body -/
  | throw (e : E)
  /-- `co_await lf::fork[&r, ...](...)`; a sync fork goes on with the answer whether the child has completed, other forks ignore it. -/
  | fork (c : σ) (k : Bool → σ) (x : E → σ)
  /-- `co_await lf::call[&r, ...](...)`, goes on with what is in `r`: nothing if the callee threw (which does not throw here but at
  the next join). -/
  | call (c : σ) (k : Option V → σ) (x : E → σ)
  /-- `co_await lf::join`, goes on with the return objects of the children forked since the last join. -/
  | join (k : List V → σ) (x : E → List (Option V) → σ)
  /-- `co_await` of a context switcher that submits the task to worker `dest`. -/
  | switch (dest : Nat) (k : σ) (x : E → σ)

/-- The awaitable a task is suspended in, as far as its `await_resume` needs it. awaitables.hpp:289-400. -/
inductive Aw where
  /-- awaitables.hpp:289-333, with `steals_pre` -/
  | fork (pre : Nat)
  /-- awaitables.hpp:341 -/
  | call
  deriving DecidableEq

/-- `c`: everything but exceptions; the return objects (`slots`) hold only values. The result of a task, which only the history
mentions, is its value or the exception that left it. frame.hpp:45-86. -/
structure XS (σ V E : Type) where
  c : State σ (Except E V)
  /-- frame.hpp:74-90 `m_eptr`, if `m_except`. -/
  exc : Nat → Option E
  aw : Nat → Option Aw

/-- The outcome of a step, mapped. No code. -/
def Res.bind {α β : Type} (r : Res α) (f : α → Res β) : Res β :=
  match r with
  | .ok a => f a
  | .ub => .ub
  | .no => .no

/-- What a return object holds. eventually.hpp, return.hpp:57-118. -/
def held {V E : Type} : Option (Except E V) → Option V
  | some (.ok v) => some v
  | _ => none

/-- Whether all of them hold a value. eventually.hpp, return.hpp:57-118. -/
def allHeld {V : Type} : List (Option V) → Option (List V)
  | [] => some []
  | none :: _ => none
  | some v :: l => (allHeld l).map (v :: ·)

variable {σ V E : Type}

/-- frame.hpp:219-234 `capture_exception`: the first one is kept. -/
def capture (exc : Nat → Option E) (p : Nat) (e : E) : Nat → Option E :=
  upd exc p (match exc p with | none => some e | some e0 => some e0)

/-- A task goes on in the state `k`. No code: the resumption of a coroutine. -/
def goOn (c : State σ (Except E V)) (f : Nat) (k : σ) : State σ (Except E V) := { c with fr := upd c.fr f { c.fr f with st := k } }

/-- awaitables.hpp:490-498 `join_awaitable::await_resume`: rethrows if there is an exception (frame.hpp:93-112, 254-265). Otherwise
the task reads the return objects: undefined if one was not written. -/
def passJoin (body : σ → Act σ V E) (s : XS σ V E) (w f : Nat) : Res (XS σ V E) :=
  let g := s.c.fr f
  if g.steal = 0 ∧ g.join = maxU16 ∧ s.c.wk w = s.c.stk f ∧ s.c.isTop f then
    let on (k : σ) : State σ (Except E V) := { s.c with
      fr := upd s.c.fr f { g with st := k, slots := [], inits := [] }
      pc := upd s.c.pc w (.run f)
      loc := upd s.c.loc f (.running w)
      log := .resume f w :: s.c.log }
    match body g.st, s.exc f, allHeld (g.slots.map held) with
    | .join _ x, some e, _ => .ok { s with c := on (x e (g.slots.map held)), exc := upd s.exc f none }
    | .join k _, none, some vs => .ok { s with c := on (k vs) }
    | _, _, _ => .ub
  else .ub

/-- awaitables.hpp:425-431. -/
def doJoin (body : σ → Act σ V E) (s : XS σ V E) (w f : Nat) : Res (XS σ V E) :=
  let c1 := { s.c with log := .suspend f .join :: s.c.log }
  if (s.c.fr f).steal = 0 then passJoin body { s with c := c1 } w f
  else .ok { s with c := { c1 with pc := upd s.c.pc w (.joinLoad f) } }

/-- awaitables.hpp:412-419 and `await_resume`. -/
def joinTake (body : σ → Act σ V E) (s : XS σ V E) (w f : Nat) : Res (XS σ V E) :=
  if (s.c.fr f).steal ≠ 0 ∧ s.c.wkEmpty w ∧ s.c.isTop f then
    passJoin body { s with c := { s.c with wk := upd s.c.wk w (s.c.stk f), fr := upd s.c.fr f (reset (s.c.fr f)) } } w f
  else .ub

/-- promise.hpp:93-115. -/
def finWin (body : σ → Act σ V E) (s : XS σ V E) (w p : Nat) (same : Bool) : Res (XS σ V E) :=
  if s.c.live p then
    let c1 := { s.c with fr := upd s.c.fr p (reset (s.c.fr p)) }
    if same then passJoin body { s with c := c1 } w p
    else if s.c.wkEmpty w ∧ s.c.isTop p then passJoin body { s with c := { c1 with wk := upd s.c.wk w (s.c.stk p) } } w p
    else .ub
  else .ub

/-- `await_resume` of a fork (awaitables.hpp:262-271, 299-333) when its task is popped or has been stolen. -/
def wake (body : σ → Act σ V E) (s : XS σ V E) (p : Nat) : Res (XS σ V E) :=
  match s.aw p, body (s.c.fr p).st with
  | some (.fork pre), .fork _ k _ => .ok { s with c := goOn s.c p (k (decide ((s.c.fr p).steal = pre))), aw := upd s.aw p none }
  | _, _ => .ub

/-- promise.hpp:302-363: `co_return` or an exception that leaves the body, up to `final_await_suspend`. A value is written to the
return object; an exception is captured by the parent (promise.hpp:318-330), of a root it goes to the future's return object. The
assertions of `final_suspend`: counters reset, no exception pending in this frame. -/
def doEnd (body : σ → Act σ V E) (s : XS σ V E) (w f : Nat) (r : Except E V) : Res (XS σ V E) :=
  if (s.c.fr f).steal = 0 ∧ (s.c.fr f).join = maxU16 ∧ s.exc f = none then
    let caught (p : Nat) : Nat → Option E := match r with | .ok _ => s.exc | .error e => capture s.exc p e
    match s.c.link f with
    | .root =>
      match destroy s.c w f with
      | .ok s1 =>
        if s1.wkEmpty w ∧ s1.q w = [] then
          .ok { s with c := { s1 with pc := upd s.c.pc w .idle, loc := upd s.c.loc f .gone, log := .done f r :: s.c.log } }
        else .ub
      | _ => .ub
    | .call p =>
      if s.c.live p then
        match s.aw p, body (s.c.fr p).st, destroy s.c w f with
        | some .call, .call _ k _, .ok s1 =>
          .ok { s with
            c := { s1 with
              fr := upd s.c.fr p { s.c.fr p with st := k r.toOption }
              pc := upd s.c.pc w (.run p)
              loc := upd (upd s.c.loc f .gone) p (.running w)
              log := .resume p w :: .done f r :: s.c.log }
            exc := caught p
            aw := upd s.aw p none }
        | _, _, _ => .ub
      else .ub
    | .fork p i =>
      if s.c.live p then
        match destroy s.c w f with
        | .ok s1 =>
          let slots := match r with | .ok v => (s.c.fr p).slots.set i (some (.ok v)) | .error _ => (s.c.fr p).slots
          .ok { s with
            c := { s1 with
              fr := upd s.c.fr p { s.c.fr p with slots := slots }
              pc := upd s.c.pc w (.finPop p f)
              loc := upd s.c.loc f (.finishing w)
              log := .done f r :: s.c.log }
            exc := caught p }
        | _ => .ub
      else .ub
  else .ub

/-- promise.hpp:231-243 and awaitables.hpp:239-257, 299. The child's frame starts without an exception. -/
def fork (s : XS σ V E) (w f : Nat) (c : σ) : XS σ V E :=
  ⟨doFork s.c w f c (s.c.fr f).st, upd s.exc s.c.nf none, upd (upd s.aw s.c.nf none) f (some (.fork (s.c.fr f).steal))⟩

/-- awaitables.hpp:345-395. -/
def call (s : XS σ V E) (w f : Nat) (c : σ) : XS σ V E :=
  ⟨doCall s.c w f c, upd s.exc s.c.nf none, upd (upd s.aw s.c.nf none) f (some .call)⟩

/-- A fork or call throws, `late` (after the frame of the child has been allocated: an argument cannot be copied into it, or `push`
throws, awaitables.hpp:245-256: `stack_child` destroys the child's frame) or not. The exception is rethrown in the task, which
goes on in the state `x`. The number of the destroyed frame is used again. -/
def failed (s : XS σ V E) (w f : Nat) (c x : σ) (late : Bool) : Res (XS σ V E) :=
  if late then
    match destroy (newFrame s.c (s.c.wk w) (.call f) (s.c.base f) c) w s.c.nf with
    | .ok s1 => .ok { s with c := goOn { s.c with al := s1.al } f x }
    | _ => .ub
  else .ok { s with c := goOn s.c f x }

/-- Choices of the environment. No code: the schedule, and what throws. -/
inductive Choice (E : Type) where
  | go (ch : Verif.Runtime.Choice)
  /-- The fork, call or switch throws. -/
  | fail (e : E) (late : Bool)
  /-- `await_ready` of the context switcher says that there is nothing to do (awaitables.hpp:102). -/
  | ready

/-- Steps of a task. awaitables.hpp:96-508. -/
def run (body : σ → Act σ V E) (s : XS σ V E) (w f : Nat) : Choice E → Res (XS σ V E)
  | .go _ =>
    match body (s.c.fr f).st with
    | .ret v => doEnd body s w f (.ok v)
    | .throw e => doEnd body s w f (.error e)
    | .fork c _ _ => .ok (fork s w f c)
    | .call c _ _ => .ok (call s w f c)
    | .join _ _ => doJoin body s w f
    | .switch d k _ => Res.bind (Verif.Runtime.doSwitch s.c w f d k) fun c' => .ok { s with c := c' }
  | .fail e late =>
    match body (s.c.fr f).st with
    | .fork c _ x => failed s w f c (x e) late
    | .call c _ x => failed s w f c (x e) late
    | .switch _ _ x => .ok { s with c := goOn s.c f (x e) }
    | _ => .no
  | .ready =>
    match body (s.c.fr f).st with
    | .switch _ k _ => .ok { s with c := goOn s.c f k }
    | _ => .no

/-- A step of a worker that involves no task body and no exception. awaitables.hpp, promise.hpp:49-130, resume.hpp:38-78. -/
def plain (s : XS σ V E) (r : Res (State σ (Except E V))) : Res (XS σ V E) := Res.bind r fun c' => .ok { s with c := c' }

/-- One step of worker `w`. awaitables.hpp:55-508, promise.hpp:49-130, resume.hpp:38-78. -/
def step (body : σ → Act σ V E) (w : Nat) (ch : Choice E) (s : XS σ V E) : Res (XS σ V E) :=
  match s.c.pc w with
  | .idle =>
    match ch with
    | .go .take => plain s (take s.c w)
    | .go (.steal v) => plain s (steal s.c w v)
    | _ => .no
  | .run f => run body s w f ch
  | .joinLoad f => plain s (joinLoad s.c w f)
  | .joinSub f => plain s (joinSub s.c w f)
  | .joinTake f => joinTake body s w f
  | .finPop p c =>
    match s.c.q w with
    | [] => plain s (finPop s.c w p c)
    | _ :: _ => Res.bind (plain s (finPop s.c w p c)) (wake body · p)
  | .finDec p c same => plain s (finDec s.c w p c same)
  | .finWin p same => finWin body s w p same
  | .finLose same => plain s (finLose s.c w same)
  | .selfSteal => plain s (selfSteal s.c w)
  | .stole p => Res.bind (plain s (stole s.c w p)) (wake body · p)
  | .switchRel z => plain s (switchRel s.c w z)

/-- No task yet. No code: the initial state. -/
def XS.start (x : σ) : XS σ V E := ⟨State.start x, fun _ => none, fun _ => none⟩

/-- sync_wait.hpp `schedule`. -/
def submit (s : XS σ V E) (c : σ) (w : Nat) : XS σ V E :=
  ⟨Verif.Runtime.submit s.c c w, upd s.exc s.c.nf none, upd s.aw s.c.nf none⟩

end Verif.Exn
