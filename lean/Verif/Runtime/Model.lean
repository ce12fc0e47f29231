/-
Model of the fork/call/join/switch runtime: include/libfork/core/impl/awaitables.hpp, impl/promise.hpp, impl/frame.hpp and
ext/resume.hpp, run by any number of workers.

A task body is a state machine `body : σ → Act σ V` (one state per suspension point of the coroutine). Workers take turns in any
order; one step contains at most one access to memory shared between workers: a push, pop or steal on a work-stealing queue
(linearizable by C03), a load or `fetch_sub` of a join counter, or a push to a submission list (C05). Memory is sequentially
consistent.

A queue is the list of its entries, newest first: the owner pushes and pops at the front, a thief takes the last one.
A stack is the list of the frames allocated on it, newest first (justified by C06 and C07: a frame's recorded stacklet is the
top stacklet of its stack exactly while the frame is the newest allocation, `lifo_restores`, and different stacks share no
stacklet, `unique_owner`). Where the code compares stacklet pointers of frames that are not on top the comparison is not
determined by this abstraction, and the step is undefined. Undefined behaviour (`Res.ub`) is also: a false LF_ASSERT,
touching a destroyed frame, destroying a frame that is not on top of the worker's stack, and reading a result that no child
has written. Sizes, `co_new` blocks and exceptions are the subject of Verif.Stack and Verif.Except.

Fields marked "ghost" are written but never read by any step.
-/
namespace Verif.Runtime

/-- What a task does at a suspension point. awaitables.hpp:96-508. -/
inductive Act (σ V : Type) where
  /-- `co_return v` -/
  | ret (v : V)
  /-- `co_await lf::fork[&x, ...](...)`: the child starts in state `c`, this task goes on in state `k`. -/
  | fork (c k : σ)
  /-- `co_await lf::call[&x, ...](...)` -/
  | call (c : σ) (k : V → σ)
  /-- `co_await lf::join`: afterwards the results of the children forked since the last join are read, in order of forking. -/
  | join (k : List V → σ)
  /-- `co_await` of a context switcher (scheduler.hpp) that submits the task to worker `dest`. -/
  | switch (dest : Nat) (k : σ)

/-- The tag of a task, its parent and the index of its return address among those of the parent's current scope. frame.hpp:57-68, promise.hpp:274-290. -/
inductive Link where
  | root
  | fork (p i : Nat)
  | call (p : Nat)
  deriving DecidableEq

/-- Ghost: where a task is. No code. -/
inductive Loc where
  | unborn
  | running (w : Nat)
  /-- Popped from a queue by a thief or by its own worker, steal counter not yet incremented. -/
  | stolenBy (w : Nat)
  | queued (w c : Nat)
  | inbox (w : Nat)
  | callwait (c : Nat)
  | parked
  /-- Its join has been won, the frame is not yet reset. -/
  | winning (w : Nat)
  /-- Destroyed; its worker has not yet told the parent. -/
  | finishing (w : Nat)
  | gone
  deriving DecidableEq

/-- frame.hpp:38-81: what changes during the life of a frame. -/
structure Fr (σ V : Type) where
  st : σ
  /-- The return addresses of the children forked since the last join. -/
  slots : List (Option V)
  /-- `m_steal`, `std::uint16_t`. -/
  steal : Nat
  /-- `m_join`, `std::atomic_uint16_t`. -/
  join : Nat
  /-- Ghost: steals of this task since its counters were last reset. -/
  stolen : Nat
  /-- Ghost: children that decremented `m_join` since then. -/
  joined : Nat
  /-- Ghost: children that have not yet reported. -/
  kids : List Nat
  /-- Ghost: the initial states of the children forked since the last join. -/
  inits : List σ

/-- What a worker is about to do. awaitables.hpp:55-508, promise.hpp:49-130, resume.hpp:38-78. -/
inductive Pc where
  | idle
  | run (f : Nat)
  /-- awaitables.hpp:439, after `load_steals() != 0`. -/
  | joinLoad (f : Nat)
  | joinSub (f : Nat)
  | joinTake (f : Nat)
  /-- promise.hpp:350-361, the child `c` of `p` is destroyed. -/
  | finPop (p c : Nat)
  | finDec (p c : Nat) (same : Bool)
  | finWin (p : Nat) (same : Bool)
  | finLose (same : Bool)
  /-- awaitables.hpp:57 -/
  | selfSteal
  | stole (p : Nat)
  /-- awaitables.hpp:127-138, after the external `await_suspend`; `z`: there were no steals. -/
  | switchRel (z : Bool)
  deriving DecidableEq

/-- What can be observed. A task is `resume`d on a worker and runs there until it is `suspend`ed or `done`. No code: the log. -/
inductive Why where
  | fork (c : Nat)
  | call (c : Nat)
  | join
  | switch (dest : Nat)
  deriving DecidableEq

/-- No code: the log. -/
inductive Ev (σ V : Type) where
  | submit (f : Nat) (s : σ) (w : Nat)
  | resume (f w : Nat)
  | suspend (f : Nat) (y : Why)
  | done (f : Nat) (v : V)

/-- frame.hpp:39-90, context.hpp:108-112, tls.hpp:33-62, and where each worker is. -/
structure State (σ V : Type) where
  fr : Nat → Fr σ V
  /-- The number of frames ever made; they are numbered from 0. -/
  nf : Nat
  link : Nat → Link
  /-- The stack a frame is on. -/
  stk : Nat → Nat
  /-- The frames on a stack, newest first. -/
  al : Nat → List Nat
  /-- The number of stacks ever made since the start; they get the even numbers. -/
  ns : Nat
  pc : Nat → Pc
  /-- The queue of a worker, newest first. The second component (the forked child) is ghost. -/
  q : Nat → List (Nat × Nat)
  /-- The stack of a worker, `tls::stack()`. -/
  wk : Nat → Nat
  /-- The submission list of a worker. -/
  inbox : Nat → List Nat
  /-- Ghost. -/
  loc : Nat → Loc
  /-- Ghost: the nearest ancestor that was not called. -/
  base : Nat → Nat
  /-- Ghost: the initial state of a task. -/
  init : Nat → σ
  /-- Ghost: newest first. -/
  log : List (Ev σ V)

/-- No code: the outcome of a step; `ub` is undefined behaviour or a failed LF_ASSERT. -/
inductive Res (α : Type) where
  | ok (a : α)
  | ub
  /-- The step is not enabled. -/
  | no

/-- No code: function update. -/
def upd {α : Type} (f : Nat → α) (i : Nat) (v : α) : Nat → α := fun j => if j = i then v else f j

/-- The values read by a task after a join. eventually.hpp, return.hpp:57-118. -/
def results {V : Type} : List (Option V) → Option (List V)
  | [] => some []
  | none :: _ => none
  | some v :: l => (results l).map (v :: ·)

variable {σ V : Type}

/-- frame.hpp:73: the range of `std::uint16_t`. -/
def U16 : Nat := 65536
/-- utility.hpp:99. -/
def maxU16 : Nat := 65535

/-- The memory of the frame exists. stack.hpp:281-336. -/
def State.live (s : State σ V) (f : Nat) : Bool := decide (f ∈ s.al (s.stk f))

/-- The frame is the newest allocation of its stack. stack.hpp:308-336. -/
def State.isTop (s : State σ V) (f : Nat) : Bool := decide ((s.al (s.stk f)).head? = some f)

/-- `stack::empty` on the worker's stack. stack.hpp:258-262. -/
def State.wkEmpty (s : State σ V) (w : Nat) : Bool := (s.al (s.wk w)).isEmpty

/-- frame.hpp:115-125 and promise.hpp:140-166: a new frame on the stack `k`. -/
def newFrame (s : State σ V) (k : Nat) (l : Link) (b : Nat) (c : σ) : State σ V :=
  { s with
    fr := upd s.fr s.nf ⟨c, [], 0, maxU16, 0, 0, [], []⟩
    nf := s.nf + 1
    link := upd s.link s.nf l
    stk := upd s.stk s.nf k
    al := upd s.al k (s.nf :: s.al k)
    base := upd s.base s.nf b
    init := upd s.init s.nf c }

/-- frame.hpp:206-215 `reset`. -/
def reset (g : Fr σ V) : Fr σ V := { g with steal := 0, join := maxU16, stolen := 0, joined := 0 }

/-- `child.destroy()` on worker `w`: promise.hpp:166 asserts that the frame is on top of the worker's stack. -/
def destroy (s : State σ V) (w f : Nat) : Res (State σ V) :=
  if s.wk w = s.stk f ∧ s.isTop f then .ok { s with al := upd s.al (s.wk w) (s.al (s.wk w)).tail } else .ub

/-- awaitables.hpp:490-498 `join_awaitable::await_resume`, and the task reading the results of its children. -/
def passJoin (body : σ → Act σ V) (s : State σ V) (w f : Nat) : Res (State σ V) :=
  let g := s.fr f
  if g.steal = 0 ∧ g.join = maxU16 ∧ s.wk w = s.stk f ∧ s.isTop f then
    match body g.st, results g.slots with
    | .join k, some vs =>
      .ok { s with
        fr := upd s.fr f { g with st := k vs, slots := [], inits := [] }
        pc := upd s.pc w (.run f)
        loc := upd s.loc f (.running w)
        log := .resume f w :: s.log }
    | _, _ => .ub
  else .ub

/-- promise.hpp:231-243 and awaitables.hpp:239-257: fork. The child's frame is made on the worker's stack, the parent is
pushed, the child runs. -/
def doFork (s : State σ V) (w f : Nat) (c k : σ) : State σ V :=
  let g := s.fr f
  let s1 := newFrame s (s.wk w) (.fork f g.slots.length) s.nf c
  { s1 with
    fr := upd s1.fr f { g with st := k, slots := g.slots ++ [none], kids := s.nf :: g.kids, inits := g.inits ++ [c] }
    q := upd s.q w ((f, s.nf) :: s.q w)
    pc := upd s.pc w (.run s.nf)
    loc := upd (upd s.loc f (.queued w s.nf)) s.nf (.running w)
    log := .resume s.nf w :: .suspend f (.fork s.nf) :: s.log }

/-- awaitables.hpp:345-395: call. -/
def doCall (s : State σ V) (w f : Nat) (c : σ) : State σ V :=
  let s1 := newFrame s (s.wk w) (.call f) (s.base f) c
  { s1 with
    pc := upd s.pc w (.run s.nf)
    loc := upd (upd s.loc f (.callwait s.nf)) s.nf (.running w)
    log := .resume s.nf w :: .suspend f (.call s.nf) :: s.log }

/-- awaitables.hpp:425-431: the beginning of `join_awaitable::await_ready`. -/
def doJoin (body : σ → Act σ V) (s : State σ V) (w f : Nat) : Res (State σ V) :=
  let s1 := { s with log := .suspend f .join :: s.log }
  if (s.fr f).steal = 0 then passJoin body s1 w f else .ok { s1 with pc := upd s.pc w (.joinLoad f) }

/-- awaitables.hpp:432-449: the rest of `await_ready`. -/
def joinLoad (s : State σ V) (w f : Nat) : Res (State σ V) :=
  let g := s.fr f
  if g.steal = maxU16 - g.join then
    .ok { s with pc := upd s.pc w (.joinTake f), loc := upd s.loc f (.winning w) }
  else .ok { s with pc := upd s.pc w (.joinSub f) }

/-- awaitables.hpp:454-485: `join_awaitable::await_suspend`. -/
def joinSub (s : State σ V) (w f : Nat) : Res (State σ V) :=
  let g := s.fr f
  let old := g.join
  let s1 := { s with fr := upd s.fr f { g with join := (old + U16 - (maxU16 - g.steal)) % U16 } }
  if g.steal = maxU16 - old then
    .ok { s1 with pc := upd s.pc w (.joinTake f), loc := upd s.loc f (.winning w) }
  else .ok { s1 with pc := upd s.pc w .selfSteal, loc := upd s.loc f .parked }

/-- awaitables.hpp:412-419 `take_stack_reset_frame` and then `await_resume`. `stack{...}` asserts `is_top`; the worker's old
stack is destroyed. -/
def joinTake (body : σ → Act σ V) (s : State σ V) (w f : Nat) : Res (State σ V) :=
  if (s.fr f).steal ≠ 0 ∧ s.wkEmpty w ∧ s.isTop f then
    passJoin body { s with wk := upd s.wk w (s.stk f), fr := upd s.fr f (reset (s.fr f)) } w f
  else .ub

/-- promise.hpp:302-363: `co_return v`, up to `final_await_suspend`. -/
def doRet (body : σ → Act σ V) (s : State σ V) (w f : Nat) (v : V) : Res (State σ V) :=
  if (s.fr f).steal = 0 ∧ (s.fr f).join = maxU16 then
    match s.link f with
    | .root =>
      match destroy s w f with
      | .ok s1 =>
        if s1.wkEmpty w ∧ s1.q w = [] then
          .ok { s1 with pc := upd s.pc w .idle, loc := upd s.loc f .gone, log := .done f v :: s.log }
        else .ub
      | _ => .ub
    | .call p =>
      if s.live p then
        match body (s.fr p).st, destroy s w f with
        | .call _ k, .ok s1 =>
          .ok { s1 with
            fr := upd s.fr p { s.fr p with st := k v }
            pc := upd s.pc w (.run p)
            loc := upd (upd s.loc f .gone) p (.running w)
            log := .resume p w :: .done f v :: s.log }
        | _, _ => .ub
      else .ub
    | .fork p i =>
      if s.live p then
        match destroy s w f with
        | .ok s1 =>
          .ok { s1 with
            fr := upd s.fr p { s.fr p with slots := (s.fr p).slots.set i (some v) }
            pc := upd s.pc w (.finPop p f)
            loc := upd s.loc f (.finishing w)
            log := .done f v :: s.log }
        | _ => .ub
      else .ub
  else .ub

/-- Ghost update: the child `c` of `p` has reported. No code. -/
def report (s : State σ V) (p c : Nat) : State σ V :=
  { s with fr := upd s.fr p { s.fr p with kids := (s.fr p).kids.erase c }, loc := upd s.loc c .gone }

/-- promise.hpp:49-89 `final_await_suspend`: pop the parent; if it is gone compare the stacklets. -/
def finPop (s : State σ V) (w p c : Nat) : Res (State σ V) :=
  match s.q w with
  | (p', _) :: r =>
    if p' = p ∧ s.live p then
      let s1 := report s p c
      .ok { s1 with
        q := upd s.q w r
        pc := upd s.pc w (.run p)
        loc := upd s1.loc p (.running w)
        log := .resume p w :: s.log }
    else .ub
  | [] =>
    if s.live p ∧ (s.stk p = s.wk w → s.isTop p) then
      .ok { s with pc := upd s.pc w (.finDec p c (decide (s.stk p = s.wk w))) }
    else .ub

/-- promise.hpp:91-92: `fetch_sub_joins(1)`. -/
def finDec (s : State σ V) (w p c : Nat) (same : Bool) : Res (State σ V) :=
  if s.live p then
    let s1 := report s p c
    let g := s1.fr p
    let s2 := { s1 with fr := upd s1.fr p { g with join := (g.join + U16 - 1) % U16, joined := g.joined + 1 } }
    if (s.fr p).join = 1 then
      .ok { s2 with pc := upd s.pc w (.finWin p same), loc := upd s1.loc p (.winning w) }
    else .ok { s2 with pc := upd s.pc w (.finLose same) }
  else .ub

/-- promise.hpp:93-115: the last child resumes the parent. -/
def finWin (body : σ → Act σ V) (s : State σ V) (w p : Nat) (same : Bool) : Res (State σ V) :=
  if s.live p then
    let s1 := { s with fr := upd s.fr p (reset (s.fr p)) }
    if same then passJoin body s1 w p
    else if s.wkEmpty w ∧ s.isTop p then passJoin body { s1 with wk := upd s.wk w (s.stk p) } w p
    else .ub
  else .ub

/-- stack.hpp:268-272: the worker gets a new stack. -/
def release (s : State σ V) (w : Nat) : State σ V := { s with wk := upd s.wk w (2 * s.ns), ns := s.ns + 1 }

/-- promise.hpp:117-138, and the assertions of resume.hpp:54-56, 75-77 when control is back in the scheduler. -/
def finLose (s : State σ V) (w : Nat) (same : Bool) : Res (State σ V) :=
  let s1 := if same then release s w else s
  if s1.wkEmpty w ∧ s1.q w = [] then .ok { s1 with pc := upd s.pc w .idle } else .ub

/-- awaitables.hpp:55-63 `try_self_stealing`, up to the pop. -/
def selfSteal (s : State σ V) (w : Nat) : Res (State σ V) :=
  match s.q w with
  | (p, _) :: r => .ok { s with q := upd s.q w r, pc := upd s.pc w (.stole p), loc := upd s.loc p (.stolenBy w) }
  | [] => if s.wkEmpty w then .ok { s with pc := upd s.pc w .idle } else .ub

/-- frame.hpp:201 `fetch_add_steal` and the resumption (awaitables.hpp:58-59, resume.hpp:71-75). -/
def stole (s : State σ V) (w p : Nat) : Res (State σ V) :=
  if s.live p then
    .ok { s with
      fr := upd s.fr p { s.fr p with steal := ((s.fr p).steal + 1) % U16, stolen := (s.fr p).stolen + 1 }
      pc := upd s.pc w (.run p)
      loc := upd s.loc p (.running w)
      log := .resume p w :: s.log }
  else .ub

/-- awaitables.hpp:106-125: a context switch up to the external `await_suspend`, which submits the task to `d`. -/
def doSwitch (s : State σ V) (w f d : Nat) (k : σ) : Res (State σ V) :=
  let z := decide ((s.fr f).steal = 0)
  if (z → s.wk w = s.stk f ∧ s.isTop f) ∧ (!z → s.wk w ≠ s.stk f) then
    .ok { s with
      fr := upd s.fr f { s.fr f with st := k }
      pc := upd s.pc w (.switchRel z)
      inbox := upd s.inbox d (s.inbox d ++ [f])
      loc := upd s.loc f (.inbox d)
      log := .suspend f (.switch d) :: s.log }
  else .ub

/-- awaitables.hpp:127-160. -/
def switchRel (s : State σ V) (w : Nat) (z : Bool) : Res (State σ V) :=
  let s1 := if z then release s w else s
  if s1.wkEmpty w then .ok { s1 with pc := upd s.pc w .selfSteal } else .ub

/-- resume.hpp:65-78: an idle worker steals from `v` and resumes the task; the increment is the next step. -/
def steal (s : State σ V) (w v : Nat) : Res (State σ V) :=
  match (s.q v).getLast? with
  | some (p, _) =>
    if w ≠ v ∧ s.q w = [] ∧ s.wkEmpty w then
      .ok { s with q := upd s.q v (s.q v).dropLast, pc := upd s.pc w (.stole p), loc := upd s.loc p (.stolenBy w) }
    else if w = v then .no else .ub
  | none => .no

/-- resume.hpp:38-58: an idle worker resumes the next task submitted to it. -/
def take (s : State σ V) (w : Nat) : Res (State σ V) :=
  match s.inbox w with
  | f :: r =>
    if s.live f ∧ s.q w = [] ∧ s.wkEmpty w ∧ ((s.fr f).steal = 0 → s.isTop f) then
      .ok { s with
        inbox := upd s.inbox w r
        wk := if (s.fr f).steal = 0 then upd s.wk w (s.stk f) else s.wk
        pc := upd s.pc w (.run f)
        loc := upd s.loc f (.running w)
        log := .resume f w :: s.log }
    else .ub
  | [] => .no

/-- sync_wait.hpp `schedule`: a root task on a stack of its own is submitted to worker `w`. -/
def submit (s : State σ V) (c : σ) (w : Nat) : State σ V :=
  let s1 := newFrame s (2 * s.ns) .root s.nf c
  { s1 with
    ns := s.ns + 1
    inbox := upd s.inbox w (s.inbox w ++ [s.nf])
    loc := upd s.loc s.nf (.inbox w)
    log := .submit s.nf c w :: s.log }

/-- Choices of the scheduler. No code: the schedule. -/
inductive Choice where
  | take
  | steal (v : Nat)

/-- One step of worker `w`. awaitables.hpp:55-508, promise.hpp:49-130, resume.hpp:38-78. -/
def step (body : σ → Act σ V) (w : Nat) (ch : Choice) (s : State σ V) : Res (State σ V) :=
  match s.pc w with
  | .idle =>
    match ch with
    | .take => take s w
    | .steal v => steal s w v
  | .run f =>
    match body (s.fr f).st with
    | .ret v => doRet body s w f v
    | .fork c k => .ok (doFork s w f c k)
    | .call c _ => .ok (doCall s w f c)
    | .join _ => doJoin body s w f
    | .switch d k => doSwitch s w f d k
  | .joinLoad f => joinLoad s w f
  | .joinSub f => joinSub s w f
  | .joinTake f => joinTake body s w f
  | .finPop p c => finPop s w p c
  | .finDec p c same => finDec s w p c same
  | .finWin p same => finWin body s w p same
  | .finLose same => finLose s w same
  | .selfSteal => selfSteal s w
  | .stole p => stole s w p
  | .switchRel z => switchRel s w z

/-- No task yet; every worker is idle on a stack of its own (an odd number). There is no bound on the number of workers:
those that take no step do not matter. The contents of frames that do not exist are irrelevant. tls.hpp:60-130. -/
def State.start (x : σ) : State σ V :=
  ⟨fun _ => ⟨x, [], 0, maxU16, 0, 0, [], []⟩, 0, fun _ => .root, fun _ => 0, fun _ => [], 0, fun _ => .idle, fun _ => [], fun w => 2 * w + 1, fun _ => [],
    fun _ => .unborn, fun f => f, fun _ => x, []⟩

end Verif.Runtime
