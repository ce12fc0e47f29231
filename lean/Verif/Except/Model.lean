/-
Model of exception propagation between a task and its children: frame.hpp (exception members), promise.hpp
(`await_transform`, `unhandled_exception`, the assertions of `final_suspend`), awaitables.hpp (`await_resume` of the
call, eager-call, fork, sync-fork and join awaitables) and just.hpp.

One parent frame and any number of children are modelled; children run concurrently and every access to the shared
exception flag and exception slot is one step of an interleaving. Which worker runs what, and the proof that a join
is passed only when all forked children have finished, is the subject of `Verif.Runtime`; here the join step has that
fact as its guard. Steal counts are natural numbers (the 16-bit counters are the subject of `Verif.Runtime.Counter`).
-/
namespace Verif.Except

/-- exceptions.hpp:35 `stash_exception_in_return<I>`: does the return address store exceptions? -/
inductive Kind | plain | stash
deriving DecidableEq, Repr

/-- tag.hpp:52-72, the modifiers of a fork. -/
inductive FMod | none | sync | syncOutside
deriving DecidableEq, Repr

/-- tag.hpp:52-72, the modifiers of a call. -/
inductive CMod | none | eager | eagerOutside
deriving DecidableEq, Repr

/-- tag.hpp:115-133 `region` (the values that are used). -/
inductive Region | unknown | outside | openingFork
deriving DecidableEq, Repr

/-- The awaitable chosen by `await_transform`, without the `just` awaitable. awaitables.hpp:235-508. -/
inductive Awaitable
  | call                                          -- awaitables.hpp:341
  | eagerCall (r : Region)                        -- awaitables.hpp:377
  | fork                                          -- awaitables.hpp:235
  | syncFork (childThrows : Bool) (r : Region)    -- awaitables.hpp:289
deriving DecidableEq, Repr

/-- promise.hpp:221-229; `throwing` is the constant of promise.hpp:217. -/
def transformCall (throwing : Bool) : CMod → Awaitable
  | .eager => if throwing then .eagerCall .unknown else .call
  | .eagerOutside => if throwing then .eagerCall .outside else .call
  | .none => .call

/-- promise.hpp:231-243; `throwing` is the constant of promise.hpp:217. -/
def transformFork (throwing : Bool) : FMod → Awaitable
  | .none => .fork
  | .sync => .syncFork throwing .unknown
  | .syncOutside => .syncFork throwing .openingFork

/-- promise.hpp:217 `constexpr bool throwing = stash_exception_in_return<I>`. -/
def codeThrowing : Kind → Bool
  | .plain => false
  | .stash => true

variable {X : Type}

/-- What a `co_await` delivers to the parent: normally (for a sync fork with the reported bool), an exception of a child
(or of the parent itself, via `stash_exception()`), or the substitute `exception_before_join`. awaitables.hpp:297-330,381-400,490-505. -/
inductive Out (X : Type)
  | ok (ready : Bool)
  | threw (e : X)
  | beforeJoin
deriving DecidableEq, Repr

/-- How a child finished. promise.hpp:302-340. -/
inductive Res (X : Type)
  | value
  | exn (e : X)
deriving DecidableEq, Repr

/-- Where a child is. promise.hpp:302-340. -/
inductive Child (X : Type)
  | idle
  | run (kd : Kind)
  | unhandled (kd : Kind) (e : X)      -- entering unhandled_exception, promise.hpp:318
  | construct (e : X)                  -- frame.hpp:229-231, between the exchange and the construction
  | done (kd : Kind) (r : Res X)
deriving DecidableEq, Repr

/-- The return object of a child. eventually.hpp, return.hpp:57-118. -/
inductive Slot (X : Type)
  | empty
  | value
  | exn (e : X)
deriving DecidableEq, Repr

/-- What the parent awaits. promise.hpp:204-245. -/
inductive How
  | fork (m : FMod)
  | call (m : CMod)
  | just
deriving DecidableEq, Repr

/-- Why an execution left the defined behaviour. LF_ASSERT and undefined behaviour in frame.hpp:222-285. -/
inductive Why
  | unconstructed      -- an exception pointer was read that was never constructed
  | constructedTwice   -- an exception pointer was constructed over a live one
  | emptyJust          -- `just` read a return object that holds nothing
  | notOutside         -- LF_ASSERT of an `*_outside` modifier: awaitables.hpp:311, 383
  | finalOpen          -- LF_ASSERT of promise.hpp:308: fork without join
  | finalException     -- LF_ASSERT of promise.hpp:310: "Must have rethrown"
deriving DecidableEq, Repr

/-- Where the parent is. awaitables.hpp:235-508. -/
inductive Par (X : Type)
  | run
  | inFork (k : Nat) (m : FMod) (pre : Nat)   -- suspended, continuation on the queue; `steals_pre`
  | stolen (k : Nat) (m : FMod) (pre : Nat)   -- continuation stolen, before `await_resume`
  | inCall (k : Nat) (m : CMod)
  | inJust (k : Nat)
  | stash (e : X)                             -- first_arg.hpp:175 stash_exception(): before the exchange
  | stash2 (e : X)                            -- between the exchange and the construction
  | final                                     -- passed final_suspend
  | bad (w : Why)                             -- an LF_ASSERT failed, or undefined behaviour
deriving DecidableEq, Repr

/-- Ghost history, newest first. No code. -/
inductive Ev (X : Type)
  | threw (k : Nat) (kd : Kind) (e : X)                  -- child `k` threw `e`
  | returned (k : Nat)                                   -- child `k` returned
  | stashed (e : X)                                      -- the parent stashed `e` in its own frame
  | forked (k : Nat)
  | stole (k : Nat)                                      -- the parent's continuation after fork of `k` was stolen
  | awaited (h : How) (k : Nat) (kd : Kind) (r : Option (Res X)) (o : Out X)
      -- an await of child `k` resumed; `r` is the child's result if it had completed synchronously
  | joined (o : Out X)
deriving DecidableEq, Repr

/-- The parent frame and its children. frame.hpp:45,73-86. -/
structure St (X : Type) where
  except : Bool                -- frame.hpp m_except
  eptr : Option X              -- frame.hpp m_eptr, none when not constructed
  steals : Nat                 -- frame.hpp m_steal
  par : Par X
  child : Nat → Child X
  kind : Nat → Kind            -- return-address kind of each child
  slot : Nat → Slot X
  log : List (Ev X)

/-- A fresh frame (frame.hpp:66-83, 121-131). -/
def init (kind : Nat → Kind) : St X :=
  ⟨false, none, 0, .run, fun _ => .idle, kind, fun _ => .empty, []⟩

/-- Function update. No code. -/
def set {α : Type} (f : Nat → α) (k : Nat) (a : α) : Nat → α := fun j => if j = k then a else f j

/-- frame.hpp:258-268 `unsafe_rethrow_if_exception` with frame.hpp:93-112 `rethrow`: what it delivers, if anything, and
the frame afterwards; `none` is a read of an exception pointer that was never constructed. -/
def rethrow (s : St X) : Option (Option X × St X) :=
  if s.except then
    match s.eptr with
    | some e => some (some e, { s with except := false, eptr := none })
    | none => none
  else some (none, s)

/-- Resume the parent after an await, recording what the await delivered. awaitables.hpp:235-508, `await_resume`. -/
def resumeWith (s : St X) (h : How) (k : Nat) (r : Option (Res X)) (o : Out X) : St X :=
  { s with par := .run, log := .awaited h k (s.kind k) r o :: s.log }

/-- `unsafe_rethrow_if_exception()` at the end of an await: deliver the exception or return `ready`. frame.hpp:259-270. -/
def rethrowThen (s : St X) (h : How) (k : Nat) (r : Option (Res X)) (ready : Bool) : St X :=
  match rethrow s with
  | none => { s with par := .bad .unconstructed }
  | some (some e, s') => resumeWith s' h k r (.threw e)
  | some (none, s') => resumeWith s' h k r (.ok ready)

/-- awaitables.hpp:391-393, 320-322: throw the substitute if the flag is set. -/
def substituteThen (s : St X) (h : How) (k : Nat) (r : Option (Res X)) (ready : Bool) : St X :=
  if s.except then resumeWith s h k r .beforeJoin else resumeWith s h k r (.ok ready)

/-- `await_resume` of the chosen awaitable; `pre` is `steals_pre`, used by the sync fork only. awaitables.hpp:297-330,381-400,490-505. -/
def awaitResume (s : St X) (a : Awaitable) (h : How) (k : Nat) (pre : Nat) (r : Option (Res X)) : St X :=
  match a with
  | .call => resumeWith s h k r (.ok true)                          -- awaitables.hpp:354-360
  | .fork => resumeWith s h k r (.ok false)                         -- awaitables.hpp:262-268
  | .eagerCall .outside =>                                          -- awaitables.hpp:382-385
      if s.steals = 0 then rethrowThen s h k r true else { s with par := .bad .notOutside }
  | .eagerCall _ =>                                                 -- awaitables.hpp:386-394
      if s.steals = 0 then rethrowThen s h k r true else substituteThen s h k r true
  | .syncFork throws reg =>                                         -- awaitables.hpp:297-328
      if s.steals = pre then
        if throws then
          if reg = .openingFork then
            if s.steals = 0 then rethrowThen s h k r true else { s with par := .bad .notOutside }
          else if s.steals = 0 then rethrowThen s h k r true
          else substituteThen s h k r true
        else resumeWith s h k r (.ok true)
      else resumeWith s h k r (.ok false)

/-- just.hpp:66-75: the result is in the awaitable's own `try_eventually`. -/
def justResume (s : St X) (k : Nat) (r : Res X) : St X :=
  match s.slot k with
  | .exn e => resumeWith s .just k (some r) (.threw e)
  | .value => resumeWith s .just k (some r) (.ok true)
  | .empty => { s with par := .bad .emptyJust }

/-- No child is between its fork and its completion. No code: a condition on states. -/
def quiet (s : St X) : Prop := ∀ k, s.child k = .idle ∨ ∃ kd r, s.child k = .done kd r

/-- The interleaving semantics. `thr` is the choice of promise.hpp:217; the code is `thr = codeThrowing`. -/
inductive Step (thr : Kind → Bool) : St X → St X → Prop
  -- parent: awaitables.hpp:239-257, promise.hpp:212-243 (`steals_pre` is read at promise.hpp:235-238)
  | fork (s k m) : s.par = .run → s.child k = .idle →
      Step thr s { s with par := .inFork k m s.steals, child := set s.child k (.run (s.kind k)),
                          log := .forked k :: s.log }
  -- parent: awaitables.hpp:345-349
  | call (s k m) : s.par = .run → s.child k = .idle →
      Step thr s { s with par := .inCall k m, child := set s.child k (.run (s.kind k)) }
  -- parent: just.hpp:42-52; the return address is a try_eventually
  | just (s k) : s.par = .run → s.child k = .idle → s.kind k = .stash →
      Step thr s { s with par := .inJust k, child := set s.child k (.run (s.kind k)) }
  -- a thief (resume.hpp, or awaitables.hpp:57-61) takes the continuation
  | steal (s k m pre) : s.par = .inFork k m pre →
      Step thr s { s with par := .stolen k m pre, steals := s.steals + 1, log := .stole k :: s.log }
  -- the child finished and popped the parent: promise.hpp:53-60
  | resumeFork (s k m pre kd r) : s.par = .inFork k m pre → s.child k = .done kd r →
      Step thr s (awaitResume s (transformFork (thr (s.kind k)) m) (.fork m) k pre (some r))
  | resumeStolen (s k m pre) : s.par = .stolen k m pre →
      Step thr s (awaitResume s (transformFork (thr (s.kind k)) m) (.fork m) k pre none)
  | resumeCall (s k m kd r) : s.par = .inCall k m → s.child k = .done kd r →
      Step thr s (awaitResume s (transformCall (thr (s.kind k)) m) (.call m) k 0 (some r))
  | resumeJust (s k kd r) : s.par = .inJust k → s.child k = .done kd r →
      Step thr s (justResume s k r)
  -- child: return_value / return_void
  | ret (s k kd) : s.child k = .run kd →
      Step thr s { s with child := set s.child k (.done kd .value), slot := set s.slot k .value,
                          log := .returned k :: s.log }
  -- child: the body throws
  | throw (s k kd e) : s.child k = .run kd →
      Step thr s { s with child := set s.child k (.unhandled kd e), log := .threw k kd e :: s.log }
  -- child: promise.hpp:319-320
  | stashRet (s k e) : s.child k = .unhandled .stash e →
      Step thr s { s with child := set s.child k (.done .stash (.exn e)), slot := set s.slot k (.exn e) }
  -- child: promise.hpp:326-328, frame.hpp:222-228
  | capture (s k e) : s.child k = .unhandled .plain e →
      Step thr s { s with except := true,
                          child := set s.child k (if s.except then .done .plain (.exn e) else .construct e) }
  -- child: frame.hpp:229-231; constructing over a constructed pointer is undefined
  | construct (s k e) : s.child k = .construct e →
      Step thr s { s with eptr := some e, child := set s.child k (.done .plain (.exn e)),
                          par := if s.eptr.isSome then .bad .constructedTwice else s.par }
  -- parent: first_arg.hpp:175-180 stash_exception() while handling `e`
  | stash (s e) : s.par = .run → Step thr s { s with par := .stash e, log := .stashed e :: s.log }
  | stashX (s e) : s.par = .stash e →
      Step thr s { s with except := true, par := if s.except then .run else .stash2 e }
  | stashC (s e) : s.par = .stash2 e →
      Step thr s { s with eptr := some e, par := if s.eptr.isSome then .bad .constructedTwice else .run }
  -- parent: co_await join. Passed only when every child has finished (`Verif.Runtime`); the counters are reset by
  -- awaitables.hpp:412-419 / promise.hpp:113; awaitables.hpp:490-498 rethrows
  | join (s) : s.par = .run → quiet s →
      Step thr s (match rethrow s with
        | none => { s with par := .bad .unconstructed }
        | some (some e, s') => { s' with steals := 0, log := .joined (.threw e) :: s.log }
        | some (none, s') => { s' with steals := 0, log := .joined (.ok true) :: s.log })
  -- parent: promise.hpp:302-313 final_suspend
  | final (s) : s.par = .run →
      Step thr s { s with par := if s.steals ≠ 0 then .bad .finalOpen else if s.except then .bad .finalException else .final }

/-- Reachability. No code. -/
inductive Reach (thr : Kind → Bool) (kind : Nat → Kind) : St X → Prop
  | init : Reach thr kind (init kind)
  | step {s s'} : Reach thr kind s → Step thr s s' → Reach thr kind s'

end Verif.Except
