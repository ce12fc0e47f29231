import Verif.Weak.Mem

/-!
C53: `lf::schedule`, `lf::future` and `lf::sync_wait` under the C++ memory model. Model of include/libfork/core/sync_wait.hpp:66-300 and of
the root task's end (include/libfork/core/impl/promise.hpp:318-346) on the view machine of `Weak/Mem.lean`.

Thread `U` is the one that calls `schedule` and owns the future (or several that hand it on with proper synchronisation). Thread `T` is
the root task: the workers that run it one after the other; that each sees what the one before did is C43, C44 and C47.

Locations:
* `cd`: the caller's data that the task uses, written by the caller before `schedule` and again after it has waited;
* `eff`: what the task's body changes, read by the caller after it has waited;
* `res`: the result or exception in the shared state (`try_eventually`), a plain object;
* `sem`: the `std::binary_semaphore` (release: a release increment; acquire: an acquire decrement once it is positive);
* `refs`: the reference count of the `std::shared_ptr` (acquire-release decrements, as in every implementation; the standard only says
  that the destruction happens after all other uses);
* `sub`: the submission of the task to a worker, a release store that the worker acquires (C47 shows that the submission list does this);
* `ua`, `ta`: ghosts, written at every access of the shared state by `U` and by `T`; `tr`: ghost, written when `T` reads `cd`. They make a
  destruction or write that does not happen after these accesses visible as a data race.

`status` is only used by `U`. A future that was moved is the same future. The parameter `late` says that the destructors of the task's
parameters, which are part of its frame, use the caller's data.
-/
namespace Verif.Weak.Fut

/-- sync_wait.hpp:68-100: the members of the shared state. -/
inductive Loc where
  | cd | eff | res | sem | refs | sub | ua | ta | tr
  deriving DecidableEq

/-- No code: the user's thread and the worker. -/
inductive Th where
  | U | T
  deriving DecidableEq

/-- sync_wait.hpp:49-62 `future_state`. -/
inductive Status where
  | noWait | ready | retrieved
  deriving DecidableEq

/-- Which operation waits. sync_wait.hpp:175-227. -/
inductive Kind where
  | wait | get | destroy
  deriving DecidableEq

/-- Where the user's thread is. sync_wait.hpp:175-280. -/
inductive UPc where
  | prep          -- before `schedule`
  | submit        -- sync_wait.hpp:283
  | idle          -- holds the future
  | acq (k : Kind)
  | getting       -- sync_wait.hpp:214
  | drop          -- about to give up its reference
  | done
  deriving DecidableEq

/-- Where the root task is. promise.hpp:332-350, sync_wait.hpp:68-100. -/
inductive TPc where
  | unborn
  | body
  | wrote         -- promise.hpp:333: result written
  | released      -- promise.hpp:339: `semaphore->release()`, before its notification
  | notified
  | gone          -- promise.hpp:340: the promise is destroyed, with its reference to the shared state
  | dead          -- the parameters are destroyed, the frame is freed
  deriving DecidableEq

/-- sync_wait.hpp:68-100, memory, and where both threads are. -/
structure St where
  mem : Mem Loc
  tv : Th → TV Loc
  upc : UPc
  tpc : TPc
  status : Status
  /-- The user has acquired the semaphore. -/
  waited : Bool
  /-- How often the shared state was freed. -/
  freed : Nat
  /-- What the task wrote. -/
  wrote : List Int
  /-- What `get` gave: a result, or `none` for `empty_future`. -/
  out : List (Option Int)
  /-- A data race or the use of freed memory. -/
  ub : Bool

/-- sync_wait.hpp:266. -/
def St.init : St :=
  { mem := .init fun l => match l with | .refs => 2 | _ => 0
    tv := fun _ => .init, upc := .prep, tpc := .unborn, status := .noWait, waited := false, freed := 0, wrote := [], out := [], ub := false }

/-- No code: function update. -/
def updT (f : Th → TV Loc) (t : Th) (x : TV Loc) : Th → TV Loc := fun u => if u = t then x else f u

/-- No code: the value of the last message. -/
def St.val (s : St) (l : Loc) : Int := s.mem.val l (s.mem.last l)

/-- No code: the memory model. -/
def St.knows (s : St) (t : Th) (l : Loc) : Prop := (s.tv t).cur l = s.mem.last l

/-- A plain write. No code: the memory model. -/
def St.write (s : St) (t : Th) (l : Loc) (v : Int) : St :=
  { s with mem := s.mem.store (s.tv t) l v false, tv := updT s.tv t ((s.tv t).bump s.mem l) }

/-- A release store. No code: the memory model. -/
def St.publish (s : St) (t : Th) (l : Loc) (v : Int) : St :=
  { s with mem := s.mem.store (s.tv t) l v true, tv := updT s.tv t ((s.tv t).bump s.mem l) }

/-- A release read-modify-write. No code: the memory model. -/
def St.rmwRel (s : St) (t : Th) (l : Loc) (v : Int) : St :=
  { s with mem := s.mem.rmwRel (s.tv t) l v, tv := updT s.tv t ((s.tv t).rmwRel s.mem l) }

/-- An acquire-release read-modify-write. No code: the memory model. -/
def St.rmw (s : St) (t : Th) (l : Loc) (v : Int) : St :=
  { s with mem := s.mem.rmw (s.tv t) l v, tv := updT s.tv t ((s.tv t).rmw s.mem l) }

/-- An acquire read-modify-write: it releases nothing itself, but continues a release sequence. No code: the memory model. -/
def St.rmwAcq (s : St) (t : Th) (l : Loc) (v : Int) : St :=
  { s with mem := s.mem.append l v (Weak.join (((s.tv t).read s.mem l (s.mem.last l) true).msg l (s.mem.len l) false) (s.mem.view l (s.mem.last l)))
           tv := updT s.tv t (((s.tv t).read s.mem l (s.mem.last l) true).bump s.mem l) }

/-- An acquire load of message `k`. No code: the memory model. -/
def St.look (s : St) (t : Th) (l : Loc) (k : Nat) : St :=
  { s with tv := updT s.tv t ((s.tv t).read s.mem l k true) }

/-- No code: the user goes on. -/
def St.u (s : St) (p : UPc) : St := { s with upc := p }
/-- No code: the task goes on. -/
def St.t (s : St) (p : TPc) : St := { s with tpc := p }
/-- No code: undefined behaviour. -/
def St.bad (s : St) : St := { s with ub := true }
/-- An access of the shared state. sync_wait.hpp:68-100. -/
def St.touch (s : St) (t : Th) : St :=
  { s.write t (match t with | .U => .ua | .T => .ta) 0 with ub := s.ub || decide (s.freed ≠ 0) }

/-- The reference count is decremented (`tv` of `t` already has it); the last one destroys the shared state, which must happen after
all accesses of both threads. sync_wait.hpp:95: `std::shared_ptr`. -/
def St.unref (s : St) (t : Th) : St :=
  let s' := s.rmw t .refs (s.val .refs - 1)
  if s.val .refs = 1 then
    { s' with freed := s.freed + 1
              ub := s.ub || !(decide ((s'.tv t).cur .ua = s'.mem.last .ua) && decide ((s'.tv t).cur .ta = s'.mem.last .ta) &&
                decide ((s'.tv t).cur .res = s'.mem.last .res)) }
  else s'

/-- sync_wait.hpp:175-280, promise.hpp:318-350. -/
inductive Step (late : Bool) : St → St → Prop where
  -- the caller
  /-- The caller prepares the data. -/
  | prep {s} (v : Int) : s.upc = .prep → Step late s (s.write .U .cd v)
  /-- sync_wait.hpp:266-281: the shared state is constructed, the frame is built. -/
  | construct {s} : s.upc = .prep → Step late s (((s.write .U .res 0).touch .U).u .submit)
  /-- sync_wait.hpp:283. -/
  | submit {s} : s.upc = .submit → Step late s ((s.publish .U .sub 1).u .idle)
  -- the future
  /-- sync_wait.hpp:193-203. -/
  | wait {s} : s.upc = .idle → Step late s ((s.touch .U).u (if s.status = .noWait then .acq .wait else .idle))
  /-- sync_wait.hpp:210-212. -/
  | get {s} : s.upc = .idle → Step late s ((s.touch .U).u (if s.status = .noWait then .acq .get else .getting))
  /-- sync_wait.hpp:175-179. -/
  | destroy {s} : s.upc = .idle → Step late s ((s.touch .U).u (if s.status = .noWait then .acq .destroy else .drop))
  /-- sync_wait.hpp:189, and move assignment to the future (167). -/
  | detach {s} : s.upc = .idle → Step late s (s.u .drop)
  /-- `sem.acquire()` returns. -/
  | acquire {s k} : s.upc = .acq k → s.val .sem = 1 →
      Step late s { ((s.rmwAcq .U .sem 0).touch .U).u (match k with | .wait => .idle | .get => .getting | .destroy => .drop) with
        waited := true, status := match k with | .destroy => s.status | _ => .ready }
  /-- sync_wait.hpp:214-216. -/
  | empty {s} : s.upc = .getting → s.status = .retrieved →
      Step late s { (s.touch .U).u .idle with out := s.out ++ [none] }
  /-- sync_wait.hpp:218-226. -/
  | take {s} : s.upc = .getting → s.status ≠ .retrieved → s.knows .U .res →
      Step late s { (s.touch .U).u .idle with status := .retrieved, out := s.out ++ [some (s.val .res)] }
  | takeRace {s} : s.upc = .getting → s.status ≠ .retrieved → ¬ s.knows .U .res → Step late s s.bad
  | drop {s} : s.upc = .drop → Step late s ((s.unref .U).u .done)
  /-- The caller uses its data again, after it has waited. -/
  | reuse {s} (v : Int) : s.waited = true → s.knows .U .cd → s.knows .U .tr → Step late s (s.write .U .cd v)
  | reuseRace {s} : s.waited = true → ¬ (s.knows .U .cd ∧ s.knows .U .tr) → Step late s s.bad
  /-- The caller looks at what the task did, after it has waited. -/
  | see {s} : s.waited = true → s.knows .U .eff → Step late s s
  | seeRace {s} : s.waited = true → ¬ s.knows .U .eff → Step late s s.bad
  -- the task
  | start {s} (k : Nat) : s.tpc = .unborn → CanRead s.mem (s.tv .T) .sub k → s.mem.val .sub k = 1 →
      Step late s ((s.look .T .sub k).t .body)
  /-- The body uses the caller's data. -/
  | use {s} : s.tpc = .body → s.knows .T .cd → Step late s (s.write .T .tr 0)
  | useRace {s} : s.tpc = .body → ¬ s.knows .T .cd → Step late s s.bad
  | work {s} (v : Int) : s.tpc = .body → Step late s (s.write .T .eff v)
  /-- `co_return`, return.hpp:58-64, or promise.hpp:318-324 for an exception. -/
  | ret {s} (v : Int) : s.tpc = .body → s.knows .T .res →
      Step late s { ((s.write .T .res v).touch .T).t .wrote with wrote := s.wrote ++ [v] }
  | retRace {s} : s.tpc = .body → ¬ s.knows .T .res → Step late s s.bad
  /-- promise.hpp:339, the increment. -/
  | release {s} : s.tpc = .wrote → Step late s (((s.rmwRel .T .sem (s.val .sem + 1)).touch .T).t .released)
  /-- promise.hpp:339, the notification: it still uses the semaphore. -/
  | notify {s} : s.tpc = .released → Step late s ((s.touch .T).t .notified)
  /-- promise.hpp:340: the frame is destroyed, first the promise with its reference ... -/
  | unref {s} : s.tpc = .notified → Step late s ((s.unref .T).t .gone)
  /-- ... then the parameters ([dcl.fct.def.coroutine]). -/
  | useLate {s} : late = true → s.tpc = .gone → s.knows .T .cd → Step late s (s.write .T .tr 0)
  | useLateRace {s} : late = true → s.tpc = .gone → ¬ s.knows .T .cd → Step late s s.bad
  | params {s} : s.tpc = .gone → Step late s (s.t .dead)

/-- No code: reachability. -/
inductive Reach (late : Bool) : St → Prop where
  | init : Reach late .init
  | step {s s'} : Reach late s → Step late s s' → Reach late s'

end Verif.Weak.Fut
