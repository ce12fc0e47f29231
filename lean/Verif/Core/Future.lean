/-
Model of `lf::future` (include/libfork/core/sync_wait.hpp:46-229) and of the root task's side of it
(include/libfork/core/impl/promise.hpp:318-329, 333-346).

One shared state; future objects `κ` that may hold it (futures are move-only, so at most one does); one user thread that
operates on the future objects (a future is not a thread-safe object), and the root task running concurrently: it writes
the result, releases the semaphore, then destroys its frame and with it its reference to the shared state. `acquire`
blocks while the semaphore is 0. `bad` records an access to the shared state after it was freed, or to a result that has
not been written. Semaphore operations are sequentially consistent.
-/
namespace Verif.Core.Future

/-- What the root task produced. sync_wait.hpp:68. -/
inductive Res (V E : Type) where
  | val (v : V) | exc (e : E)

/-- sync_wait.hpp:49-62 `future_state`. -/
inductive Status where
  | noWait | ready | retrieved
deriving DecidableEq

/-- Progress of the root task. promise.hpp:302-350. -/
inductive Task where
  | running    -- result not written
  | wrote      -- promise.hpp:319-320 or return_value done, semaphore not released
  | released   -- promise.hpp:339 done
  | gone       -- promise.hpp:340 done: reference dropped
deriving DecidableEq

/-- Operations of a future object. sync_wait.hpp:175-227. -/
inductive Op (κ : Type) where
  | valid (i : κ) | wait (i : κ) | get (i : κ) | detach (i : κ) | destroy (i : κ)
  | move (src dst : κ)        -- `dst = std::move(src)` or construction of `dst` from `src`

/-- Results of the operations. sync_wait.hpp:175-227. -/
inductive Ret (V E : Type) where
  | unit | bool (b : Bool) | broken | empty | res (r : Res V E)

/-- No code: the log. -/
inductive Ev (κ V E : Type) where
  | call (op : Op κ) | ret (op : Op κ) (r : Ret V E) | wrote (r : Res V E) | released

/-- The user thread: between operations, inside one before / after the (possible) acquire. sync_wait.hpp:193-227. -/
inductive Pc (κ V E : Type) where
  | idle
  | enter (op : Op κ)
  | acquire (op : Op κ)
  | after (op : Op κ)             -- `get`, past `wait()`
  | ret (op : Op κ) (r : Ret V E)

/-- sync_wait.hpp:68-132. -/
structure St (κ V E : Type) where
  task : Task
  result : Option (Res V E)
  sem : Nat
  status : Status
  holder : Option κ
  freed : Bool
  pc : Pc κ V E
  acquires : Nat                  -- successful acquires (ghost)
  bad : Bool

variable {κ V E : Type} [DecidableEq κ]

/-- After `schedule` returned (sync_wait.hpp:286): `i` holds the shared state. -/
def St.init (i : κ) : St κ V E :=
  { task := .running, result := none, sem := 0, status := .noWait, holder := some i, freed := false, pc := .idle,
    acquires := 0, bad := false }

/-- Drop the future's reference; the last reference frees the shared state. sync_wait.hpp:95,132: `std::shared_ptr`. -/
def St.drop (s : St κ V E) : St κ V E :=
  { s with holder := none, freed := s.freed || decide (s.task = .gone) }

/-- sync_wait.hpp:175-227, promise.hpp:302-350. -/
inductive Step : St κ V E → Option (Ev κ V E) → St κ V E → Prop where
  -- the root task
  | write {s} (r : Res V E) : s.task = .running →
      Step s (some (.wrote r)) { s with task := .wrote, result := some r, bad := s.bad || s.freed }
  | release {s} : s.task = .wrote →
      Step s (some .released) { s with task := .released, sem := s.sem + 1, bad := s.bad || s.freed }
  | drop {s} : s.task = .released →
      Step s none { s with task := .gone, freed := s.freed || s.holder.isNone, bad := s.bad || s.freed }
  -- the user
  | call {s} (op : Op κ) : s.pc = .idle → Step s (some (.call op)) { s with pc := .enter op }
  | ret {s op r} : s.pc = .ret op r → Step s (some (.ret op r)) { s with pc := .idle }
  -- sync_wait.hpp:183 valid()
  | valid {s i} : s.pc = .enter (.valid i) →
      Step s none { s with pc := .ret (.valid i) (.bool (decide (s.holder = some i))) }
  -- sync_wait.hpp:189 detach()
  | detachHeld {s i} : s.pc = .enter (.detach i) → s.holder = some i →
      Step s none { s.drop with pc := .ret (.detach i) .unit }
  | detachNone {s i} : s.pc = .enter (.detach i) → s.holder ≠ some i →
      Step s none { s with pc := .ret (.detach i) .unit }
  -- sync_wait.hpp:193-203 wait()
  | waitBroken {s i} : s.pc = .enter (.wait i) → s.holder ≠ some i →
      Step s none { s with pc := .ret (.wait i) .broken }
  | waitAcq {s i} : s.pc = .enter (.wait i) → s.holder = some i → s.status = .noWait →
      Step s none { s with pc := .acquire (.wait i), bad := s.bad || s.freed }
  | waitDone {s i} : s.pc = .enter (.wait i) → s.holder = some i → s.status ≠ .noWait →
      Step s none { s with pc := .ret (.wait i) .unit, bad := s.bad || s.freed }
  -- sync_wait.hpp:210-228 get(): first `wait()`
  | getBroken {s i} : s.pc = .enter (.get i) → s.holder ≠ some i →
      Step s none { s with pc := .ret (.get i) .broken }
  | getAcq {s i} : s.pc = .enter (.get i) → s.holder = some i → s.status = .noWait →
      Step s none { s with pc := .acquire (.get i), bad := s.bad || s.freed }
  | getDone {s i} : s.pc = .enter (.get i) → s.holder = some i → s.status ≠ .noWait →
      Step s none { s with pc := .after (.get i), bad := s.bad || s.freed }
  -- sync_wait.hpp:214-216
  | getEmpty {s i} : s.pc = .after (.get i) → s.status = .retrieved →
      Step s none { s with pc := .ret (.get i) .empty, bad := s.bad || s.freed }
  -- sync_wait.hpp:218-226
  | getRes {s i r} : s.pc = .after (.get i) → s.status ≠ .retrieved → s.result = some r →
      Step s none { s with pc := .ret (.get i) (.res r), status := .retrieved, bad := s.bad || s.freed }
  | getBad {s i} : s.pc = .after (.get i) → s.status ≠ .retrieved → s.result = none →
      Step s none { s with bad := true }
  -- the semaphore: sync_wait.hpp:199-202 (wait), 177 (destructor)
  | acqWait {s i} : s.pc = .acquire (.wait i) → 0 < s.sem →
      Step s none { s with sem := s.sem - 1, acquires := s.acquires + 1, status := .ready, pc := .ret (.wait i) .unit,
                           bad := s.bad || s.freed }
  | acqGet {s i} : s.pc = .acquire (.get i) → 0 < s.sem →
      Step s none { s with sem := s.sem - 1, acquires := s.acquires + 1, status := .ready, pc := .after (.get i),
                           bad := s.bad || s.freed }
  | acqDestroy {s i} : s.pc = .acquire (.destroy i) → 0 < s.sem →
      Step s none { s.drop with sem := s.sem - 1, acquires := s.acquires + 1, pc := .ret (.destroy i) .unit,
                                bad := s.bad || s.freed }
  -- sync_wait.hpp:175-179 ~future()
  | destroyAcq {s i} : s.pc = .enter (.destroy i) → s.holder = some i → s.status = .noWait →
      Step s none { s with pc := .acquire (.destroy i), bad := s.bad || s.freed }
  | destroyDone {s i} : s.pc = .enter (.destroy i) → s.holder = some i → s.status ≠ .noWait →
      Step s none { s.drop with pc := .ret (.destroy i) .unit, bad := s.bad || s.freed }
  | destroyNone {s i} : s.pc = .enter (.destroy i) → s.holder ≠ some i →
      Step s none { s with pc := .ret (.destroy i) .unit }
  -- sync_wait.hpp:159, 167 defaulted moves: the target's old reference is dropped without waiting
  | moveHeld {s i j} : s.pc = .enter (.move i j) → s.holder = some i →
      Step s none { s with holder := some j, pc := .ret (.move i j) .unit }
  | moveOver {s i j} : s.pc = .enter (.move i j) → s.holder = some j → i ≠ j →
      Step s none { s.drop with pc := .ret (.move i j) .unit }
  | moveOther {s i j} : s.pc = .enter (.move i j) → s.holder ≠ some i → s.holder ≠ some j →
      Step s none { s with pc := .ret (.move i j) .unit }

/-- Every interleaving of the user and the task, from the moment `schedule` returned. No code: reachability. -/
inductive Reach (i : κ) : List (Ev κ V E) → St κ V E → Prop where
  | init : Reach i [] (.init i)
  | tau {h s s'} : Reach i h s → Step s none s' → Reach i h s'
  | vis {h s e s'} : Reach i h s → Step s (some e) s' → Reach i (h ++ [e]) s'

/-! ### Specification on histories -/

/-- Results handed to the user by `get` (as value or as rethrown exception), in order. No code: the specification. -/
def delivered (h : List (Ev κ V E)) : List (Res V E) :=
  h.filterMap (fun e => match e with | .ret (.get _) (.res r) => some r | _ => none)

/-- Results written by the task. No code: the specification. -/
def written (h : List (Ev κ V E)) : List (Res V E) :=
  h.filterMap (fun e => match e with | .wrote r => some r | _ => none)

/-! ### Invariant -/

/-- The operation in progress that uses the shared state, if any. No code. -/
def Pc.user : Pc κ V E → Option κ
  | .acquire (.wait i) | .acquire (.get i) | .acquire (.destroy i) | .after (.get i) => some i
  | _ => none

/-- No code. -/
def Pc.acquiring : Pc κ V E → Bool
  | .acquire _ => true
  | _ => false

/-- No code. -/
def pendingRes : Pc κ V E → List (Res V E)
  | .ret (.get _) (.res r) => [r]
  | _ => []

/-- No code: the invariant. -/
structure Inv (h : List (Ev κ V E)) (s : St κ V E) : Prop where
  good : s.bad = false
  user : ∀ i, s.pc.user = some i → s.holder = some i
  acqs : ∀ op, s.pc = .acquire op → s.status = .noWait
  aft : ∀ op, s.pc = .after op → s.status ≠ .noWait
  freed : s.freed = true ↔ s.holder = none ∧ s.task = .gone
  sem : s.sem + s.acquires = if s.task = .released ∨ s.task = .gone then 1 else 0
  acq : s.acquires = 1 → s.holder ≠ none → s.status ≠ .noWait
  st : s.status ≠ .noWait → s.acquires = 1
  res : s.task ≠ .running → ∃ r, s.result = some r ∧ written h = [r]
  nores : s.task = .running → s.result = none ∧ written h = []
  del : if s.status = .retrieved then ∃ r, s.result = some r ∧ delivered h ++ pendingRes s.pc = [r]
        else delivered h ++ pendingRes s.pc = []

theorem inv_init (i : κ) : Inv [] (.init i : St κ V E) := by
  constructor <;> simp [St.init, Pc.user, written, delivered, pendingRes]

set_option maxHeartbeats 4000000 in
theorem inv_step {h : List (Ev κ V E)} {s s' : St κ V E} {e : Option (Ev κ V E)} (hi : Inv h s) (hs : Step s e s') :
    Inv (h ++ e.toList) s' := by
  obtain ⟨good, user, acqs, aft, freed, sem, acq, st, res, nores, del⟩ := hi
  have hnf : ∀ i, s.holder = some i → s.freed = false := by
    intro i hi
    cases hf : s.freed with
    | false => rfl
    | true => rw [freed] at hf; rw [hi] at hf; cases hf.1
  have hng : s.task ≠ .gone → s.freed = false := by
    intro hi
    cases hf : s.freed with
    | false => rfl
    | true => rw [freed] at hf; exact absurd hf.2 hi
  have hb : ∀ a b : Bool, a = false → b = false → (a || b) = false := by decide
  cases hs <;> constructor
  all_goals simp_all [St.drop, Pc.user, pendingRes, written, delivered, List.filterMap_append]
  all_goals try omega
  all_goals try grind

theorem inv_reach {i : κ} {h : List (Ev κ V E)} {s : St κ V E} (hr : Reach i h s) : Inv h s := by
  induction hr with
  | init => exact inv_init i
  | tau _ hs ih => simpa using inv_step ih hs
  | vis _ hs ih => simpa using inv_step ih hs

end Verif.Core.Future
