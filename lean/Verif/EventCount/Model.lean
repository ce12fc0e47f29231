import Verif.EventCount.Word

/-
Model of include/libfork/schedule/ext/event_count.hpp: any number of threads that prepare, cancel and wait, call `await` and
notify. Every step is one atomic access (sequentially consistent memory). Threads are the numbers below `N`.

`epoch()->wait(k)` (C++20 [atomics.wait]) is a loop: load the epoch, return if it is not `k`, otherwise block; the load and the
blocking are one step, as in a futex. A blocked thread may also wake spuriously. `epoch()->notify_all()` wakes every blocked
thread, `notify_one()` at least one that is eligible: one that blocked before the epoch was last changed.

The condition given to `await` is a shared flag that anyone may clear; a thread that sets it then calls `notify_all`
(the "poster" of event_count.hpp:89-94). Evaluating it may throw.

Ghost fields are written but not read by any step (except that they say who is eligible).
-/
namespace Verif.EventCount

/-- event_count.hpp:178-244: where a thread is. -/
inductive Pc where
  | idle
  /-- `prepare_wait` returned the key `k`. -/
  | prepared (k : Nat)
  /-- event_count.hpp:207: in `wait(k)`, about to look at the epoch; `aw`: on behalf of `await`. -/
  | waiting (k : Nat) (aw : Bool)
  | asleep (k : Nat) (aw : Bool)
  /-- event_count.hpp:212: about to leave `wait`. -/
  | leaving (aw : Bool)
  /-- event_count.hpp:185, 186; `c` is ghost, the time of the call. -/
  | notifyAll (c : Nat)
  | wakeAll (c : Nat)
  /-- event_count.hpp:179, 180. -/
  | notifyOne (c : Nat)
  | wakeOne (c : Nat)
  /-- event_count.hpp:221: `await`, about to evaluate the condition before the loop. -/
  | first
  /-- event_count.hpp:229. -/
  | prep
  /-- event_count.hpp:230. -/
  | check (k : Nat)
  /-- event_count.hpp:231, or 238 if `condition()` threw. -/
  | cancel (threw : Bool)
  deriving DecidableEq

/-- Between `prepare_wait` and the end of `wait` or `cancel_wait`. event_count.hpp:190-216. -/
def reg : Pc → Bool
  | .prepared _ | .waiting _ _ | .asleep _ _ | .leaving _ | .check _ | .cancel _ => true
  | _ => false

/-- Inside `await`. event_count.hpp:219-244. -/
def inAwait : Pc → Bool
  | .first | .prep | .check _ | .cancel _ => true
  | .waiting _ aw | .asleep _ aw | .leaving aw => aw
  | _ => false

/-- event_count.hpp:175, and where each thread is. -/
structure St where
  val : Nat
  cond : Bool
  pc : Nat → Pc
  /-- Ghost: the number of notifications. -/
  n : Nat
  /-- Ghost: `n` when the thread last prepared. -/
  at_ : Nat → Nat
  /-- Ghost: `n` when the thread last blocked. -/
  slept : Nat → Nat
  /-- Ghost: the number of steps so far. -/
  clock : Nat
  /-- Ghost: the time at which `prepare_wait` last returned to the thread. -/
  prepAt : Nat → Nat
  /-- Ghost: the latest time at which a `notify_all` was called that has returned; 0 if there is none. -/
  best : Nat
  /-- Ghost: how the last `await` of the thread ended: `some true` if it returned, `some false` if it threw, `none` if it has not ended. -/
  out : Nat → Option Bool

/-- No code: function update. -/
def upd {α : Type} (f : Nat → α) (i : Nat) (v : α) : Nat → α := fun j => if j = i then v else f j

/-- A blocked thread goes back to look at the epoch. event_count.hpp:207. -/
def rouse : Pc → Pc
  | .asleep k aw => .waiting k aw
  | p => p

/-- event_count.hpp:207: blocked in `atomic::wait`. -/
def isAsleep : Pc → Bool
  | .asleep _ _ => true
  | _ => false

/-- Eligible to be unblocked. event_count.hpp:180,186,207 with [atomics.wait]. -/
def Eligible (s : St) (t : Nat) : Prop := isAsleep (s.pc t) = true ∧ s.slept t < s.n

/-- Time passes, and the thread `t` goes on at `p`. No code. -/
def St.go (s : St) (t : Nat) (p : Pc) : St := { s with pc := upd s.pc t p, clock := s.clock + 1 }

/-- event_count.hpp:190-194 `prepare_wait`; the thread gets the key and goes on at `p`. -/
def doPrepare (s : St) (t : Nat) (p : Nat → Pc) : St :=
  { s.go t (p (epochOf s.val)) with
    val := addWaiter s.val, at_ := upd s.at_ t s.n, prepAt := upd s.prepAt t (s.clock + 1) }

/-- event_count.hpp:184-188 `notify_all`: the addition; the wake-up follows only if there were waiters. -/
def doNotifyAll (s : St) (t c : Nat) : St :=
  if waitersOf s.val ≠ 0 then { s.go t (.wakeAll c) with val := addEpoch s.val, n := s.n + 1 }
  else { s.go t .idle with val := addEpoch s.val, n := s.n + 1, best := max s.best c }

/-- event_count.hpp:178-182 `notify_one`. -/
def doNotifyOne (s : St) (t c : Nat) : St :=
  if waitersOf s.val ≠ 0 then { s.go t (.wakeOne c) with val := addEpoch s.val, n := s.n + 1 }
  else { s.go t .idle with val := addEpoch s.val, n := s.n + 1 }

/-- event_count.hpp:186: `epoch()->notify_all()`. -/
def doWakeAll (s : St) (t c : Nat) : St :=
  { s with pc := upd (fun u => rouse (s.pc u)) t .idle, clock := s.clock + 1, best := max s.best c }

/-- event_count.hpp:212, 200: one waiter less. (The assertion about the old value is `Props.assert_holds`.) -/
def doLeave (s : St) (t : Nat) (p : Pc) : St := { s.go t p with val := subWaiter s.val }

/-- event_count.hpp:207: look at the epoch; block or go on. -/
def doLook (s : St) (t k : Nat) (aw : Bool) : St :=
  if epochOf s.val = k then { s.go t (.asleep k aw) with slept := upd s.slept t s.n } else s.go t (.leaving aw)

/-- One step of thread `t`. event_count.hpp:178-244. -/
inductive Step (N t : Nat) : St → St → Prop
  | prepare (s : St) : t < N → s.pc t = .idle → Step N t s (doPrepare s t .prepared)
  | cancel (s : St) (k : Nat) : t < N → s.pc t = .prepared k → Step N t s (doLeave s t .idle)
  | wait (s : St) (k : Nat) : t < N → s.pc t = .prepared k → Step N t s (s.go t (.waiting k false))
  | look (s : St) (k : Nat) (aw : Bool) : t < N → s.pc t = .waiting k aw → Step N t s (doLook s t k aw)
  | spurious (s : St) (k : Nat) (aw : Bool) : t < N → s.pc t = .asleep k aw → Step N t s (s.go t (.waiting k aw))
  /-- `wait` returns; `await` goes round its loop. -/
  | leave (s : St) (aw : Bool) : t < N → s.pc t = .leaving aw → Step N t s (doLeave s t (if aw then .prep else .idle))
  | callAll (s : St) : t < N → s.pc t = .idle → Step N t s (s.go t (.notifyAll (s.clock + 1)))
  | notifyAll (s : St) (c : Nat) : t < N → s.pc t = .notifyAll c → Step N t s (doNotifyAll s t c)
  | wakeAll (s : St) (c : Nat) : t < N → s.pc t = .wakeAll c → Step N t s (doWakeAll s t c)
  | callOne (s : St) : t < N → s.pc t = .idle → Step N t s (s.go t (.notifyOne (s.clock + 1)))
  | notifyOne (s : St) (c : Nat) : t < N → s.pc t = .notifyOne c → Step N t s (doNotifyOne s t c)
  /-- `epoch()->notify_one()` unblocks `v`, which is eligible. -/
  | wakeOne (s : St) (c v : Nat) : t < N → s.pc t = .wakeOne c → v < N → Eligible s v →
      Step N t s { s with pc := upd (upd s.pc v (rouse (s.pc v))) t .idle, clock := s.clock + 1 }
  | wakeNone (s : St) (c : Nat) : t < N → s.pc t = .wakeOne c → (∀ v, v < N → ¬ Eligible s v) → Step N t s (s.go t .idle)
  /-- The poster makes the condition true and calls `notify_all`. -/
  | post (s : St) : t < N → s.pc t = .idle → Step N t s { s.go t (.notifyAll (s.clock + 1)) with cond := true }
  | clear (s : St) : t < N → s.pc t = .idle → Step N t s { s.go t .idle with cond := false }
  | await (s : St) : t < N → s.pc t = .idle → Step N t s { s.go t .first with out := upd s.out t none }
  /-- event_count.hpp:221-223: return if the condition holds. -/
  | first (s : St) : t < N → s.pc t = .first →
      Step N t s { s.go t (if s.cond then .idle else .prep) with out := if s.cond then upd s.out t (some true) else s.out }
  /-- It throws: nothing to clean up, the try block begins at line 222. -/
  | firstThrow (s : St) : t < N → s.pc t = .first → Step N t s { s.go t .idle with out := upd s.out t (some false) }
  | awaitPrep (s : St) : t < N → s.pc t = .prep → Step N t s (doPrepare s t .check)
  /-- event_count.hpp:230-234. -/
  | check (s : St) (k : Nat) : t < N → s.pc t = .check k →
      Step N t s (s.go t (if s.cond then .cancel false else .waiting k true))
  | checkThrow (s : St) (k : Nat) : t < N → s.pc t = .check k → Step N t s (s.go t (.cancel true))
  | awaitCancel (s : St) (threw : Bool) : t < N → s.pc t = .cancel threw → Step N t s { doLeave s t .idle with out := upd s.out t (some !threw) }

/-- Nobody waits, the condition is false. event_count.hpp:175. -/
def St.start : St := ⟨0, false, fun _ => .idle, 0, fun _ => 0, fun _ => 0, 0, fun _ => 0, 0, fun _ => none⟩

/-- Fewer than 2^32 notifications have happened since any thread that is still waiting prepared. No code: an assumption about executions (C21). -/
def Few (N : Nat) (s : St) : Prop := ∀ t, t < N → reg (s.pc t) = true → s.n < s.at_ t + P32

/-- Every state reached by `N` threads in any schedule. No code: reachability. -/
inductive ReachAny (N : Nat) : St → Prop
  | start : ReachAny N St.start
  | step {s s' : St} {t : Nat} : ReachAny N s → Step N t s s' → ReachAny N s'

/-- ... as long as `Few` holds. No code: reachability. -/
inductive Reach (N : Nat) : St → Prop
  | start : Reach N St.start
  | step {s s' : St} {t : Nat} : Reach N s → Few N s → Step N t s s' → Reach N s'

end Verif.EventCount
