import Verif.Weak.Mem
import Verif.EventCount.Word
import Verif.EventCount.Count

/-!
C46: `event_count` under the C++ memory model. Model of include/libfork/schedule/ext/event_count.hpp on the view machine of
`Weak/Mem.lean`: any number of threads (the numbers below `N`) that wait, notify and use shared memory cells.

`m_val` is changed by read-modify-writes only. Those of `notify_one`, `notify_all`, `prepare_wait` are acq_rel (lines 179, 185, 191);
those of `cancel_wait` and `wait` are seq_cst (lines 200, 212), taken as acq_rel here, which only adds executions.

`epoch()->wait(k, acquire)` (line 207; C++20 [atomics.wait]) is a loop: an acquire load, which may read *any* message the thread has
not been told to be overwritten; it returns if the epoch differs from `k` and blocks otherwise. A blocked thread may be unblocked at
any time. It has to be once it is eligible: some `notify_all()` has been called, a change of `m_val` happens before that call, and
the load read an older message than this change. That `epoch()` is one half of the 64-bit object `m_val` (lines 150-152) is a
mixed-size access, on which C++ is silent: a load of the half is taken to read the half of a message of the whole.

`epoch()->notify_one()` (line 180) has no guaranteed effect in this model.

The cells `data n` belong to the client; their accesses may be plain or atomic of any strength. A store needs to know the last store
to the cell (for a plain one the other case is a data race); read-modify-writes are unrestricted. `await` (lines 218-241) is
given the condition "cell 0 is not 0".
-/
namespace Verif.Weak.Ev
open Verif.EventCount (addEpoch addWaiter subWaiter epochOf waitersOf num)

/-- event_count.hpp:175 `m_val`, and the cells of the client. -/
inductive Loc where
  | word | data (n : Nat)
  deriving DecidableEq

/-- event_count.hpp:178-244: where a thread is. -/
inductive Pc where
  | idle
  /-- `prepare_wait` returned the key `k`. -/
  | prepared (k : Nat)
  /-- event_count.hpp:207: about to load the epoch; `aw`: on behalf of `await`. -/
  | waiting (k : Nat) (aw : Bool)
  /-- event_count.hpp:207: blocked after reading message `i`. -/
  | blocked (k i : Nat) (aw : Bool)
  /-- event_count.hpp:212. -/
  | leaving (aw : Bool)
  /-- event_count.hpp:186. -/
  | wakeAll
  /-- event_count.hpp:180. -/
  | wakeOne
  /-- event_count.hpp:221: `await`, about to evaluate the condition before the loop. -/
  | first
  /-- event_count.hpp:229. -/
  | prep
  /-- event_count.hpp:230. -/
  | check (k : Nat)
  /-- event_count.hpp:231. -/
  | cancel
  deriving DecidableEq

/-- Between `prepare_wait` and the end of `wait` or `cancel_wait`. event_count.hpp:190-216. -/
def reg : Pc → Bool
  | .prepared _ | .waiting _ _ | .blocked _ _ _ | .leaving _ | .check _ | .cancel => true
  | _ => false

/-- In the client's code. No code: between calls of event_count.hpp. -/
def client : Pc → Bool
  | .idle | .prepared _ => true
  | _ => false

/-- event_count.hpp:175, memory, and where each thread is. -/
structure St where
  mem : Mem Loc
  tv : Nat → TV Loc
  pc : Nat → Pc
  /-- Ghost: the position in the modification order of `m_val` of the thread's last `prepare_wait`. -/
  at_ : Nat → Nat
  /-- Ghost: how many of the changes of `m_val` up to position `i` are notifications. -/
  cnt : Nat → Nat
  /-- Ghost: the greatest position in the modification order of `m_val` that happens before a call of `epoch()->notify_all()`
  (line 186). -/
  told : Nat
  /-- Ghost: the message of cell 0 read by the thread's last evaluation of the condition in the loop of `await`. -/
  saw : Nat → Nat

/-- event_count.hpp:175; the cells contain anything. -/
def St.init (v : Nat → Int) : St :=
  { mem := .init fun l => match l with | .word => 0 | .data n => v n
    tv := fun _ => .init, pc := fun _ => .idle, at_ := fun _ => 0, cnt := fun _ => 0, told := 0, saw := fun _ => 0 }

/-- No code: function update. -/
def upd {α : Type} (f : Nat → α) (w : Nat) (x : α) : Nat → α := fun u => if u = w then x else f u

/-- The current value of `m_val`: that of the last message. event_count.hpp:175. -/
def St.val (s : St) : Nat := (s.mem.val .word (s.mem.last .word)).toNat

/-- Thread `t` changes `m_val` by a read-modify-write and goes on at `p`; `d` is 1 for a notification and 0 otherwise. event_count.hpp:179,185,191,200,212. -/
def St.rmw (s : St) (t : Nat) (f : Nat → Nat) (d : Nat) (p : Pc) : St :=
  { s with
    mem := s.mem.rmw (s.tv t) .word (f s.val : Nat)
    tv := upd s.tv t ((s.tv t).rmw s.mem .word)
    pc := upd s.pc t p
    cnt := upd s.cnt (s.mem.len .word) (s.cnt (s.mem.last .word) + d) }

/-- event_count.hpp:190-194 `prepare_wait`; the thread gets the key and goes on at `p`. -/
def doPrepare (s : St) (t : Nat) (p : Nat → Pc) : St :=
  { s.rmw t addWaiter 0 (p (epochOf s.val)) with at_ := upd s.at_ t (s.mem.len .word) }

/-- event_count.hpp:178-188 `notify_one`, `notify_all`: the addition; the wake-up follows only if there were waiters. -/
def doNotify (s : St) (t : Nat) (all : Bool) : St :=
  s.rmw t addEpoch 1 (if waitersOf s.val ≠ 0 then (if all then .wakeAll else .wakeOne) else .idle)

/-- event_count.hpp:186: `epoch()->notify_all()`. The changes that happen before this call are those the thread knows. -/
def doWakeAll (s : St) (t : Nat) : St :=
  { s with pc := upd s.pc t .idle, told := max s.told ((s.tv t).cur .word) }

/-- The thread after a read-modify-write of `l` with any memory order. No code: the memory model. -/
def rmwAny (tv : TV Loc) (m : Mem Loc) (l : Loc) (acq : Bool) : TV Loc := (tv.read m l (m.last l) acq).bump m l

/-- The view of the message of a read-modify-write of `l` with any memory order; it continues a release sequence. No code: the memory model. -/
def rmwAnyView (m : Mem Loc) (tv : TV Loc) (l : Loc) (acq rel : Bool) : View Loc :=
  join ((tv.read m l (m.last l) acq).msg l (m.len l) rel) (m.view l (m.last l))

/-- Thread `t` loads message `i` of cell `n` and goes on at `p`. No code: a load of the client. -/
def St.load (s : St) (t n i : Nat) (acq : Bool) (p : Pc) : St :=
  { s with tv := upd s.tv t ((s.tv t).read s.mem (.data n) i acq), pc := upd s.pc t p }

/-- event_count.hpp:230: the condition is evaluated in the loop of `await`. -/
def doCheck (s : St) (t k i : Nat) (acq : Bool) : St :=
  { s.load t 0 i acq (if s.mem.val (.data 0) i ≠ 0 then .cancel else .waiting k true) with saw := upd s.saw t i }

/-- One step of thread `t`. event_count.hpp:178-244. -/
inductive Step (N t : Nat) : St → St → Prop where
  -- the client
  | store {s} (n : Nat) (v : Int) (rel : Bool) : t < N → client (s.pc t) = true →
      (s.tv t).cur (.data n) = s.mem.last (.data n) →
      Step N t s { s with
        mem := s.mem.store (s.tv t) (.data n) v rel, tv := upd s.tv t ((s.tv t).bump s.mem (.data n)) }
  | load {s} (n i : Nat) (acq : Bool) : t < N → client (s.pc t) = true → CanRead s.mem (s.tv t) (.data n) i →
      Step N t s (s.load t n i acq (s.pc t))
  | change {s} (n : Nat) (v : Int) (acq rel : Bool) : t < N → client (s.pc t) = true →
      Step N t s { s with
        mem := s.mem.append (.data n) v (rmwAnyView s.mem (s.tv t) (.data n) acq rel)
        tv := upd s.tv t (rmwAny (s.tv t) s.mem (.data n) acq) }
  | fenceAcq {s} : t < N → client (s.pc t) = true → Step N t s { s with tv := upd s.tv t (s.tv t).fenceAcq }
  | fenceRel {s} : t < N → client (s.pc t) = true → Step N t s { s with tv := upd s.tv t (s.tv t).fenceRel }
  -- event_count
  | prepare {s} : t < N → s.pc t = .idle → Step N t s (doPrepare s t .prepared)
  /-- event_count.hpp:196-203. -/
  | cancel {s k} : t < N → s.pc t = .prepared k → Step N t s (s.rmw t subWaiter 0 .idle)
  | wait {s k} : t < N → s.pc t = .prepared k → Step N t s { s with pc := upd s.pc t (.waiting k false) }
  /-- event_count.hpp:207: the load. -/
  | look {s k aw i} : t < N → s.pc t = .waiting k aw → CanRead s.mem (s.tv t) .word i →
      Step N t s { s with
        tv := upd s.tv t ((s.tv t).read s.mem .word i true)
        pc := upd s.pc t (if epochOf (s.mem.val .word i).toNat = k then .blocked k i aw else .leaving aw) }
  /-- Unblocked: by a notification or spuriously. -/
  | unblock {s k i aw} : t < N → s.pc t = .blocked k i aw → Step N t s { s with pc := upd s.pc t (.waiting k aw) }
  /-- event_count.hpp:212; `await` goes round its loop. -/
  | leave {s aw} : t < N → s.pc t = .leaving aw → Step N t s (s.rmw t subWaiter 0 (if aw then .prep else .idle))
  | notify {s} (all : Bool) : t < N → s.pc t = .idle → Step N t s (doNotify s t all)
  | wakeAll {s} : t < N → s.pc t = .wakeAll → Step N t s (doWakeAll s t)
  | wakeOne {s} : t < N → s.pc t = .wakeOne → Step N t s { s with pc := upd s.pc t .idle }
  -- await
  | await {s} : t < N → s.pc t = .idle → Step N t s { s with pc := upd s.pc t .first }
  /-- event_count.hpp:221-223: return if the condition holds. -/
  | first {s} (i : Nat) (acq : Bool) : t < N → s.pc t = .first → CanRead s.mem (s.tv t) (.data 0) i →
      Step N t s (s.load t 0 i acq (if s.mem.val (.data 0) i ≠ 0 then .idle else .prep))
  | awaitPrep {s} : t < N → s.pc t = .prep → Step N t s (doPrepare s t .check)
  /-- event_count.hpp:230. -/
  | check {s k} (i : Nat) (acq : Bool) : t < N → s.pc t = .check k → CanRead s.mem (s.tv t) (.data 0) i →
      Step N t s (doCheck s t k i acq)
  /-- event_count.hpp:231-232. -/
  | cancelled {s} : t < N → s.pc t = .cancel → Step N t s (s.rmw t subWaiter 0 .idle)

/-- Any number of steps of any threads. No code. -/
inductive Steps (N : Nat) : St → St → Prop where
  | refl (s : St) : Steps N s s
  | step {s s' s'' t} : Steps N s s' → Step N t s' s'' → Steps N s s''

/-- States of executions. No code: reachability. -/
inductive Reach (N : Nat) : St → Prop where
  | init (v : Nat → Int) : Reach N (.init v)
  | step {s s' t} : Reach N s → Step N t s s' → Reach N s'

/-- [atomics.wait]: `t` is blocked in `wait` and eligible to be unblocked by a call of `epoch()->notify_all()` that has been made: it
read message `i`, and a later change happens before the call. event_count.hpp:180,186,207. -/
def Eligible (s : St) (t : Nat) : Prop := ∃ k i aw, s.pc t = .blocked k i aw ∧ i < s.told

/-- event_count.hpp:207: blocked in `atomic::wait`. -/
def IsBlocked (s : St) (t : Nat) : Prop := ∃ k i aw, s.pc t = .blocked k i aw

end Verif.Weak.Ev
