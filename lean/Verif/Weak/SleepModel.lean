import Verif.Weak.EvProps

/-!
C54: how the workers of one locality of a `lazy_pool` go to sleep, and how submissions and the destructor wake them, under the C++
memory model. Model of `lazy_work` (include/libfork/schedule/lazy_pool.hpp:194-278), `worker_context::schedule`
(include/libfork/core/ext/context.hpp:70-80), `intrusive_list::push`, `try_pop_all` (include/libfork/core/ext/list.hpp:82-114) and
`~lazy_pool` (lazy_pool.hpp:380-393), on the event count of `Weak/EvModel.lean`, whose states and steps are used for everything that happens
to memory.

Cells of memory: `data 0` is the stop flag, `data (2v+1)` is the head of the submission list of worker `v`, here the number of nodes in
it; the others (`data (2k+2)`) are everything else: the counters `thief` and `active`, the deques, the event counts of other localities, the
user's data. In `run` a thread does anything to these: execute tasks, steal, search for work, look after the counters. What it
reads from the counters is arbitrary, and so is which way it branches on them.

Simplifications: the memory order of `try_pop_all` is taken as relaxed instead of consume (more executions); a submission to a worker of
another locality is `other`. Every thread `t < N` may act as worker `t`; the ones that are no workers just do not.
-/
namespace Verif.Weak.Sleep
open Verif.Weak.Ev (Loc client doPrepare doNotify doWakeAll rmwAny rmwAnyView upd Eligible IsBlocked Few)
open Verif.EventCount (subWaiter P32 epochOf)

/-- lazy_pool.hpp:97-290: where a worker is, as far as it concerns sleeping. -/
inductive PPc where
  | run
  /-- context.hpp:75: about to call the notification function, after the push to the list of `v`. -/
  | post (v : Nat)
  /-- In `notify_one` or `notify_all`; `quit`: at lazy_pool.hpp:242. -/
  | tell (quit : Bool)
  | pop2      -- lazy_pool.hpp:230
  | stopT     -- :237
  | dec       -- :262
  | chk       -- :266
  | wait      -- :276
  | sleep     -- :276, inside
  | cancel (stop : Bool)  -- :232, :268; with `stop`: :241
  | exitN     -- :242
  | quit      -- :243
  | quit2     -- :170
  | gone
  /-- lazy_pool.hpp:386: the destructor has set the flag. -/
  | stopping
  deriving DecidableEq

/-- lazy_pool.hpp:63-86, event_count.hpp:175, and where each thread is. -/
structure St where
  ev : Ev.St
  pc : Nat → PPc
  /-- Ghost: the thread that pushed last to the list of `v`. -/
  pusher : Nat → Nat
  /-- Ghost: how many submissions were pushed to the list of `v`, and how many worker `v` has taken out to run them. -/
  sent : Nat → Int
  got : Nat → Int
  /-- The destructor has set the flag. -/
  stopped : Bool

/-- No code: the location of the list of `v` (context.hpp:112). -/
def lst (v : Nat) : Nat := 2 * v + 1

/-- lazy_pool.hpp:327-369, after the start-up. -/
def St.init : St := { ev := .init fun _ => 0, pc := fun _ => .run, pusher := fun _ => 0, sent := fun _ => 0, got := fun _ => 0, stopped := false }

/-- The number of nodes in the list of `v`. context.hpp:112. -/
def St.pending (s : St) (v : Nat) : Int := s.ev.mem.val (.data (lst v)) (s.ev.mem.last (.data (lst v)))

/-- A read-modify-write. No code: the memory model. -/
def chg (e : Ev.St) (t n : Nat) (v : Int) (acq rel : Bool) : Ev.St :=
  { e with mem := e.mem.append (.data n) v (rmwAnyView e.mem (e.tv t) (.data n) acq rel)
           tv := upd e.tv t (rmwAny (e.tv t) e.mem (.data n) acq) }

/-- Anything that happens outside this protocol. No code: the environment. -/
inductive Other (t : Nat) : Ev.St → Ev.St → Prop where
  | store {e} (k : Nat) (v : Int) (rel : Bool) : (e.tv t).cur (.data (2 * k + 2)) = e.mem.last (.data (2 * k + 2)) →
      Other t e { e with mem := e.mem.store (e.tv t) (.data (2 * k + 2)) v rel, tv := upd e.tv t ((e.tv t).bump e.mem (.data (2 * k + 2))) }
  | load {e} (k i : Nat) (acq : Bool) : CanRead e.mem (e.tv t) (.data (2 * k + 2)) i → Other t e (e.load t (2 * k + 2) i acq (e.pc t))
  | change {e} (k : Nat) (v : Int) (acq rel : Bool) : Other t e (chg e t (2 * k + 2) v acq rel)
  | fenceAcq {e} : Other t e { e with tv := upd e.tv t (e.tv t).fenceAcq }
  | fenceRel {e} : Other t e { e with tv := upd e.tv t (e.tv t).fenceRel }

/-- No code: thread `t` goes on at `p`. -/
def St.go (s : St) (t : Nat) (e : Ev.St) (p : PPc) : St := { s with ev := e, pc := upd s.pc t p }

/-- One step of thread `t`; `dt` is the thread that destroys the pool. lazy_pool.hpp:97-290,371,381-395, context.hpp:70-85, event_count.hpp:178-216. -/
inductive Step (dt t : Nat) : St → St → Prop where
  | other {s e} : s.pc t = .run → Other t s.ev e → Step dt t s (s.go t e .run)
  /-- lazy_pool.hpp:111, 124. -/
  | notifyOne {s} : s.pc t = .run → Step dt t s (s.go t (doNotify s.ev t false) (.tell false))
  -- a submission
  /-- list.hpp:85-92, context.hpp:72. -/
  | push {s} (v : Nat) : s.pc t = .run →
      Step dt t s { s.go t (chg s.ev t (lst v) (s.pending v + 1) false true) (.post v) with
        pusher := upd s.pusher v t, sent := upd s.sent v (s.sent v + 1) }
  /-- context.hpp:76, lazy_pool.hpp:157-159. -/
  | postNotify {s v} : s.pc t = .post v → Step dt t s (s.go t (doNotify s.ev t true) (.tell false))
  -- event_count.hpp:180, 186
  | tellAll {s b} : s.pc t = .tell b → s.ev.pc t = .wakeAll → Step dt t s (s.go t (doWakeAll s.ev t) (if b then .quit else .run))
  | tellOne {s b} : s.pc t = .tell b → s.ev.pc t = .wakeOne →
      Step dt t s (s.go t { s.ev with pc := upd s.ev.pc t .idle } (if b then .quit else .run))
  | told {s b} : s.pc t = .tell b → s.ev.pc t = .idle → Step dt t s (s.go t s.ev (if b then .quit else .run))
  -- the worker
  /-- lazy_pool.hpp:204. -/
  | pop {s} : s.pc t = .run → Step dt t s { s.go t (chg s.ev t (lst t) 0 false false) .run with got := upd s.got t (s.got t + s.pending t) }
  /-- lazy_pool.hpp:228. -/
  | prepare {s} : s.pc t = .run → Step dt t s (s.go t (doPrepare s.ev t .prepared) .pop2)
  /-- lazy_pool.hpp:230. -/
  | popSome {s} : s.pc t = .pop2 → s.pending t ≠ 0 →
      Step dt t s { s.go t (chg s.ev t (lst t) 0 false false) (.cancel false) with got := upd s.got t (s.got t + s.pending t) }
  | popNone {s} : s.pc t = .pop2 → s.pending t = 0 → Step dt t s (s.go t (chg s.ev t (lst t) 0 false false) .stopT)
  /-- lazy_pool.hpp:237. -/
  | stopTest {s} (i : Nat) : s.pc t = .stopT → CanRead s.ev.mem (s.ev.tv t) (.data 0) i →
      Step dt t s (s.go t (s.ev.load t 0 i true (s.ev.pc t)) (if s.ev.mem.val (.data 0) i ≠ 0 then .cancel true else .dec))
  /-- lazy_pool.hpp:262: whatever is found in the counter. -/
  | dec {s} (k : Nat) (v : Int) (last : Bool) : s.pc t = .dec →
      Step dt t s (s.go t (chg s.ev t (2 * k + 2) v true true) (if last then .chk else .wait))
  /-- lazy_pool.hpp:266: whatever is found in the counter. -/
  | chk {s} (k i : Nat) (active : Bool) : s.pc t = .chk → CanRead s.ev.mem (s.ev.tv t) (.data (2 * k + 2)) i →
      Step dt t s (s.go t (s.ev.load t (2 * k + 2) i true (s.ev.pc t)) (if active then .cancel false else .wait))
  /-- lazy_pool.hpp:276. -/
  | wait {s k} : s.pc t = .wait → s.ev.pc t = .prepared k →
      Step dt t s (s.go t { s.ev with pc := upd s.ev.pc t (.waiting k false) } .sleep)
  | look {s k i} : s.pc t = .sleep → s.ev.pc t = .waiting k false → CanRead s.ev.mem (s.ev.tv t) .word i →
      Step dt t s (s.go t { s.ev with
        tv := upd s.ev.tv t ((s.ev.tv t).read s.ev.mem .word i true)
        pc := upd s.ev.pc t (if epochOf (s.ev.mem.val .word i).toNat = k then .blocked k i false else .leaving false) } .sleep)
  | unblock {s k i} : s.pc t = .sleep → s.ev.pc t = .blocked k i false →
      Step dt t s (s.go t { s.ev with pc := upd s.ev.pc t (.waiting k false) } .sleep)
  | leave {s} : s.pc t = .sleep → s.ev.pc t = .leaving false → Step dt t s (s.go t (s.ev.rmw t subWaiter 0 .idle) .run)
  /-- lazy_pool.hpp:232, 268, 241. -/
  | cancel {s b} : s.pc t = .cancel b → Step dt t s (s.go t (s.ev.rmw t subWaiter 0 .idle) (if b then .exitN else .run))
  /-- lazy_pool.hpp:242. -/
  | exitNotify {s} : s.pc t = .exitN → Step dt t s (s.go t (doNotify s.ev t true) (.tell true))
  /-- lazy_pool.hpp:243. -/
  | quit {s} (k : Nat) (v : Int) : s.pc t = .quit → Step dt t s (s.go t (chg s.ev t (2 * k + 2) v false true) .quit2)
  /-- lazy_pool.hpp:170. -/
  | quit2 {s} : s.pc t = .quit2 → Step dt t s (s.go t (chg s.ev t 0 1 false true) .gone)
  -- the destructor
  /-- lazy_pool.hpp:384. -/
  | stop {s} : t = dt → s.pc t = .run → s.stopped = false →
      Step dt t s { s.go t (chg s.ev t 0 1 false true) .stopping with stopped := true }
  /-- lazy_pool.hpp:386-388. -/
  | stopNotify {s} : s.pc t = .stopping → Step dt t s (s.go t (doNotify s.ev t true) (.tell false))

/-- No code: reachability. -/
inductive Reach (N dt : Nat) : St → Prop where
  | init : Reach N dt .init
  | step {s s' t} : Reach N dt s → t < N → Step dt t s s' → Reach N dt s'

end Verif.Weak.Sleep
