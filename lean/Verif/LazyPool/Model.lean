import Verif.EventCount.Inv

/-
Model of include/libfork/schedule/lazy_pool.hpp: the worker loop `lazy_work`, `thief_work_sleep`, submissions
(core/ext/context.hpp:70-78 with the notifier of lazy_pool.hpp:157-159) and the destructor. Any number of workers in any number
of numa domains, any number of submissions. Every step is one atomic access (sequentially consistent memory; the code's
acquire/release orders are not modelled). The event counts are the words of Verif.EventCount.Word with the C++20
`atomic::wait` and `notify` as in Verif.EventCount.Model.

Not modelled: the constructor and `latch_start` (the model starts when every worker has passed it), the deques
(`try_steal` succeeds or fails arbitrarily), and what a task does when it is resumed; a task that schedules others is
represented by the submissions it makes. A thread that makes several submissions one after the other is a special case of
independent submissions. A worker's list is in the order of submission (`try_pop_all` reverses it, C05).
-/
namespace Verif.LazyPool
open Verif.EventCount (P32 P64 addEpoch addWaiter subWaiter epochOf waitersOf Rep upd upd_same upd_ne upd_apply num)

/-- `std::atomic_uint64_t::fetch_add(1)`. Used in lazy_pool.hpp:97-290. -/
@[irreducible] def inc (v : Nat) : Nat := (1 + v) % P64
/-- `std::atomic_uint64_t::fetch_sub(1)`. Used in lazy_pool.hpp:97-290. -/
@[irreducible] def decr (v : Nat) : Nat := (P64 - 1 + v) % P64

/-- Where a worker is: the next access it makes. lazy_pool.hpp:97-290. -/
inductive Pc where
  /-- lazy_pool.hpp:199 -/
  | wake
  /-- lazy_pool.hpp:204 -/
  | pop1
  /-- lazy_pool.hpp:208 -/
  | steal
  /-- lazy_pool.hpp:228 -/
  | prep
  /-- lazy_pool.hpp:230 -/
  | pop2
  /-- lazy_pool.hpp:232 -/
  | cancelPop
  /-- lazy_pool.hpp:237 -/
  | stopChk
  /-- lazy_pool.hpp:242, 243 (the addition and the wake-up of `notify_all`), 244 -/
  | quit1 | quit2 | quit3 | quit4
  /-- lazy_pool.hpp:169, 170 (arrive, then wait), and after 171 -/
  | fin1 | fin2 | fin3 | fin4
  /-- lazy_pool.hpp:262 -/
  | dec
  /-- lazy_pool.hpp:266 -/
  | chk
  /-- lazy_pool.hpp:268 -/
  | cancelWake
  /-- lazy_pool.hpp:276: about to look at the epoch; blocked; about to give back its place among the waiters -/
  | look | asleep | leave
  /-- lazy_pool.hpp:110, 111 (the addition and the wake-up of `notify_one`) -/
  | tws1 | tws2 | tws3
  /-- lazy_pool.hpp:121 -/
  | act
  /-- lazy_pool.hpp:122-123, 124 (the addition and the wake-up of `notify_one`) -/
  | scan | sc2 | sc3
  /-- lazy_pool.hpp:129 -/
  | work
  /-- lazy_pool.hpp:132 -/
  | deact
  deriving DecidableEq

/-- Where the submission of a job is: core/ext/context.hpp:71-77. -/
inductive Call where
  | unsent
  /-- The job is in the list of worker `w`, `notify_all` comes next. -/
  | pushed (w : Nat)
  /-- The epoch has been advanced, the wake-up comes next. -/
  | waking (w : Nat)
  | returned
  deriving DecidableEq

/-- Where the destructor is: lazy_pool.hpp:381-394. -/
inductive DPc where
  | alive
  | notify (i : Nat)
  | rousing (i : Nat)
  | joining
  | gone
  deriving DecidableEq

/-- Ghost: where a job is. No code. -/
inductive Loc where
  | unsent
  | inbox (w : Nat)
  | hand (w : Nat)
  | started
  deriving DecidableEq

/-- Workers `0 … N-1`, domains `0 … D-1`; `dom w` is `numa_tid` of worker `w` (lazy_pool.hpp:153). -/
structure Cfg where
  N : Nat
  D : Nat
  dom : Nat → Nat

/-- lazy_pool.hpp:63-86, event_count.hpp:175, and where each thread is. -/
structure St where
  /-- lazy_pool.hpp:76, per domain -/
  thief : Nat → Nat
  /-- lazy_pool.hpp:86 -/
  active : Nat
  /-- lazy_pool.hpp:80, the word of the event count, per domain -/
  val : Nat → Nat
  /-- busy_pool.hpp:65 -/
  stop : Bool
  /-- busy_pool.hpp:61 `latch_stop` -/
  latch : Nat
  /-- The worker's list of submissions (core/ext/context.hpp:118). -/
  inbox : Nat → List Nat
  pc : Nat → Pc
  /-- The local `key` (lazy_pool.hpp:228). -/
  key : Nat → Nat
  /-- The submissions among the local `handle` (lazy_pool.hpp:97) not yet resumed. -/
  hand : Nat → List Nat
  /-- The position of the loop of lazy_pool.hpp:122. -/
  idx : Nat → Nat
  call : Nat → Call
  dpc : DPc
  /-- The jobs that have been resumed. -/
  started : List Nat
  /-- Ghost: the number of notifications, per domain. -/
  n : Nat → Nat
  /-- Ghost: `n` of the worker's domain when it last prepared. -/
  at_ : Nat → Nat
  /-- Ghost: `n` of the worker's domain when it last blocked. -/
  slept : Nat → Nat
  loc : Nat → Loc

/-- No code: worker `w` goes on at `p`. -/
def St.go (s : St) (w : Nat) (p : Pc) : St := { s with pc := upd s.pc w p }

/-- lazy_pool.hpp:199 -/
def doWake (c : Cfg) (s : St) (w : Nat) : St :=
  { s.go w .pop1 with thief := upd s.thief (c.dom w) (inc (s.thief (c.dom w))) }

/-- `try_pop_all` (lazy_pool.hpp:204, 230) of a non-empty list; the worker goes on at `p`. -/
def doPop (s : St) (w : Nat) (p : Pc) : St :=
  { s.go w p with
    hand := upd s.hand w (s.inbox w)
    inbox := upd s.inbox w []
    loc := fun j => if s.loc j = .inbox w then .hand w else s.loc j }

/-- lazy_pool.hpp:228 `prepare_wait` -/
def doPrep (c : Cfg) (s : St) (w : Nat) : St :=
  { s.go w .pop2 with
    val := upd s.val (c.dom w) (addWaiter (s.val (c.dom w)))
    key := upd s.key w (epochOf (s.val (c.dom w)))
    at_ := upd s.at_ w (s.n (c.dom w)) }

/-- `cancel_wait` (lazy_pool.hpp:232, 242, 268) and the end of `wait` (276). -/
def doCancel (c : Cfg) (s : St) (w : Nat) (p : Pc) : St :=
  { s.go w p with val := upd s.val (c.dom w) (subWaiter (s.val (c.dom w))) }

/-- event_count.hpp:179, 185: the addition of a notification of domain `i`. -/
def St.bump (s : St) (i : Nat) : St :=
  { s with val := upd s.val i (addEpoch (s.val i)), n := upd s.n i (s.n i + 1) }

/-- event_count.hpp:179, 185: it is followed by a wake-up if there are waiters. -/
def St.must (s : St) (i : Nat) : Bool := waitersOf (s.val i) ≠ 0

/-- event_count.hpp:186: everyone who is blocked in domain `i` goes back to look at the epoch. -/
def rouse (c : Cfg) (s : St) (i : Nat) : Nat → Pc :=
  fun u => if s.pc u = .asleep ∧ c.dom u = i then .look else s.pc u

/-- lazy_pool.hpp:110, 244, 262: one thief less. -/
def doUnthief (c : Cfg) (s : St) (w : Nat) (p : Pc) : St :=
  { s.go w p with thief := upd s.thief (c.dom w) (decr (s.thief (c.dom w))) }

/-- lazy_pool.hpp:276, event_count.hpp:207: the epoch is still the key, the worker blocks. -/
def doSleep (c : Cfg) (s : St) (w : Nat) : St := { s.go w .asleep with slept := upd s.slept w (s.n (c.dom w)) }

/-- lazy_pool.hpp:121. -/
def doAct (s : St) (w : Nat) (p : Pc) : St :=
  { s.go w p with active := inc s.active, idx := upd s.idx w 0 }

/-- lazy_pool.hpp:122: on to the next domain. -/
def doNext (s : St) (w : Nat) : St := { s.go w .scan with idx := upd s.idx w (s.idx w + 1) }

/-- Eligible to be unblocked by `notify_one` in domain `i`: blocked since before the epoch last changed. event_count.hpp:180,207 with [atomics.wait]. -/
def Eligible (c : Cfg) (s : St) (i v : Nat) : Prop := s.pc v = .asleep ∧ c.dom v = i ∧ s.slept v < s.n i

/-- Who takes a step. No code. -/
inductive Actor where
  | worker (w : Nat)
  | submit (j : Nat)
  | dtor
  deriving DecidableEq

/-- lazy_pool.hpp:97-290,371,381-395, context.hpp:70-85, event_count.hpp:178-216. -/
inductive Step (c : Cfg) : Actor → St → St → Prop
  | wake (s : St) (w : Nat) : w < c.N → s.pc w = .wake → Step c (.worker w) s (doWake c s w)
  | pop1Some (s : St) (w : Nat) : w < c.N → s.pc w = .pop1 → s.inbox w ≠ [] → Step c (.worker w) s (doPop s w .tws1)
  | pop1None (s : St) (w : Nat) : w < c.N → s.pc w = .pop1 → s.inbox w = [] → Step c (.worker w) s (s.go w .steal)
  | stealSome (s : St) (w : Nat) : w < c.N → s.pc w = .steal → Step c (.worker w) s (s.go w .tws1)
  | stealNone (s : St) (w : Nat) : w < c.N → s.pc w = .steal → Step c (.worker w) s (s.go w .prep)
  | prep (s : St) (w : Nat) : w < c.N → s.pc w = .prep → Step c (.worker w) s (doPrep c s w)
  | pop2Some (s : St) (w : Nat) : w < c.N → s.pc w = .pop2 → s.inbox w ≠ [] → Step c (.worker w) s (doPop s w .cancelPop)
  | pop2None (s : St) (w : Nat) : w < c.N → s.pc w = .pop2 → s.inbox w = [] → Step c (.worker w) s (s.go w .stopChk)
  | cancelPop (s : St) (w : Nat) : w < c.N → s.pc w = .cancelPop → Step c (.worker w) s (doCancel c s w .tws1)
  | stopYes (s : St) (w : Nat) : w < c.N → s.pc w = .stopChk → s.stop = true → Step c (.worker w) s (s.go w .quit1)
  | stopNo (s : St) (w : Nat) : w < c.N → s.pc w = .stopChk → s.stop = false → Step c (.worker w) s (s.go w .dec)
  | quit1 (s : St) (w : Nat) : w < c.N → s.pc w = .quit1 → Step c (.worker w) s (doCancel c s w .quit2)
  | quit2 (s : St) (w : Nat) : w < c.N → s.pc w = .quit2 → s.must (c.dom w) = true →
      Step c (.worker w) s ((s.bump (c.dom w)).go w .quit3)
  | quit2None (s : St) (w : Nat) : w < c.N → s.pc w = .quit2 → s.must (c.dom w) = false →
      Step c (.worker w) s ((s.bump (c.dom w)).go w .quit4)
  | quit3 (s : St) (w : Nat) : w < c.N → s.pc w = .quit3 →
      Step c (.worker w) s { s with pc := upd (rouse c s (c.dom w)) w .quit4 }
  | quit4 (s : St) (w : Nat) : w < c.N → s.pc w = .quit4 →
      Step c (.worker w) s (doUnthief c s w .fin1)
  | fin1 (s : St) (w : Nat) : w < c.N → s.pc w = .fin1 → Step c (.worker w) s { s.go w .fin2 with stop := true }
  | fin2 (s : St) (w : Nat) : w < c.N → s.pc w = .fin2 → Step c (.worker w) s { s.go w .fin3 with latch := s.latch - 1 }
  | fin3 (s : St) (w : Nat) : w < c.N → s.pc w = .fin3 → s.latch = 0 → Step c (.worker w) s (s.go w .fin4)
  /-- lazy_pool.hpp:262: the last thief. -/
  | decLast (s : St) (w : Nat) : w < c.N → s.pc w = .dec → s.thief (c.dom w) = 1 → Step c (.worker w) s (doUnthief c s w .chk)
  | decMore (s : St) (w : Nat) : w < c.N → s.pc w = .dec → s.thief (c.dom w) ≠ 1 → Step c (.worker w) s (doUnthief c s w .look)
  | chkYes (s : St) (w : Nat) : w < c.N → s.pc w = .chk → s.active > 0 → Step c (.worker w) s (s.go w .cancelWake)
  | chkNo (s : St) (w : Nat) : w < c.N → s.pc w = .chk → ¬ s.active > 0 → Step c (.worker w) s (s.go w .look)
  | cancelWake (s : St) (w : Nat) : w < c.N → s.pc w = .cancelWake → Step c (.worker w) s (doCancel c s w .wake)
  | lookSame (s : St) (w : Nat) : w < c.N → s.pc w = .look → epochOf (s.val (c.dom w)) = s.key w →
      Step c (.worker w) s (doSleep c s w)
  | lookDiff (s : St) (w : Nat) : w < c.N → s.pc w = .look → epochOf (s.val (c.dom w)) ≠ s.key w →
      Step c (.worker w) s (s.go w .leave)
  | spurious (s : St) (w : Nat) : w < c.N → s.pc w = .asleep → Step c (.worker w) s (s.go w .look)
  | leave (s : St) (w : Nat) : w < c.N → s.pc w = .leave → Step c (.worker w) s (doCancel c s w .wake)
  /-- lazy_pool.hpp:110: the last thief. -/
  | tws1Last (s : St) (w : Nat) : w < c.N → s.pc w = .tws1 → s.thief (c.dom w) = 1 → Step c (.worker w) s (doUnthief c s w .tws2)
  | tws1More (s : St) (w : Nat) : w < c.N → s.pc w = .tws1 → s.thief (c.dom w) ≠ 1 → Step c (.worker w) s (doUnthief c s w .act)
  | tws2 (s : St) (w : Nat) : w < c.N → s.pc w = .tws2 → s.must (c.dom w) = true →
      Step c (.worker w) s ((s.bump (c.dom w)).go w .tws3)
  | tws2None (s : St) (w : Nat) : w < c.N → s.pc w = .tws2 → s.must (c.dom w) = false →
      Step c (.worker w) s ((s.bump (c.dom w)).go w .act)
  | tws3 (s : St) (w v : Nat) : w < c.N → s.pc w = .tws3 → v < c.N → Eligible c s (c.dom w) v →
      Step c (.worker w) s { s with pc := upd (upd s.pc v .look) w .act }
  | tws3None (s : St) (w : Nat) : w < c.N → s.pc w = .tws3 → (∀ v, v < c.N → ¬ Eligible c s (c.dom w) v) →
      Step c (.worker w) s (s.go w .act)
  /-- lazy_pool.hpp:121: the first active worker. -/
  | actFirst (s : St) (w : Nat) : w < c.N → s.pc w = .act → s.active = 0 → Step c (.worker w) s (doAct s w .scan)
  | actMore (s : St) (w : Nat) : w < c.N → s.pc w = .act → s.active ≠ 0 → Step c (.worker w) s (doAct s w .work)
  /-- lazy_pool.hpp:123: no thief in this domain. -/
  | scanNone (s : St) (w : Nat) : w < c.N → s.pc w = .scan → s.idx w < c.D → s.thief (s.idx w) = 0 →
      Step c (.worker w) s (s.go w .sc2)
  | scanSome (s : St) (w : Nat) : w < c.N → s.pc w = .scan → s.idx w < c.D → s.thief (s.idx w) ≠ 0 →
      Step c (.worker w) s (doNext s w)
  | scanEnd (s : St) (w : Nat) : w < c.N → s.pc w = .scan → ¬ s.idx w < c.D → Step c (.worker w) s (s.go w .work)
  | sc2 (s : St) (w : Nat) : w < c.N → s.pc w = .sc2 → s.must (s.idx w) = true →
      Step c (.worker w) s ((s.bump (s.idx w)).go w .sc3)
  | sc2None (s : St) (w : Nat) : w < c.N → s.pc w = .sc2 → s.must (s.idx w) = false →
      Step c (.worker w) s (doNext (s.bump (s.idx w)) w)
  | sc3 (s : St) (w v : Nat) : w < c.N → s.pc w = .sc3 → v < c.N → Eligible c s (s.idx w) v →
      Step c (.worker w) s { s with pc := upd (upd s.pc v .look) w .scan, idx := upd s.idx w (s.idx w + 1) }
  | sc3None (s : St) (w : Nat) : w < c.N → s.pc w = .sc3 → (∀ v, v < c.N → ¬ Eligible c s (s.idx w) v) →
      Step c (.worker w) s (doNext s w)
  /-- `resume(handle)` (lazy_pool.hpp:129) resumes the submissions one after the other. -/
  | run (s : St) (w j : Nat) (js : List Nat) : w < c.N → s.pc w = .work → s.hand w = j :: js →
      Step c (.worker w) s { s with hand := upd s.hand w js, started := j :: s.started, loc := upd s.loc j .started }
  | runEnd (s : St) (w : Nat) : w < c.N → s.pc w = .work → s.hand w = [] → Step c (.worker w) s (s.go w .deact)
  | deact (s : St) (w : Nat) : w < c.N → s.pc w = .deact → Step c (.worker w) s { s.go w .wake with active := decr s.active }
  /-- context.hpp:72: the job is put in the list of worker `w`. -/
  | push (s : St) (j w : Nat) : s.call j = .unsent → w < c.N →
      Step c (.submit j) s { s with
        inbox := upd s.inbox w (s.inbox w ++ [j]), call := upd s.call j (.pushed w), loc := upd s.loc j (.inbox w) }
  /-- context.hpp:76, lazy_pool.hpp:158: `notify_all` of the domain of `w`. -/
  | notify (s : St) (j w : Nat) : s.call j = .pushed w → s.must (c.dom w) = true →
      Step c (.submit j) s { s.bump (c.dom w) with call := upd s.call j (.waking w) }
  | notifyNone (s : St) (j w : Nat) : s.call j = .pushed w → s.must (c.dom w) = false →
      Step c (.submit j) s { s.bump (c.dom w) with call := upd s.call j .returned }
  | rouse (s : St) (j w : Nat) : s.call j = .waking w →
      Step c (.submit j) s { s with pc := rouse c s (c.dom w), call := upd s.call j .returned }
  /-- lazy_pool.hpp:385 -/
  | dstop (s : St) : s.dpc = .alive → Step c .dtor s { s with stop := true, dpc := .notify 0 }
  /-- lazy_pool.hpp:387-388 -/
  | dnotify (s : St) (i : Nat) : s.dpc = .notify i → i < c.D → s.must i = true →
      Step c .dtor s { s.bump i with dpc := .rousing i }
  | dnotifyNone (s : St) (i : Nat) : s.dpc = .notify i → i < c.D → s.must i = false →
      Step c .dtor s { s.bump i with dpc := .notify (i + 1) }
  | drouse (s : St) (i : Nat) : s.dpc = .rousing i → Step c .dtor s { s with pc := rouse c s i, dpc := .notify (i + 1) }
  | dlast (s : St) (i : Nat) : s.dpc = .notify i → ¬ i < c.D → Step c .dtor s { s with dpc := .joining }
  /-- lazy_pool.hpp:391-393 -/
  | djoin (s : St) : s.dpc = .joining → (∀ w, w < c.N → s.pc w = .fin4) → Step c .dtor s { s with dpc := .gone }

/-- After the constructor: every worker is about to become a thief (lazy_pool.hpp:199), nothing has been submitted. -/
def St.start (c : Cfg) : St where
  thief _ := 0
  active := 0
  val _ := 0
  stop := false
  latch := c.N
  inbox _ := []
  pc _ := .wake
  key _ := 0
  hand _ := []
  idx _ := 0
  call _ := .unsent
  dpc := .alive
  started := []
  n _ := 0
  at_ _ := 0
  slept _ := 0
  loc _ := .unsent

/-- Between `prepare_wait` and the end of `cancel_wait` or `wait`. event_count.hpp:190-216. -/
def reg : Pc → Bool
  | .pop2 | .cancelPop | .stopChk | .quit1 | .dec | .chk | .cancelWake | .look | .asleep | .leave => true
  | _ => false

/-- The workers are in existing domains, and there are fewer than 2^32. numa.hpp:446-480 assigns the domains; the bound on the number of workers is an assumption. -/
structure Cfg.Ok (c : Cfg) : Prop where
  small : c.N < P32
  dom : ∀ w, w < c.N → c.dom w < c.D

/-- Fewer than 2^32 notifications have been made in a worker's domain since it prepared, if it is still waiting (C21: the epoch
has 32 bits). No code: an assumption about executions. -/
def Few (c : Cfg) (s : St) : Prop := ∀ w, w < c.N → reg (s.pc w) = true → s.n (c.dom w) < s.at_ w + P32

/-- The states reached in any schedule in which `Few` holds. No code: reachability. -/
inductive Reach (c : Cfg) : St → Prop
  | start : Reach c (St.start c)
  | step {s s' : St} {a : Actor} : Reach c s → Few c s → Step c a s s' → Reach c s'

end Verif.LazyPool
