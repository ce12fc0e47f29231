import Verif.Fair
import Verif.EventCount.Inv

/-
Model of the worker loops and destructors of include/libfork/schedule/busy_pool.hpp and unit_pool.hpp. Any number of workers and of
submissions, every step is one atomic access (sequentially consistent memory).

Not modelled: the constructors (the model starts when every worker is in its loop), the deques (`try_steal` succeeds or fails
arbitrarily), and what a task does when it is resumed; a task that schedules others is represented by the submissions it makes, and
a resumed task is assumed to suspend or return. The order within a list of submissions is C05 (Verif.List).
-/
namespace Verif.Pool
open Verif.EventCount (upd upd_same upd_ne upd_apply num)

/-- Where a worker is: the next access it makes. busy_pool.hpp:71-115, unit_pool.hpp:38-60. -/
inductive Pc where
  /-- busy_pool.hpp:95, unit_pool.hpp:48 -/
  | chk
  /-- busy_pool.hpp:97, unit_pool.hpp:49 -/
  | pop
  /-- busy_pool.hpp:98, unit_pool.hpp:50 -/
  | run
  /-- busy_pool.hpp:102 -/
  | steal
  /-- busy_pool.hpp:103 -/
  | task
  /-- busy_pool.hpp:108, unit_pool.hpp:55 -/
  | dpop
  /-- busy_pool.hpp:109, unit_pool.hpp:56 -/
  | drun
  /-- busy_pool.hpp:88, 89 (arrive, then wait), and after 90 -/
  | fin1 | fin2 | fin3 | fin4
  deriving DecidableEq, Repr

/-- Where the destructor is: busy_pool.hpp:201-209, unit_pool.hpp:77-80. -/
inductive DPc where
  | alive | joining | gone
  deriving DecidableEq, Repr

/-- Ghost: where a job is. No code. -/
inductive Loc where
  | unsent
  | inbox (w : Nat)
  | hand (w : Nat)
  | started
  deriving DecidableEq

/-- Workers `0 … N-1`; a `unit_pool` has one. busy_pool.hpp:128, unit_pool.hpp:36. -/
structure Cfg where
  N : Nat
  unit : Bool

/-- busy_pool.hpp:46-66, unit_pool.hpp:83-88, and where each thread is. -/
structure St where
  /-- busy_pool.hpp:65, unit_pool.hpp:83 -/
  stop : Bool
  /-- busy_pool.hpp:61 -/
  latch : Nat
  /-- The worker's list of submissions (core/ext/context.hpp:118). -/
  inbox : Nat → List Nat
  pc : Nat → Pc
  /-- The submissions taken and not yet resumed. -/
  hand : Nat → List Nat
  /-- `schedule` has been called for the job. -/
  sent : Nat → Bool
  dpc : DPc
  /-- The jobs that have been resumed. -/
  started : List Nat
  loc : Nat → Loc
  /-- Ghost: the value of `stop` when the job was submitted. -/
  stopAt : Nat → Bool

/-- No code: worker `w` goes on at `p`. -/
def St.go (s : St) (w : Nat) (p : Pc) : St := { s with pc := upd s.pc w p }

/-- `try_pop_all` of a non-empty list. list.hpp:102-116, busy_pool.hpp:96-111. -/
def doPop (s : St) (w : Nat) (p : Pc) : St :=
  { s.go w p with
    hand := upd s.hand w (s.inbox w)
    inbox := upd s.inbox w []
    loc := fun j => if s.loc j = .inbox w then .hand w else s.loc j }

/-- `resume` of the first job in hand. resume.hpp:38-58. -/
def doRun (s : St) (w j : Nat) (js : List Nat) : St :=
  { s with hand := upd s.hand w js, started := j :: s.started, loc := upd s.loc j .started }

/-- Who takes a step. No code. -/
inductive Actor where
  | worker (w : Nat)
  | submit (j : Nat)
  | dtor
  deriving DecidableEq

/-- busy_pool.hpp:71-115,194,201-210, unit_pool.hpp:38-82. -/
inductive Step (c : Cfg) : Actor → St → St → Prop
  | chkNo (s : St) (w : Nat) : w < c.N → s.pc w = .chk → s.stop = false → Step c (.worker w) s (s.go w .pop)
  | chkYes (s : St) (w : Nat) : w < c.N → s.pc w = .chk → s.stop = true → Step c (.worker w) s (s.go w .dpop)
  | popSome (s : St) (w : Nat) : w < c.N → s.pc w = .pop → s.inbox w ≠ [] → Step c (.worker w) s (doPop s w .run)
  /-- busy_pool.hpp:102 follows -/
  | popNone (s : St) (w : Nat) : w < c.N → s.pc w = .pop → s.inbox w = [] → c.unit = false → Step c (.worker w) s (s.go w .steal)
  /-- unit_pool.hpp:48 follows -/
  | popNoneU (s : St) (w : Nat) : w < c.N → s.pc w = .pop → s.inbox w = [] → c.unit = true → Step c (.worker w) s (s.go w .chk)
  | run (s : St) (w j : Nat) (js : List Nat) : w < c.N → s.pc w = .run → s.hand w = j :: js → Step c (.worker w) s (doRun s w j js)
  | runEnd (s : St) (w : Nat) : w < c.N → s.pc w = .run → s.hand w = [] → Step c (.worker w) s (s.go w .chk)
  | stealSome (s : St) (w : Nat) : w < c.N → s.pc w = .steal → Step c (.worker w) s (s.go w .task)
  | stealNone (s : St) (w : Nat) : w < c.N → s.pc w = .steal → Step c (.worker w) s (s.go w .chk)
  | task (s : St) (w : Nat) : w < c.N → s.pc w = .task → Step c (.worker w) s (s.go w .chk)
  | dpopSome (s : St) (w : Nat) : w < c.N → s.pc w = .dpop → s.inbox w ≠ [] → Step c (.worker w) s (doPop s w .drun)
  | dpopNone (s : St) (w : Nat) : w < c.N → s.pc w = .dpop → s.inbox w = [] → c.unit = false → Step c (.worker w) s (s.go w .fin1)
  /-- unit_pool.hpp:42: nothing is awaited before the context is finalised -/
  | dpopNoneU (s : St) (w : Nat) : w < c.N → s.pc w = .dpop → s.inbox w = [] → c.unit = true → Step c (.worker w) s (s.go w .fin4)
  | drun (s : St) (w j : Nat) (js : List Nat) : w < c.N → s.pc w = .drun → s.hand w = j :: js → Step c (.worker w) s (doRun s w j js)
  | drunEnd (s : St) (w : Nat) : w < c.N → s.pc w = .drun → s.hand w = [] → Step c (.worker w) s (s.go w .dpop)
  | fin1 (s : St) (w : Nat) : w < c.N → s.pc w = .fin1 → Step c (.worker w) s { s.go w .fin2 with stop := true }
  | fin2 (s : St) (w : Nat) : w < c.N → s.pc w = .fin2 → Step c (.worker w) s { s.go w .fin3 with latch := s.latch - 1 }
  | fin3 (s : St) (w : Nat) : w < c.N → s.pc w = .fin3 → s.latch = 0 → Step c (.worker w) s (s.go w .fin4)
  /-- busy_pool.hpp:194, unit_pool.hpp:72, core/ext/context.hpp:72: the job is put in the list of worker `w`. -/
  | push (s : St) (j w : Nat) : s.sent j = false → w < c.N →
      Step c (.submit j) s { s with
        inbox := upd s.inbox w (j :: s.inbox w), sent := upd s.sent j true, loc := upd s.loc j (.inbox w)
        stopAt := upd s.stopAt j s.stop }
  /-- busy_pool.hpp:204, unit_pool.hpp:78 -/
  | dstop (s : St) : s.dpc = .alive → Step c .dtor s { s with stop := true, dpc := .joining }
  /-- busy_pool.hpp:206-208, unit_pool.hpp:79 -/
  | djoin (s : St) : s.dpc = .joining → (∀ w, w < c.N → s.pc w = .fin4) → Step c .dtor s { s with dpc := .gone }

/-- After the constructor. busy_pool.hpp:160-192. -/
def St.start (c : Cfg) : St where
  stop := false
  latch := c.N
  inbox _ := []
  pc _ := .chk
  hand _ := []
  sent _ := false
  dpc := .alive
  started := []
  loc _ := .unsent
  stopAt _ := false

/-- The actor can take a step and is obliged to. No code: the fairness assumption. -/
def Ready (c : Cfg) (s : St) : Actor → Prop
  | .worker w => w < c.N ∧ s.pc w ≠ .fin4 ∧ (s.pc w = .fin3 → s.latch = 0)
  | .submit _ => False
  | .dtor => s.dpc = .joining ∧ ∀ w, w < c.N → s.pc w = .fin4

/-- The pool as a transition system. No code: busy_pool.hpp as a whole. -/
def sys (c : Cfg) : Fair.Sys St Actor where
  init s := s = St.start c
  step := Step c
  ready := Ready c

end Verif.Pool
