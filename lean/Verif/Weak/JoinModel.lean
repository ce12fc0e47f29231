import Verif.Weak.Mem

/-!
C43: the join of a task and its forked children under the C++ memory model. Model of `join_awaitable`
(include/libfork/core/impl/awaitables.hpp:410-500), the stolen branch of `final_await_suspend`
(include/libfork/core/impl/promise.hpp:54-139) and `frame::reset` (include/libfork/core/impl/frame.hpp:206-215) on the view machine
of `Weak/Mem.lean`, for one task that goes through any number of fork-join scopes with any number of children.

The task's continuation is a logical thread `p`: it may move from one worker to another, whenever it is stolen. A child whose parent
was stolen is a logical thread. What moves with the program: at a fork the child starts with the view of the task (the same worker
goes on), and the worker that steals the continuation has at least the view the task had at the fork (that is the subject of C41 and
C44). Children whose parent is not stolen run on the task's own worker and are part of the task here. Both kinds of thread may learn
about any messages at any time (`psync`, `csync`): they use other synchronisation, among it the joins of their own children.

`data n` are the memory cells of the program: results, exceptions, captured variables. A write needs to know the last
write to the cell (otherwise there is a data race and no C++ semantics).

`m_steal` is changed and read by the task only. 16-bit counters: at most 65534 steals in one scope (C10 is about what
happens beyond); then no subtraction wraps and integers are exact.
-/
namespace Verif.Weak.Join

/-- frame.hpp:73 `m_join`, and the cells of the program. -/
inductive Loc where
  | join | data (n : Nat)
  deriving DecidableEq

/-- `k_u16_max` (utility.hpp). -/
def kMax : Int := 65535

/-- Where the task is. awaitables.hpp:410-508. -/
inductive PPc where
  | body      -- in a fork-join scope
  | check     -- awaitables.hpp:439 load_joins(acquire)
  | susp      -- awaitables.hpp:463 fetch_sub_joins(k_u16_max - steals, release)
  | fence     -- awaitables.hpp:468 fence(acquire)
  | parked    -- awaitables.hpp:473: lost the join race
  | ready     -- about to reset the frame and to go on: awaitables.hpp:443, 470, promise.hpp:112
  deriving DecidableEq

/-- Where a child is. promise.hpp:49-130. -/
inductive CPc where
  | unborn
  | run       -- before promise.hpp:92
  | last      -- promise.hpp:94 fence(acquire)
  | done
  deriving DecidableEq

/-- frame.hpp:73-80, memory, and where each thread is. -/
structure St where
  mem : Mem Loc
  ptv : TV Loc
  ppc : PPc
  /-- frame.hpp:77 `m_steal` -/
  steals : Nat
  ctv : Nat → TV Loc
  cpc : Nat → CPc
  /-- Ghost: the children of the current scope that have not / have decremented `m_join`. -/
  live : List Nat
  fin : List Nat
  /-- Ghost: the position of the message that initialised `m_join` for the current scope. -/
  base : Nat
  /-- Ghost: the task has executed its `fetch_sub` of this scope. -/
  sub : Bool
  /-- Ghost: what the task knew when it arrived at the join. -/
  pold : View Loc

/-- A fresh frame (frame.hpp:73, 77); the cells contain anything. -/
def St.init (v : Nat → Int) : St :=
  { mem := .init fun l => match l with | .join => kMax | .data n => v n
    ptv := .init, ppc := .body, steals := 0, ctv := fun _ => .init, cpc := fun _ => .unborn
    live := [], fin := [], base := 0, sub := false, pold := fun _ => 0 }

/-- No code: function update. -/
def upd {α : Type} (f : Nat → α) (w : Nat) (x : α) : Nat → α := fun u => if u = w then x else f u

/-- A thread learns about messages. No code: the memory model. -/
def learn (tv : TV Loc) (w : View Loc) : TV Loc := { tv with cur := Weak.join tv.cur w, acq := Weak.join tv.acq w }

/-- awaitables.hpp:410-508, promise.hpp:73-130. -/
inductive Step : St → St → Prop where
  -- the task in its scope
  | pwrite {s} (n : Nat) (v : Int) : s.ppc = .body → s.ptv.cur (.data n) = s.mem.last (.data n) →
      Step s { s with mem := s.mem.store s.ptv (.data n) v false, ptv := s.ptv.bump s.mem (.data n) }
  | psync {s} (w : View Loc) : s.ppc = .body → s.mem.Valid w → Step s { s with ptv := learn s.ptv w }
  /-- A fork whose continuation is stolen (awaitables.hpp:252; the thief increments `m_steal`, resume.hpp:71). -/
  | fork {s} (i : Nat) : s.ppc = .body → s.cpc i = .unborn → s.steals < 65534 →
      Step s { s with
        steals := s.steals + 1, cpc := upd s.cpc i .run, ctv := upd s.ctv i s.ptv, live := i :: s.live }
  -- a child
  | cwrite {s} (i n : Nat) (v : Int) : s.cpc i = .run → (s.ctv i).cur (.data n) = s.mem.last (.data n) →
      Step s { s with
        mem := s.mem.store (s.ctv i) (.data n) v false, ctv := upd s.ctv i ((s.ctv i).bump s.mem (.data n)) }
  | csync {s} (i : Nat) (w : View Loc) : s.cpc i = .run → s.mem.Valid w →
      Step s { s with ctv := upd s.ctv i (learn (s.ctv i) w) }
  /-- promise.hpp:92: `fetch_sub_joins(1, release) == 1`? -/
  | dec {s} (i : Nat) : s.cpc i = .run →
      Step s { s with
        mem := s.mem.rmwRel (s.ctv i) .join (s.mem.val .join (s.mem.last .join) - 1)
        ctv := upd s.ctv i ((s.ctv i).rmwRel s.mem .join)
        cpc := upd s.cpc i (if s.mem.val .join (s.mem.last .join) = 1 then .last else .done)
        live := s.live.erase i, fin := i :: s.fin }
  /-- promise.hpp:94-114: fence(acquire), and the child's worker resumes the parent. -/
  | win {s} (i : Nat) : s.cpc i = .last →
      Step s { s with ptv := (s.ctv i).fenceAcq, ppc := .ready, cpc := upd s.cpc i .done }
  -- join
  /-- awaitables.hpp:427-431: no steals. -/
  | ready0 {s} : s.ppc = .body → s.steals = 0 → Step s { s with ppc := .ready, pold := s.ptv.cur }
  /-- awaitables.hpp:427. -/
  | await {s} : s.ppc = .body → s.steals ≠ 0 → Step s { s with ppc := .check, pold := s.ptv.cur }
  /-- awaitables.hpp:439-447. -/
  | check {s} (j : Nat) : s.ppc = .check → CanRead s.mem s.ptv .join j →
      Step s { s with
        ptv := s.ptv.read s.mem .join j true
        ppc := if (s.steals : Int) = kMax - s.mem.val .join j then .ready else .susp }
  /-- awaitables.hpp:462-473. -/
  | susp {s} : s.ppc = .susp →
      Step s { s with
        mem := s.mem.rmwRel s.ptv .join (s.mem.val .join (s.mem.last .join) - (kMax - s.steals))
        ptv := s.ptv.rmwRel s.mem .join, sub := true
        ppc := if (s.steals : Int) = kMax - s.mem.val .join (s.mem.last .join) then .fence else .parked }
  /-- awaitables.hpp:468. -/
  | fence {s} : s.ppc = .fence → Step s { s with ptv := s.ptv.fenceAcq, ppc := .ready }
  /-- awaitables.hpp:430: nothing to reset. -/
  | resume0 {s} : s.ppc = .ready → s.steals = 0 → Step s { s with ppc := .body }
  /-- frame.hpp:206-215 `reset` (a plain store), then the task goes on. -/
  | reset {s} : s.ppc = .ready → s.steals ≠ 0 →
      Step s { s with
        mem := s.mem.store s.ptv .join kMax false, ptv := s.ptv.bump s.mem .join, ppc := .body
        steals := 0, live := [], fin := [], base := s.mem.len .join, sub := false }

/-- No code: reachability. -/
inductive Reach : St → Prop where
  | init (v : Nat → Int) : Reach (.init v)
  | step {s s'} : Reach s → Step s s' → Reach s'

end Verif.Weak.Join
