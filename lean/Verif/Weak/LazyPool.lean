import Verif.Weak.Mem
import Verif.EventCount.Word

/-!
C42: the counters and event counts of lazy_pool on the view machine, with the memory orders of the source. Model of
`thief_work_sleep` (lazy_pool.hpp:93-133) and of the loop of `lazy_work` (lazy_pool.hpp:194-278). Workers are numbered, worker
`w` is in domain `dom w`; there are `D` domains.

Simplifications: whether a worker finds work (lazy_pool.hpp:204, 208, 230) is arbitrary; the stop flag stays clear; resuming a task
is one step. Every read-modify-write is taken as acquire-release although lazy_pool.hpp:132, 199 are release only: that leaves out
executions and adds none, so what is shown possible is possible for the code. The event count is one location holding epoch and
number of waiters as in Verif.EventCount; `atomic::wait` (event_count.hpp:209) is the load of the epoch: the thread blocks if it reads
its key. Being woken up needs a change of the epoch.
-/
namespace Verif.Weak.LP
open Verif.EventCount (addEpoch addWaiter subWaiter epochOf waitersOf)

/-- lazy_pool.hpp:76, 80, 86. -/
inductive Loc where
  | thief (d : Nat) | word (d : Nat) | active
  deriving DecidableEq

/-- Where a worker is: the next access it makes; names as in Verif.LazyPool. lazy_pool.hpp:97-290. -/
inductive Pc where
  | wake                   -- :199 thief.fetch_add(1, release)
  | search                 -- :204-211
  | prep                   -- :228 prepare_wait
  | pop2                   -- :230
  | dec                    -- :262 thief.fetch_sub(1, acq_rel)
  | chk                    -- :266 active.load(acquire)
  | cancel (work : Bool)   -- :232 / :268 cancel_wait, then :233 or :269
  | look                   -- :276 the load of `wait`
  | asleep                 -- :276 blocked
  | leave                  -- :276 the end of `wait`
  | tws1                   -- :110 thief.fetch_sub(1, acq_rel)
  | tws2                   -- :111 notify_one
  | act                    -- :121 active.fetch_add(1, acq_rel)
  | scan (i : Nat)         -- :123 domain.thief.load(acquire)
  | sc2 (i : Nat)          -- :124 notify_one
  | work                   -- :129 resume
  | deact                  -- :132 active.fetch_sub(1, release)
  deriving DecidableEq

/-- lazy_pool.hpp:63-86, event_count.hpp:175, memory, and where each worker is. -/
structure St where
  mem : Mem Loc
  tv : Nat → TV Loc
  pc : Nat → Pc
  key : Nat → Nat

/-- All counters 0 (lazy_pool.hpp:76, 86, event_count.hpp:174); every worker has passed `latch_start` (lazy_pool.hpp:165), before
which nobody wrote to the counters. -/
def St.init : St := { mem := .init fun _ => 0, tv := fun _ => .init, pc := fun _ => .wake, key := fun _ => 0 }

/-- No code: function update. -/
def upd {α : Type} (f : Nat → α) (w : Nat) (x : α) : Nat → α := fun u => if u = w then x else f u

/-- Worker `w` performs a read-modify-write on `l` and goes on at `p`. No code: the memory model. -/
def St.rmw (s : St) (w : Nat) (l : Loc) (f : Int → Int) (p : Pc) : St :=
  { s with
    mem := s.mem.rmw (s.tv w) l (f (s.mem.val l (s.mem.last l)))
    tv := upd s.tv w ((s.tv w).rmw s.mem l)
    pc := upd s.pc w p }

/-- Worker `w` reads message `i` of `l` with an acquire load and goes on at `p`. No code: the memory model. -/
def St.load (s : St) (w : Nat) (l : Loc) (i : Nat) (p : Pc) : St :=
  { s with tv := upd s.tv w ((s.tv w).read s.mem l i true), pc := upd s.pc w p }

/-- No code: worker `w` goes on at `p`. -/
def St.go (s : St) (w : Nat) (p : Pc) : St := { s with pc := upd s.pc w p }

/-- The current value of an atomic: that of the last message. No code. -/
def St.cur (s : St) (l : Loc) : Int := s.mem.val l (s.mem.last l)

/-- The functions of Verif.EventCount on words, as functions on message values. event_count.hpp:178-216. -/
def onWord (f : Nat → Nat) (v : Int) : Int := (f v.toNat : Nat)

/-- One step of worker `w`. lazy_pool.hpp:97-290, event_count.hpp:178-216. -/
inductive Step (D : Nat) (dom : Nat → Nat) (w : Nat) : St → St → Prop where
  | wake {s} : s.pc w = .wake → Step D dom w s (s.rmw w (.thief (dom w)) (· + 1) .search)
  | found {s} : s.pc w = .search → Step D dom w s (s.go w .tws1)
  | nothing {s} : s.pc w = .search → Step D dom w s (s.go w .prep)
  | prep {s} : s.pc w = .prep →
      Step D dom w s { s.rmw w (.word (dom w)) (onWord addWaiter) .pop2 with
        key := upd s.key w (epochOf (s.cur (.word (dom w))).toNat) }
  | pop2 {s} : s.pc w = .pop2 → Step D dom w s (s.go w (.cancel true))
  | pop2none {s} : s.pc w = .pop2 → Step D dom w s (s.go w .dec)
  | cancel {s b} : s.pc w = .cancel b →
      Step D dom w s (s.rmw w (.word (dom w)) (onWord subWaiter) (if b then .tws1 else .wake))
  | dec {s} : s.pc w = .dec →
      Step D dom w s (s.rmw w (.thief (dom w)) (· - 1) (if s.cur (.thief (dom w)) = 1 then .chk else .look))
  | chk {s i} : s.pc w = .chk → CanRead s.mem (s.tv w) .active i →
      Step D dom w s (s.load w .active i (if s.mem.val .active i > 0 then .cancel false else .look))
  | look {s i} : s.pc w = .look → CanRead s.mem (s.tv w) (.word (dom w)) i →
      Step D dom w s (s.load w (.word (dom w)) i
        (if epochOf (s.mem.val (.word (dom w)) i).toNat = s.key w then .asleep else .leave))
  | woken {s} : s.pc w = .asleep → epochOf (s.cur (.word (dom w))).toNat ≠ s.key w → Step D dom w s (s.go w .leave)
  | leave {s} : s.pc w = .leave → Step D dom w s (s.rmw w (.word (dom w)) (onWord subWaiter) .wake)
  | tws1 {s} : s.pc w = .tws1 →
      Step D dom w s (s.rmw w (.thief (dom w)) (· - 1) (if s.cur (.thief (dom w)) = 1 then .tws2 else .act))
  | tws2 {s} : s.pc w = .tws2 → Step D dom w s (s.rmw w (.word (dom w)) (onWord addEpoch) .act)
  | act {s} : s.pc w = .act → Step D dom w s (s.rmw w .active (· + 1) (if s.cur .active = 0 then .scan 0 else .work))
  | scan {s i k} : s.pc w = .scan k → k < D → CanRead s.mem (s.tv w) (.thief k) i →
      Step D dom w s (s.load w (.thief k) i (if s.mem.val (.thief k) i = 0 then .sc2 k else .scan (k + 1)))
  | sc2 {s k} : s.pc w = .sc2 k → Step D dom w s (s.rmw w (.word k) (onWord addEpoch) (.scan (k + 1)))
  | scanned {s k} : s.pc w = .scan k → ¬ k < D → Step D dom w s (s.go w .work)
  | work {s} : s.pc w = .work → Step D dom w s (s.go w .deact)
  | deact {s} : s.pc w = .deact → Step D dom w s (s.rmw w .active (· - 1) .wake)

/-- No code: reachability. -/
inductive Reach (N D : Nat) (dom : Nat → Nat) : St → Prop where
  | init : Reach N D dom .init
  | step {s s' w} : Reach N D dom s → w < N → Step D dom w s s' → Reach N D dom s'

/-- The state the invariant of lazy_pool.hpp:190 excludes: worker `a` runs a task, worker `v` sleeps, nobody in its domain
searches, and nothing is under way that could wake anyone: the only worker that can take a step at all is `a`, by finishing its
task. -/
def Unwatched (N : Nat) (dom : Nat → Nat) (s : St) (a v : Nat) : Prop :=
  a < N ∧ v < N ∧ s.pc a = .work ∧ s.pc v = .asleep ∧ (∀ u, u < N → dom u = dom v → s.pc u ≠ .search) ∧
  s.cur (.thief (dom v)) = 0 ∧ s.cur .active = 1 ∧
  ∀ u, u < N → ∀ D s', Step D dom u s s' → u = a

instance {L : Type} [DecidableEq L] (m : Mem L) (tv : TV L) (l : L) (i : Nat) : Decidable (CanRead m tv l i) :=
  inferInstanceAs (Decidable (_ ∧ _))

/-- One domain per worker. No code: an example. -/
def twoDom : Nat → Nat := id

set_option maxRecDepth 4000 in
/-- **C42 is false of the code.** Two workers in two domains. Worker 1, the last thief of its domain, gives up: it decrements
`thief` and reads `active`. Worker 0 has found a task: it increments `active` and reads `thief` of domain 1. With acquire-release
orders both may miss the other's write (store buffering): worker 1 sleeps, worker 0 notifies nobody. -/
theorem lazy_pool_watch_violates : ∃ s, Reach 2 2 twoDom s ∧ Unwatched 2 twoDom s 0 1 := by
  have r := Reach.init (N := 2) (D := 2) (dom := twoDom)
  replace r := r.step (w := 0) (by decide) (.wake rfl)
  replace r := r.step (w := 1) (by decide) (.wake rfl)
  replace r := r.step (w := 0) (by decide) (.found rfl)
  replace r := r.step (w := 1) (by decide) (.nothing rfl)
  replace r := r.step (w := 1) (by decide) (.prep rfl)
  replace r := r.step (w := 1) (by decide) (.pop2none rfl)
  replace r := r.step (w := 0) (by decide) (.tws1 rfl)
  replace r := r.step (w := 0) (by decide) (.tws2 rfl)
  replace r := r.step (w := 1) (by decide) (.dec rfl)
  replace r := r.step (w := 0) (by decide) (.act rfl)
  replace r := r.step (w := 0) (by decide) (.scan (i := 2) rfl (by decide) (by decide +kernel))
  replace r := r.step (w := 0) (by decide) (.sc2 rfl)
  replace r := r.step (w := 0) (by decide) (.scan (i := 1) rfl (by decide) (by decide +kernel))
  replace r := r.step (w := 0) (by decide) (.scanned rfl (by decide))
  replace r := r.step (w := 1) (by decide) (.chk (i := 0) rfl (by decide +kernel))
  replace r := r.step (w := 1) (by decide) (.look (i := 1) rfl (by decide +kernel))
  refine ⟨_, r, by decide, by decide, by decide +kernel, by decide +kernel, ?_, by decide +kernel, by decide +kernel, ?_⟩
  · decide +kernel
  · intro u hu D s' st
    generalize hs : St.load _ _ _ _ _ = s at st
    have h1 : s.pc 1 = .asleep := by rw [← hs]; decide +kernel
    have h2 : epochOf (s.cur (.word (twoDom 1))).toNat = s.key 1 := by rw [← hs]; decide +kernel
    clear hs r
    have h3 : u = 0 ∨ u = 1 := by omega
    rcases h3 with rfl | rfl
    · rfl
    · exfalso
      cases st <;> simp_all

end Verif.Weak.LP
