import Verif.Weak.Mem
import Verif.EventCount.Count

/-!
C50: construction and destruction of `busy_pool` and `lazy_pool` under the C++ memory model. Model of the constructors and destructors
(include/libfork/schedule/busy_pool.hpp:158-209, lazy_pool.hpp:327-394), of the beginning and the end of the workers' functions
(busy_pool.hpp:72-112, lazy_pool.hpp:137-169) and of the uses of a worker's context pointer (impl/numa_context.hpp:100-192) on the view
machine of `Weak/Mem.lean`.

Threads 0 to `N - 1` are the workers, thread `N` is the one that owns the pool object (or several that hand it on with proper
synchronisation).

* `ctx i` is `m_context` of worker `i` (numa_context.hpp:62), a plain pointer: 0 is null.
* `start` and `stopL` are the latches (busy_pool.hpp:57, 61). `arrive_and_wait` is a release decrement and then an acquire load that reads 0;
  loads that read something else are repeated and are not shown.
* `flag` is `stop` (busy_pool.hpp:65).
* A thread's accesses of `ctx j` also write the ghost location `rd t j`, so that a write of `ctx j` that does not happen after all
  reads is seen to be a data race.

What a worker does in its loop is arbitrary: it may use the context of any worker at any time (`try_steal`, `try_pop_all`, or a
task that calls `schedule` of the pool).
-/
namespace Verif.Weak.Start
open Verif.EventCount (num)

/-- busy_pool.hpp:46-66: the shared variables. -/
inductive Loc where
  | start | stopL | flag | ctx (i : Nat) | rd (t i : Nat)
  deriving DecidableEq

/-- Where a worker is. busy_pool.hpp:71-115. -/
inductive WPc where
  | unborn
  | init      -- numa_context.hpp:117, `m_context = worker_init(...)`
  | arrive    -- busy_pool.hpp:84, lazy_pool.hpp:162
  | wait
  | loop
  | drain     -- after it has seen `stop`
  | leave     -- busy_pool.hpp:88, lazy_pool.hpp:166
  | arrive2   -- busy_pool.hpp:89, lazy_pool.hpp:167
  | wait2
  | fin       -- busy_pool.hpp:90, lazy_pool.hpp:168, numa_context.hpp:157
  | done
  deriving DecidableEq

/-- Where the owner is. busy_pool.hpp:160-210. -/
inductive MPc where
  | spawn (k : Nat)   -- busy_pool.hpp:176-178: about to create worker k
  | arrive            -- busy_pool.hpp:182
  | wait
  | read (k : Nat)    -- busy_pool.hpp:186-188: about to push the context of worker k
  | up                -- constructed
  | join (k : Nat)    -- busy_pool.hpp:206-208
  | gone              -- destroyed
  deriving DecidableEq

/-- busy_pool.hpp:46-66, memory, and where each thread is. -/
structure St where
  mem : Mem Loc
  tv : Nat → TV Loc
  wpc : Nat → WPc
  mpc : MPc
  /-- `m_contexts`. -/
  got : List Int
  /-- A data race, or a null context was used. -/
  ub : Bool

/-- No code: function update. -/
def upd {α : Type} (f : Nat → α) (w : Nat) (x : α) : Nat → α := fun u => if u = w then x else f u

/-- busy_pool.hpp:160-175. -/
def St.init (N : Nat) : St :=
  { mem := .init fun l => match l with | .start => N + 1 | .stopL => N | _ => 0
    tv := fun _ => .init, wpc := fun _ => .unborn, mpc := .spawn 0, got := [], ub := false }

/-- The current value of a location. No code: the memory model. -/
def St.val (s : St) (l : Loc) : Int := s.mem.val l (s.mem.last l)

/-- No code: the memory model. -/
def St.knows (s : St) (t : Nat) (l : Loc) : Prop := (s.tv t).cur l = s.mem.last l

/-- A plain write. No code: the memory model. -/
def St.write (s : St) (t : Nat) (l : Loc) (v : Int) : St :=
  { s with mem := s.mem.store (s.tv t) l v false, tv := upd s.tv t ((s.tv t).bump s.mem l) }

/-- A release read-modify-write. No code: the memory model. -/
def St.rmw (s : St) (t : Nat) (l : Loc) (v : Int) : St :=
  { s with mem := s.mem.rmwRel (s.tv t) l v, tv := upd s.tv t ((s.tv t).rmwRel s.mem l) }

/-- An acquire load of message `k`. No code: the memory model. -/
def St.look (s : St) (t : Nat) (l : Loc) (k : Nat) : St :=
  { s with tv := upd s.tv t ((s.tv t).read s.mem l k true) }

/-- Thread `t` learns what thread `u` knows: the creation of a thread and `std::thread::join`. busy_pool.hpp:175-185,201-209. -/
def St.learn (s : St) (t u : Nat) : St :=
  { s with tv := upd s.tv t { s.tv t with cur := Weak.join (s.tv t).cur (s.tv u).cur, acq := Weak.join (s.tv t).acq (s.tv u).cur } }

/-- Worker `i` goes on at `p`. No code. -/
def St.w (s : St) (i : Nat) (p : WPc) : St := { s with wpc := upd s.wpc i p }

/-- The owner goes on at `p`. No code. -/
def St.m (s : St) (p : MPc) : St := { s with mpc := p }

/-- No code: undefined behaviour. -/
def St.bad (s : St) : St := { s with ub := true }

/-- busy_pool.hpp:71-115,160-210. -/
inductive Step (N : Nat) : St → St → Prop where
  -- the constructor
  | spawn {s k} : s.mpc = .spawn k → k < N → Step N s (((s.learn k N).w k .init).m (.spawn (k + 1)))
  | spawned {s} : s.mpc = .spawn N → Step N s (s.m .arrive)
  | marrive {s} : s.mpc = .arrive → Step N s ((s.rmw N .start (s.val .start - 1)).m .wait)
  | mwake {s} (k : Nat) : s.mpc = .wait → CanRead s.mem (s.tv N) .start k → s.mem.val .start k = 0 →
      Step N s ((s.look N .start k).m (.read 0))
  /-- busy_pool.hpp:187, numa_context.hpp:162. -/
  | mread {s k} : s.mpc = .read k → k < N → s.knows N (.ctx k) →
      Step N s { (s.write N (.rd N k) 0).m (.read (k + 1)) with got := s.got ++ [s.val (.ctx k)] }
  | mreadRace {s k} : s.mpc = .read k → k < N → ¬ s.knows N (.ctx k) → Step N s s.bad
  | built {s} : s.mpc = .read N → Step N s (s.m .up)
  -- the owner uses the pool: busy_pool.hpp:194, numa_context.hpp:167
  | schedule {s} (j : Nat) : s.mpc = .up → j < N → s.knows N (.ctx j) → s.val (.ctx j) ≠ 0 → Step N s (s.write N (.rd N j) 0)
  | scheduleBad {s} (j : Nat) : s.mpc = .up → j < N → ¬ (s.knows N (.ctx j) ∧ s.val (.ctx j) ≠ 0) → Step N s s.bad
  -- the destructor
  | stop {s} : s.mpc = .up → Step N s ((s.rmw N .flag 1).m (.join 0))
  | join {s k} : s.mpc = .join k → k < N → s.wpc k = .done → Step N s ((s.learn N k).m (.join (k + 1)))
  | joined {s} : s.mpc = .join N → Step N s (s.m .gone)
  -- a worker
  | init {s} (i : Nat) : i < N → s.wpc i = .init → s.knows i (.ctx i) → Step N s ((s.write i (.ctx i) (i + 1)).w i .arrive)
  | initRace {s} (i : Nat) : i < N → s.wpc i = .init → ¬ s.knows i (.ctx i) → Step N s s.bad
  | arrive {s} (i : Nat) : i < N → s.wpc i = .arrive → Step N s ((s.rmw i .start (s.val .start - 1)).w i .wait)
  | wake {s} (i k : Nat) : i < N → s.wpc i = .wait → CanRead s.mem (s.tv i) .start k → s.mem.val .start k = 0 →
      Step N s ((s.look i .start k).w i .loop)
  /-- numa_context.hpp:167, 174, 191-192. -/
  | use {s} (i j : Nat) : i < N → j < N → s.wpc i = .loop ∨ s.wpc i = .drain → s.knows i (.ctx j) → s.val (.ctx j) ≠ 0 →
      Step N s (s.write i (.rd i j) 0)
  | useBad {s} (i j : Nat) : i < N → j < N → s.wpc i = .loop ∨ s.wpc i = .drain → ¬ (s.knows i (.ctx j) ∧ s.val (.ctx j) ≠ 0) →
      Step N s s.bad
  /-- busy_pool.hpp:95, lazy_pool.hpp:237: the flag is seen. -/
  | see {s} (i k : Nat) : i < N → s.wpc i = .loop → CanRead s.mem (s.tv i) .flag k → s.mem.val .flag k ≠ 0 →
      Step N s ((s.look i .flag k).w i .drain)
  | leave {s} (i : Nat) : i < N → s.wpc i = .drain → Step N s (s.w i .leave)
  | flag {s} (i : Nat) : i < N → s.wpc i = .leave → Step N s ((s.rmw i .flag 1).w i .arrive2)
  | arrive2 {s} (i : Nat) : i < N → s.wpc i = .arrive2 → Step N s ((s.rmw i .stopL (s.val .stopL - 1)).w i .wait2)
  | wake2 {s} (i k : Nat) : i < N → s.wpc i = .wait2 → CanRead s.mem (s.tv i) .stopL k → s.mem.val .stopL k = 0 →
      Step N s ((s.look i .stopL k).w i .fin)
  /-- numa_context.hpp:157: `std::exchange(m_context, nullptr)`. -/
  | finalise {s} (i : Nat) : i < N → s.wpc i = .fin → s.knows i (.ctx i) → (∀ t, t ≤ N → s.knows i (.rd t i)) →
      Step N s ((s.write i (.ctx i) 0).w i .done)
  | finaliseRace {s} (i : Nat) : i < N → s.wpc i = .fin → ¬ (s.knows i (.ctx i) ∧ ∀ t, t ≤ N → s.knows i (.rd t i)) → Step N s s.bad

/-- No code: reachability. -/
inductive Reach (N : Nat) : St → Prop where
  | init : Reach N (.init N)
  | step {s s'} : Reach N s → Step N s s' → Reach N s'

end Verif.Weak.Start
