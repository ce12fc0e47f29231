/-
Model of the thread-local worker state (include/libfork/core/ext/tls.hpp) and of `schedule`
(include/libfork/core/sync_wait.hpp:246-287), with a failure injected at any of their allocation points.

A stack is its block of memory ("stacklet", all of these functions use only the first one): a number drawn from a counter,
`blocks` are the ones allocated and not freed. Objects in `manual_lifetime` storage are `Option`s: constructing over a
live object loses it, destroying a dead object is undefined behaviour (`ub`). A failed LF_ASSERT sets `assertFailed` and the
release build goes on.
-/
namespace Verif.Core.Tls

/-- The thread-local state of one thread and the memory it uses. tls.hpp:33-62. -/
structure T where
  hasStack : Bool                 -- tls.hpp:33
  hasContext : Bool               -- tls.hpp:50
  stack : Option Nat              -- tls.hpp:40-46 thread_stack: its block
  context : Option Nat            -- tls.hpp:57-61 thread_context
  blocks : List Nat               -- live stack blocks
  contexts : List Nat             -- live contexts
  shared : Nat                    -- live shared states (make_shared)
  next : Nat                      -- fresh names
  submitted : List Nat            -- blocks whose root frame has been handed to the scheduler (the worker frees them)
  assertFailed : Bool
  ub : Bool

/-- A thread that has never used libfork. tls.hpp:33-62. -/
def T.fresh : T :=
  { hasStack := false, hasContext := false, stack := none, context := none, blocks := [], contexts := [], shared := 0,
    next := 0, submitted := [], assertFailed := false, ub := false }

/-- manual_lifetime.hpp:42-44 on thread_stack; stack.hpp:208 allocates a block. -/
def T.constructStack (t : T) : T := { t with stack := some t.next, blocks := t.next :: t.blocks, next := t.next + 1 }

/-- manual_lifetime.hpp:60-66 on thread_stack; stack.hpp:248-253 frees the block. -/
def T.destroyStack (t : T) : T :=
  match t.stack with
  | some b => { t with stack := none, blocks := t.blocks.erase b }
  | none => { t with ub := true }

/-- manual_lifetime.hpp:42-44 on thread_context. -/
def T.constructContext (t : T) : T :=
  { t with context := some t.next, contexts := t.next :: t.contexts, next := t.next + 1 }

/-- manual_lifetime.hpp, used in tls.hpp:33-62. -/
def T.destroyContext (t : T) : T :=
  match t.context with
  | some c => { t with context := none, contexts := t.contexts.erase c }
  | none => { t with ub := true }

/-- No code: the outcome of a call. -/
inductive Out where
  | returned          -- normal return
  | threw
deriving DecidableEq

/-! ### tls.hpp:98-122 `worker_init` -/

/-- Which construction throws. No code: the environment. -/
inductive InitFail where
  | none | context | stack
deriving DecidableEq

/-- tls.hpp:98-122. Lines 110-114: the handler of the stack's constructor does not rethrow, so control continues at
line 116. -/
def workerInit (f : InitFail) (t : T) : Out × T :=
  if t.hasContext && t.hasStack then (.threw, t)
  else if f = .context then (.threw, t)
  else
    let t := t.constructContext
    let t := if f = .stack then t.destroyContext else t.constructStack
    (.returned, { t with hasStack := true, hasContext := true })

/-- tls.hpp:136-153; `right` says whether the argument is the calling thread's own context. -/
def finalize (right : Bool) (t : T) : Out × T :=
  if !right then (.threw, t)
  else if !t.hasContext || !t.hasStack then (.threw, t)
  else
    let t := t.destroyContext
    let t := t.destroyStack
    (.returned, { t with hasStack := false, hasContext := false })

/-! ### sync_wait.hpp:246-287 `schedule` -/

/-- Which step throws. No code: the environment. -/
inductive SchedFail where
  | none
  | stack        -- line 257, the stack's first block
  | share        -- line 266, make_shared
  | frame        -- line 271, the root coroutine's frame, or a copy of an argument
  | release      -- line 276, the fresh block of `release`
  | scheduler    -- line 282, the scheduler refuses the task
deriving DecidableEq

/-- Destruction of the unsubmitted root task, allocated in block `b` (unique_frame.hpp:24-26; promise.hpp:166 checks
that the block is the current stack's top; stack.hpp:308-337 resets the current stack's pointer). -/
def T.destroyFrame (b : Nat) (t : T) : T :=
  if t.stack = some b then t else { t with assertFailed := true }

/-- sync_wait.hpp:261-264, the deferred clean-up. -/
def T.deferred (t : T) : T := { t.destroyStack with hasStack := false }

/-- sync_wait.hpp:249-287. On an exception the locals are destroyed in reverse order: `await`, `share_state`, then the
deferred clean-up. -/
def schedule (f : SchedFail) (t : T) : Out × T :=
  if t.hasStack || t.hasContext then (.threw, t)
  else if f = .stack then (.threw, t)
  else
    let t := { t.constructStack with hasStack := true }
    if f = .share then (.threw, t.deferred)
    else
      let t := { t with shared := t.shared + 1 }
      if f = .frame then (.threw, ({ t with shared := t.shared - 1 } : T).deferred)
      else
        match t.stack with
        | none => (.threw, { t with ub := true })
        | some b =>
          if f = .release then
            (.threw, ({ t.destroyFrame b with shared := t.shared - 1 } : T).deferred)
          else
            -- release(): the block is no longer the stack's, a fresh one takes its place
            let t := t.constructStack
            if f = .scheduler then
              (.threw, ({ t.destroyFrame b with shared := t.shared - 1 } : T).deferred)
            else
              (.returned, ({ t with submitted := b :: t.submitted } : T).deferred)

/-! ### Specification -/

/-- The flags tell the truth, nothing bad has happened, and every block is the thread's stack or belongs to a submitted
task (so it will be freed). No code: the specification. -/
structure Ok (t : T) : Prop where
  stackFlag : t.hasStack = true ↔ t.stack.isSome = true
  contextFlag : t.hasContext = true ↔ t.context.isSome = true
  noLeak : ∀ b, b ∈ t.blocks ↔ t.stack = some b ∨ b ∈ t.submitted
  noLeakC : ∀ c, c ∈ t.contexts ↔ t.context = some c
  nodup : t.blocks.Nodup ∧ t.contexts.Nodup
  old : ∀ b, b ∈ t.blocks ∨ b ∈ t.contexts ∨ b ∈ t.submitted → b < t.next
  good : t.assertFailed = false ∧ t.ub = false

/-- Observable equality: the same up to fresh names. No code: the specification. -/
def Same (t t' : T) : Prop := { t with next := 0 } = { t' with next := 0 }

theorem fresh_ok : Ok T.fresh := by
  constructor <;> simp [T.fresh]

/-! ### C20 -/

/-- C20, the part that holds: on a thread without libfork state, `worker_init` that does not run out of memory for the
stack either returns with both thread locals constructed, or throws and changes nothing; on an initialised worker it throws
and changes nothing. Missing: the case in which the stack's allocation fails, see `worker_init_bad_alloc_violates`. -/
theorem worker_init_strong_partial {t : T} (h : Ok t) (f : InitFail) (hf : f ≠ .stack) :
    (t.hasContext = true ∧ t.hasStack = true → workerInit f t = (.threw, t)) ∧
    (t.hasContext = false ∧ t.hasStack = false →
      (f = .context → workerInit f t = (.threw, t)) ∧
      (f = .none → (workerInit f t).1 = .returned ∧ Ok (workerInit f t).2 ∧
        (workerInit f t).2.hasStack = true ∧ (workerInit f t).2.hasContext = true)) := by
  obtain ⟨h1, h2, h3, h4, ⟨h5, h5'⟩, h6, h7⟩ := h
  constructor
  · rintro ⟨ha, hb⟩; simp [workerInit, ha, hb]
  · rintro ⟨ha, hb⟩
    refine ⟨fun hc => by simp [workerInit, ha, hb, hc], fun hc => ?_⟩
    have hs : t.stack = none := by simpa [hb] using h1
    have hx : t.context = none := by simpa [ha] using h2
    have hn : ∀ b, b ∈ t.blocks → b ≠ t.next + 1 := fun b hb e => by have := h6 b (.inl hb); omega
    have hn' : ∀ b, b ∈ t.contexts → b ≠ t.next := fun b hb e => by have := h6 b (.inr (.inl hb)); omega
    simp only [workerInit, ha, hb, hc, T.constructContext, T.constructStack]
    refine ⟨rfl, ⟨by simp, by simp, ?_, ?_, ?_, ?_, ?_⟩, rfl, rfl⟩
    · intro b
      simp [h3 b, hs, eq_comm]
    · intro c
      simp [h4 c, hx, eq_comm]
    · exact ⟨by simpa using ⟨fun hm => hn _ hm rfl, h5⟩, by simpa using ⟨fun hm => hn' _ hm rfl, h5'⟩⟩
    · intro b hb
      simp at hb ⊢
      rcases hb with (hb | hb) | (hb | hb) | hb
      · omega
      · have := h6 b (.inl hb); omega
      · omega
      · have := h6 b (.inr (.inl hb)); omega
      · have := h6 b (.inr (.inr hb)); omega
    · exact h7

/-- C20 is violated: if the allocation of the worker's stack fails, `worker_init` returns normally although neither thread
local exists, both flags claim they do, and the returned context pointer dangles. `finalize` on that pointer is then
undefined behaviour. -/
theorem worker_init_bad_alloc_violates :
    ∃ t, Ok t ∧ (workerInit .stack t).1 = .returned ∧ (workerInit .stack t).2.context = none ∧
      (workerInit .stack t).2.stack = none ∧ (workerInit .stack t).2.hasContext = true ∧
      (workerInit .stack t).2.hasStack = true ∧ (finalize true (workerInit .stack t).2).2.ub = true :=
  ⟨T.fresh, fresh_ok, rfl, rfl, rfl, rfl, rfl, rfl⟩

/-- It does so on every thread without libfork state. -/
theorem worker_init_bad_alloc_always {t : T} (h : Ok t) (hs : t.hasStack = false) :
    (workerInit .stack t).1 = .returned ∧ (workerInit .stack t).2.context = none ∧
      (workerInit .stack t).2.hasContext = true := by
  simp [workerInit, hs, T.constructContext, T.destroyContext]

/-- C20 is violated: the "already initialised" test is a conjunction, so a thread that has a stack but no context (one that
is inside `schedule`, whose scheduler initialises a worker on the calling thread) is initialised again: the live stack is
overwritten and its block leaks. -/
theorem worker_init_half_initialised_violates :
    ∃ t, Ok t ∧ t.hasStack = true ∧ (workerInit .none t).1 = .returned ∧ ¬ Ok (workerInit .none t).2 := by
  refine ⟨{ T.fresh.constructStack with hasStack := true }, ?_, rfl, rfl, ?_⟩
  · constructor <;> simp [T.fresh, T.constructStack, eq_comm]
  · intro h
    have := (h.noLeak 0).1 (by decide)
    simp [workerInit, T.fresh, T.constructStack, T.constructContext] at this

/-- C20. `finalize` undoes `worker_init` exactly; on the wrong thread, or before initialisation, it throws and changes
nothing. -/
theorem finalize_undoes_init {t : T} (h : Ok t) (hs : t.hasStack = false) (hc : t.hasContext = false) :
    (finalize true (workerInit .none t).2).1 = .returned ∧ Same (finalize true (workerInit .none t).2).2 t ∧
    finalize true t = (.threw, t) ∧ finalize false t = (.threw, t) := by
  have hs' : t.stack = none := by simpa [hs] using h.stackFlag
  have hx : t.context = none := by simpa [hc] using h.contextFlag
  refine ⟨?_, ?_, ?_, ?_⟩
  · simp [finalize, workerInit, hs, hc, T.constructContext, T.constructStack, T.destroyStack, T.destroyContext]
  · simp [Same, finalize, workerInit, hs, hc, hs', hx, T.constructContext, T.constructStack, T.destroyStack, T.destroyContext]
  · simp [finalize, hs, hc]
  · simp [finalize]

/-- C20. `finalize` on a thread that lacks either of the thread locals, or with a context that is not the thread's, throws and changes nothing. -/
theorem finalize_refused {t : T} {right : Bool} (h : right = false ∨ t.hasContext = false ∨ t.hasStack = false) : finalize right t = (.threw, t) := by
  unfold finalize
  cases right
  · rfl
  · rcases h with h | h | h
    · cases h
    · simp [h]
    · simp [h]

/-- Such a thread: one that is inside `schedule`. -/
example : ∃ t, Ok t ∧ t.hasStack = true ∧ t.hasContext = false := by
  refine ⟨{ T.fresh.constructStack with hasStack := true }, ?_, rfl, rfl⟩
  constructor <;> simp [T.fresh, T.constructStack, eq_comm]

/-! ### C19 -/

/-- C19. Called on a worker thread (or re-entered), `schedule` throws and changes nothing. -/
theorem schedule_in_worker_refused {t : T} (f : SchedFail) (hw : t.hasStack = true ∨ t.hasContext = true) :
    schedule f t = (.threw, t) := by
  rcases hw with h | h <;> simp [schedule, h]

/-- C19. If nothing fails, the task is submitted, the thread-local state is as before, and exactly one block and one shared
state have changed hands. -/
theorem schedule_succeeds {t : T} (h : Ok t) (hs : t.hasStack = false) (hc : t.hasContext = false) :
    (schedule .none t).1 = .returned ∧ Ok (schedule .none t).2 ∧ (schedule .none t).2.hasStack = false ∧
      (schedule .none t).2.hasContext = false ∧ (schedule .none t).2.shared = t.shared + 1 ∧
      ∃ b, b ∉ t.blocks ∧ (schedule .none t).2.submitted = b :: t.submitted ∧
        (schedule .none t).2.blocks = b :: t.blocks := by
  obtain ⟨h1, h2, h3, h4, ⟨h5, h5'⟩, h6, h7⟩ := h
  have hs' : t.stack = none := by simpa [hs] using h1
  have hx : t.context = none := by simpa [hc] using h2
  have hn : t.next ∉ t.blocks := fun hm => by have := h6 _ (.inl hm); omega
  have e : schedule .none t = (.returned, { t with
      blocks := t.next :: t.blocks, shared := t.shared + 1, next := t.next + 2, submitted := t.next :: t.submitted }) := by
    simp [schedule, hs, hc, T.constructStack, T.deferred, T.destroyStack, hs']
  rw [e]
  refine ⟨rfl, ⟨?_, ?_, ?_, ?_, ?_, ?_, h7⟩, hs, hc, rfl, t.next, hn, rfl, rfl⟩
  · simp [hs, hs']
  · simp [hc, hx]
  · intro b
    simp [h3 b, hs']
  · exact h4
  · exact ⟨by simpa using ⟨hn, h5⟩, h5'⟩
  · intro b hb
    simp at hb ⊢
    rcases hb with (hb | hb) | hb | hb | hb
    · omega
    · have := h6 b (.inl hb); omega
    · have := h6 b (.inr (.inl hb)); omega
    · omega
    · have := h6 b (.inr (.inr hb)); omega

/-- C19, the part that holds: a failure before the task is handed to the scheduler (stack, shared state, frame or arguments,
`release`) throws and leaves everything as it was, no assertion fails. Missing: a scheduler that throws, see
`schedule_scheduler_throws_violates`. -/
theorem schedule_failure_partial {t : T} (h : Ok t) (hs : t.hasStack = false) (hc : t.hasContext = false)
    (f : SchedFail) (hf : f ≠ .none) (hf' : f ≠ .scheduler) :
    (schedule f t).1 = .threw ∧ Same (schedule f t).2 t := by
  have hs' : t.stack = none := by simpa [hs] using h.stackFlag
  have hx : t.context = none := by simpa [hc] using h.contextFlag
  cases f <;> simp_all [schedule, Same, T.constructStack, T.deferred, T.destroyStack, T.destroyFrame]

/-- C19 is violated: whenever the scheduler throws, the task is destroyed on the wrong stack (the assertion that checks it
fails) and the block the task lived in is leaked. -/
theorem schedule_scheduler_throws_violates {t : T} (h : Ok t) (hs : t.hasStack = false) (hc : t.hasContext = false) :
    (schedule .scheduler t).1 = .threw ∧ (schedule .scheduler t).2.assertFailed = true ∧
      ∃ b, b ∈ (schedule .scheduler t).2.blocks ∧ (schedule .scheduler t).2.stack ≠ some b ∧
        b ∉ (schedule .scheduler t).2.submitted := by
  have hs' : t.stack = none := by simpa [hs] using h.stackFlag
  have e : schedule .scheduler t = (.threw, { t with
      blocks := t.next :: t.blocks, next := t.next + 2, assertFailed := true }) := by
    simp [schedule, hs, hc, T.constructStack, T.deferred, T.destroyStack, T.destroyFrame, hs']
  rw [e]
  refine ⟨rfl, rfl, t.next, by simp, by simp [hs'], fun hm => ?_⟩
  have := h.old _ (.inr (.inr hm))
  omega

/-- The hypotheses are met: a thread that has scheduled one task before. -/
example : Ok (schedule .none T.fresh).2 ∧ (schedule .none T.fresh).2.hasStack = false ∧
    (schedule .none T.fresh).2.hasContext = false ∧ (schedule .none T.fresh).2.submitted = [0] :=
  ⟨(schedule_succeeds fresh_ok rfl rfl).2.1, rfl, rfl, rfl⟩

end Verif.Core.Tls
