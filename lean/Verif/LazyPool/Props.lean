import Verif.LazyPool.LiveSub
import Verif.LazyPool.LiveThief
import Verif.LazyPool.LiveStop

/-!
C23, C24 and the lazy_pool half of C25. `Reach c s`: `s` is reached in some schedule of the `c.N` workers, any number of submissions
and the destructor; `Run c`: an infinite schedule, possibly with idle times; `Run.Fair`: no actor that can take a step is left out
for ever. Both exclude 2^32 notifications of a domain between a worker's `prepare_wait` and the end of its wait (`Few`): there the
event count itself loses wake-ups (C21, Verif.EventCount.Wrap).

A submission `j` is `.unsent`, `.pushed w` (its job is in the list of worker `w`), `.waking w` or `.returned` (`schedule` has
returned). A worker is blocked in `event_count::wait` if its place is `.asleep`.
-/
namespace Verif.LazyPool
open Verif.EventCount

/-! ### C23 -/

/-- How often job `j` occurs in the lists of submissions, among the jobs workers have taken and among the jobs started. -/
def occurrences (c : Cfg) (s : St) (j : Nat) : Nat :=
  ((List.range c.N).map fun w => (s.inbox w).count j + (s.hand w).count j).sum + s.started.count j

theorem sum_one (N k : Nat) (f : Nat → Nat) (h1 : f k = 1) (h0 : ∀ w, w ≠ k → f w = 0) :
    ((List.range N).map f).sum = if k < N then 1 else 0 := by
  induction N with
  | zero => rfl
  | succ N ih =>
    rw [List.range_succ, List.map_append, List.sum_append, ih]
    simp only [List.map_cons, List.map_nil, List.sum_cons, List.sum_nil, Nat.add_zero]
    by_cases e : N = k
    · subst e; simp [h1]
    · rw [h0 N e]
      by_cases h : k < N
      · simp [h, Nat.lt_succ_of_lt h]
      · simp [h, show ¬ k < N + 1 by omega]

theorem sum_none (N : Nat) (f : Nat → Nat) (h0 : ∀ w, f w = 0) : ((List.range N).map f).sum = 0 := by
  induction N with
  | zero => rfl
  | succ N ih => rw [List.range_succ, List.map_append, List.sum_append, ih]; simp [h0]

/-- C23: a job is nowhere before it is submitted and in exactly one place, once, ever after; so it is neither lost nor started
twice. -/
theorem C23_exactly_once {c : Cfg} (hc : c.Ok) {s : St} (h : Reach c s) (j : Nat) :
    occurrences c s j = if s.call j = .unsent then 0 else 1 := by
  have hs := reach_sub hc h
  have i1 : ∀ w, (s.inbox w).count j = if s.loc j = .inbox w then 1 else 0 := fun w => by
    rw [(hs.nd1 w).count]; simp only [hs.inbox]
  have i2 : ∀ w, (s.hand w).count j = if s.loc j = .hand w then 1 else 0 := fun w => by
    rw [(hs.nd2 w).count]; simp only [hs.hand]
  have i3 : s.started.count j = if s.loc j = .started then 1 else 0 := by
    rw [hs.nd3.count]; simp only [hs.started]
  unfold occurrences
  simp only [i1, i2, i3, hs.unsent]
  cases hl : s.loc j with
  | unsent => simpa using sum_none c.N _ fun _ => rfl
  | started => simpa using sum_none c.N _ fun _ => rfl
  | inbox w0 => simpa using (sum_one c.N w0 _ (by simp) (by simp; omega)).trans (if_pos (hs.lt1 j w0 hl))
  | hand w0 => simpa using (sum_one c.N w0 _ (by simp) (by simp; omega)).trans (if_pos (hs.lt2 j w0 hl))

/-- C23: once `schedule` has returned, the worker to whose list the job was added is not asleep as long as the job is in the list. -/
theorem C23_not_asleep {c : Cfg} (hc : c.Ok) {s : St} (h : Reach c s) {j w : Nat} (hr : s.call j = .returned) (hj : j ∈ s.inbox w) :
    s.pc w ≠ .asleep := by
  have hs := reach_sub hc h
  have hl := (hs.inbox j w).1 hj
  intro hp
  rcases hs.rouse j w (hs.lt1 j w hl) hl hp with e | e <;> rw [hr] at e <;> cases e

/-- C23: and before it returns: if the worker is asleep, its wake-up is still to come from this very call. -/
theorem C23_asleep_only_during_schedule {c : Cfg} (hc : c.Ok) {s : St} (h : Reach c s) {j w : Nat} (hj : j ∈ s.inbox w)
    (hp : s.pc w = .asleep) : s.call j = .pushed w ∨ s.call j = .waking w := by
  have hs := reach_sub hc h
  have hl := (hs.inbox j w).1 hj
  exact hs.rouse j w (hs.lt1 j w hl) hl hp

/-- C23: `schedule` returns. -/
theorem C23_schedule_returns {c : Cfg} {r : Run c} (hf : r.Fair) {t j : Nat} (h : (r.st t).call j ≠ .unsent) :
    ∃ t', t ≤ t' ∧ (r.st t').call j = .returned := call_returns hf h

/-- C23: every submitted job is started, if the pool is not destroyed. -/
theorem C23_started {c : Cfg} (hc : c.Ok) {r : Run c} (hf : r.Fair) (hstop : ∀ t, (r.st t).stop = false) {t j : Nat}
    (h : (r.st t).call j ≠ .unsent) : ∃ t', t ≤ t' ∧ j ∈ (r.st t').started := by
  obtain ⟨t', l, e⟩ := job_starts hc hf h (.inl hstop)
  exact ⟨t', l, ((reach_sub hc (r.reach t')).started j).2 e⟩

/-- C23: even if the pool is destroyed, a submitted job is started unless its worker was then between its last look at its list and
the end (lazy_pool.hpp:230-245). `Example.dropped` shows that in that case it can indeed be dropped; lazy_pool.hpp:285-286 forbids
destroying the pool then. -/
theorem C23_started_before_exit {c : Cfg} (hc : c.Ok) {r : Run c} (hf : r.Fair) {t j : Nat}
    (h : (r.st t).call j ≠ .unsent) (hl : ∀ w, j ∈ (r.st t).inbox w → lastLook ((r.st t).pc w) = false) :
    ∃ t', t ≤ t' ∧ j ∈ (r.st t').started := by
  have hs := reach_sub hc (r.reach t)
  obtain ⟨t', l, e⟩ := job_starts hc hf h (.inr fun w hw => hl w ((hs.inbox j w).2 hw))
  exact ⟨t', l, ((reach_sub hc (r.reach t')).started j).2 e⟩

/-! ### C24 -/

/-- C24: `thief` and `active` count the workers searching for work, per domain, and the workers in `resume` or about to look for
someone to wake first. -/
theorem C24_counters {c : Cfg} (hc : c.Ok) {s : St} (h : Reach c s) :
    (∀ i, s.thief i = num c.N fun w => isThief (s.pc w) && c.dom w == i) ∧ s.active = num c.N fun w => isActive (s.pc w) :=
  ⟨(reach_counts hc h).thief, (reach_counts hc h).active⟩

/-- C24: if a worker is active, then in every domain with a worker in `wait` there is a thief or a wake-up on its way: a worker of
the domain that will become a thief without being woken, a worker that has still to notify the domain, or one that has advanced
the epoch and is about to wake someone who is blocked. -/
theorem C24_watch {c : Cfg} (hc : c.Ok) {s : St} (h : Reach c s) (hstop : s.stop = false) (ha : s.active > 0) {v : Nat} (hv : v < c.N)
    (hs : s.pc v = .look ∨ s.pc v = .asleep) : s.thief (c.dom v) > 0 ∨ InFlight c s (c.dom v) := by
  by_cases ht : s.thief (c.dom v) = 0
  · right
    exact reach_watch hc h hstop ha (c.dom v) (hc.dom v hv) ht v hv (by rcases hs with e | e <;> rw [e] <;> rfl) rfl
  · left; omega

/-- Every worker is searching for work, asleep or running tasks, none is between two of these. -/
def AtRest (c : Cfg) (s : St) : Prop := ∀ w, w < c.N → s.pc w = .steal ∨ s.pc w = .asleep ∨ s.pc w = .work

/-- C24, the invariant of lazy_pool.hpp:190 when nobody is between two states: if anyone works, then in every domain someone searches
or nobody sleeps. -/
theorem C24_at_rest {c : Cfg} (hc : c.Ok) {s : St} (h : Reach c s) (hstop : s.stop = false) (hq : AtRest c s) {w : Nat} (hw : w < c.N)
    (ha : s.pc w = .work) {i : Nat} :
    (∃ u, u < c.N ∧ c.dom u = i ∧ s.pc u = .steal) ∨ ∀ v, v < c.N → c.dom v = i → s.pc v ≠ .asleep := by
  by_cases hs : ∃ v, v < c.N ∧ c.dom v = i ∧ s.pc v = .asleep
  · left
    obtain ⟨v, hv, e, hp⟩ := hs
    have hac : s.active > 0 := active_of (reach_counts hc h) hw (by rw [ha]; rfl)
    rcases C24_watch hc h hstop hac hv (.inr hp) with k | k
    · rw [(reach_counts hc h).thief] at k
      obtain ⟨u, hu, hf, e'⟩ := cnt_pos.1 k
      refine ⟨u, hu, e'.trans e, ?_⟩
      rcases hq u hu with x | x | x
      · exact x
      · rw [x] at hf; cases hf
      · rw [x] at hf; cases hf
    · exfalso
      rcases k with ⟨u, hu, k⟩ | ⟨u, _, hu, _, k, _⟩
      · rcases hq u hu with x | x | x <;> simp [coming, notifying, x] at k
      · rcases hq u hu with x | x | x <;> simp [waking, x] at k
  · right; intro v hv e hp; exact hs ⟨v, hv, e, hp⟩

/-- C24: while the pool is not told to stop, the state in which someone is active and someone sleeps in a domain without a thief
does not last. -/
theorem C24_recovers {c : Cfg} (hc : c.Ok) {r : Run c} (hf : r.Fair) (hstop : ∀ t, (r.st t).stop = false) {i : Nat} (hi : i < c.D)
    (t : Nat) : ∃ t', t ≤ t' ∧
      ((r.st t').active > 0 → (r.st t').thief i > 0 ∨ ∀ v, v < c.N → c.dom v = i → (r.st t').pc v ≠ .asleep) := by
  obtain ⟨t', l, k⟩ := bad_ends hc hf hstop hi t
  refine ⟨t', l, fun ha => ?_⟩
  by_cases ht : (r.st t').thief i = 0
  · right; intro v hv e hp; exact k ⟨ha, ht, v, hv, by rw [hp]; rfl, e⟩
  · left; omega

/-! ### C25, lazy_pool -/

/-- C25: after the destructor's `notify_all` of a domain has returned, nobody is asleep there. -/
theorem C25_nobody_asleep {c : Cfg} (hc : c.Ok) {s : St} (h : Reach c s) {w : Nat} (hw : w < c.N) (hr : roused s.dpc (c.dom w)) :
    s.pc w ≠ .asleep := (reach_stop hc h).up w hw hr

/-- C25: when the destructor has begun to join the threads, nobody is asleep. -/
theorem C25_joining_awake {c : Cfg} (hc : c.Ok) {s : St} (h : Reach c s) (hd : s.dpc = .joining) {w : Nat} (hw : w < c.N) :
    s.pc w ≠ .asleep := (reach_stop hc h).up w hw (by rw [hd]; trivial)

theorem no_sleep_step {c : Cfg} {a : Actor} {s s' : St} (st : Step c a s s') {w : Nat} (hs : s.stop = true)
    (hp : retiring (s.pc w) = false) : retiring (s'.pc w) = false := by
  by_cases ha : a = .worker w
  · subst ha
    cases st <;> simp only [doWake, doPop, doPrep, doCancel, St.bump, doUnthief, doSleep, doAct, doNext, St.go, upd_apply, LazyPool.rouse, Eligible] at * <;>
      grind [retiring]
  · rcases others st w ha with e | ⟨e, _⟩
    · rw [e]; exact hp
    · rw [e] at hp; cases hp

/-- C25: once a stop has been requested, a worker that has not yet decided to sleep (lazy_pool.hpp:237) never sleeps again. -/
theorem C25_no_new_sleep {c : Cfg} (r : Run c) {t w : Nat} (hs : (r.st t).stop = true) (hp : retiring ((r.st t).pc w) = false) :
    ∀ u, t ≤ u → (r.st u).pc w ≠ .asleep := by
  have key := Run.keep r (fun s => s.stop = true ∧ retiring (s.pc w) = false) (t := t) ⟨hs, hp⟩
    fun u a _ h st => ⟨stop_mono st h.1, no_sleep_step st h.1 h.2⟩
  intro u hu e
  have := (key u hu).2
  rw [e] at this; cases this

/-- C25: a worker goes past `latch_stop`, to `finalize_worker`, only when every worker has left its loop and made its last access to
the contexts of others. -/
theorem C25_finalise_last {c : Cfg} (hc : c.Ok) {s : St} (h : Reach c s) {w : Nat} (hw : w < c.N) (hp : s.pc w = .fin4) :
    ∀ u, u < c.N → s.pc u = .fin3 ∨ s.pc u = .fin4 := by
  intro u hu
  have h1 := (reach_data hc h).fin w hw hp
  rw [(reach_counts hc h).latch, num_zero] at h1
  have := h1 u hu
  revert this
  cases s.pc u <;> simp [before]

/-- C25: the destructor returns only when every worker thread has ended. -/
theorem C25_joined {c : Cfg} (hc : c.Ok) {s : St} (h : Reach c s) (hd : s.dpc = .gone) {w : Nat} (hw : w < c.N) : s.pc w = .fin4 :=
  (reach_stop hc h).gone hd w hw

/-- C25: the destructor returns, if from some time on nothing is submitted and no task is stolen (the user ensures that the tasks
are done, lazy_pool.hpp:285-286). -/
theorem C25_destructor_returns {c : Cfg} (hc : c.Ok) {r : Run c} (hf : r.Fair) {t0 : Nat} (hq : Quiet r t0)
    (h0 : (r.st t0).dpc ≠ .alive) : ∃ t', t0 ≤ t' ∧ (r.st t').dpc = .gone := destroyed hc hf hq h0

/-! ### C39 -/

/-- C39: while a worker of the pool is inside a task, in particular inside a call of `schedule` made by that task, no context of
the pool is finalised and the destructor has not returned. Missing for the full property: it is false for calls from outside the
pool (`Example.late_unsafe`). -/
theorem C39_schedule_from_worker_partial {c : Cfg} (hc : c.Ok) {s : St} (h : Reach c s) {u : Nat} (hu : u < c.N) (hp : s.pc u = .work) :
    s.dpc ≠ .gone ∧ ∀ v, v < c.N → s.pc v ≠ .fin4 := by
  refine ⟨fun e => ?_, fun v hv e => ?_⟩
  · have := C25_joined hc h e hu
    rw [hp] at this; cases this
  · rcases C25_finalise_last hc h hv e u hu with k | k <;> rw [hp] at k <;> cases k

end Verif.LazyPool
