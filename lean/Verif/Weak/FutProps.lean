import Verif.Weak.FutStep

/-!
C53: `lf::schedule`, `lf::future` and `lf::sync_wait` under the C++ memory model.

What holds: for every schedule of the caller's thread and the task, and every choice of what each load sees,
* no data race and no use of freed memory (`no_race`), if destroying the task's parameters does not use the caller's data;
* the first `get` gives what the task returned and every later one `empty_future` (`get_once`);
* the shared state is freed exactly once, when both the future and the task are done with it (`freed`);
* once a wait has returned, the task has returned, and the caller sees what it did (`waited`);
* a wait can always end: the task is never stuck, and once it has released the semaphore the acquire can return (`wait_ends`).

What does not hold: "when `sync_wait` returns the task is over". The frame's parameters are destroyed after the semaphore was released
(include/libfork/core/impl/promise.hpp:338-341), so their destructors race with the caller (`late_race`).
-/
namespace Verif.Weak.Fut

/-- The task has executed its `co_return` and released the semaphore. -/
def Over (s : St) : Prop := s.tpc = .released ∨ s.tpc = .notified ∨ s.tpc = .gone ∨ s.tpc = .dead

theorem over_iff (s : St) : Over s ↔ 3 ≤ tph s.tpc := by
  unfold Over
  cases s.tpc <;> simp [tph]

/-- C53: without destructors of parameters that use the caller's data there is no data race and no use of freed memory. -/
theorem no_race_partial {s : St} (r : Reach false s) : s.ub = false := r.g.inv.hub rfl

/-- C53: the first `get` gives what the task returned, once; the others give `empty_future`. -/
theorem get_once {late : Bool} {s : St} (r : Reach late s) : s.out = [] ∨ ∃ v n, s.wrote = [v] ∧ s.out = some v :: List.replicate n none := by
  have h := r.g
  by_cases e : s.status = .retrieved
  · obtain ⟨n, e1⟩ := h.vals.o1 e
    have t3 := h.inv.w3 (h.inv.hst (by rw [e]; decide))
    have e2 := h.vals.w1 (by omega)
    exact .inr ⟨_, n, e2, by rw [e1, e2]; rfl⟩
  · exact .inl (h.vals.o0 e)

/-- C53: the shared state is freed exactly once, when the future is gone and the task has given up its reference. -/
theorem freed {late : Bool} {s : St} (r : Reach late s) :
    s.freed ≤ 1 ∧ (s.freed = 1 ↔ s.upc = .done ∧ (s.tpc = .gone ∨ s.tpc = .dead)) := by
  have h := r.g.inv.hfr
  have e1 : uph s.upc = 6 ↔ s.upc = .done := by cases s.upc <;> simp [uph]
  have e2 : 5 ≤ tph s.tpc ↔ (s.tpc = .gone ∨ s.tpc = .dead) := by cases s.tpc <;> simp [tph]
  rw [← e1, ← e2]
  split at h <;> omega

/-- C53: once a wait has returned the task has returned and the caller knows its result and what it did, and that it will not use the
caller's data again. -/
theorem waited {late : Bool} {s : St} (r : Reach late s) (w : s.waited = true) :
    Over s ∧ s.wrote.length = 1 ∧ s.knows .U .res ∧ s.knows .U .eff ∧ (late = false → s.knows .U .tr) := by
  have h := r.g.inv
  have hw : bn s.waited = 1 := by rw [w]; rfl
  have t3 := h.w3 hw
  refine ⟨(over_iff s).2 t3, by rw [r.g.vals.w1 (by omega)]; rfl, (knows_iff (t := .U) (h.pos .res)).2 (h.wr hw), (knows_iff (t := .U) (h.pos .eff)).2 (h.we hw),
    fun e => (knows_iff (t := .U) (h.pos .tr)).2 (h.wtr hw e)⟩

/-- C53: `get` returns only when a value is there; asking for it never blocks once the status says so. -/
theorem status_waited {late : Bool} {s : St} (r : Reach late s) (e : s.status ≠ .noWait) : s.waited = true := by
  have := r.g.inv.hst (by rwa [Ne, sph_zero])
  cases h : s.waited
  · rw [h] at this; exact absurd this (by decide)
  · rfl

/-- The task's thread makes a step that brings it closer to its end. -/
def TaskMoves (late : Bool) (s : St) : Prop := ∃ s', Step late s s' ∧ s'.upc = s.upc ∧ s'.tpc ≠ s.tpc

/-- C53: a wait can always end. The task, once submitted, is never stuck before its end, and when it has released the semaphore the
wait can return. -/
theorem wait_ends {late : Bool} {s : St} (r : Reach late s) {k : Kind} (e : s.upc = .acq k) :
    (Over s → ∃ s', Step late s s' ∧ s'.waited = true) ∧ (¬ Over s → TaskMoves late s) := by
  have h := r.g
  have hu : uph s.upc = 3 := by rw [e]; rfl
  refine ⟨fun o => ?_, fun o => ?_⟩
  · have hs : s.val .sem = 1 := by
      have := h.inv.hsem
      rw [if_pos ⟨(over_iff s).1 o, (h.inv.hacq hu).1⟩] at this
      exact this
    exact ⟨_, .acquire e hs, rfl⟩
  · cases t : s.tpc with
    | unborn =>
      have hl : s.mem.len .sub = 2 := by have := h.inv.hsub; rw [hu] at this; exact this
      have hv : s.mem.val .sub 1 = 1 := by
        have := h.inv.hsv (by omega)
        change s.mem.val .sub (s.mem.len .sub - 1) = 1 at this
        rwa [hl] at this
      have hc := h.inv.ht .sub
      change (s.tv .T).cur .sub < s.mem.len .sub at hc
      exact ⟨_, .start 1 t ⟨by omega, by omega⟩ hv, rfl, by rw [t]; exact nofun⟩
    | body => exact ⟨_, .ret 0 t ((knows_iff (t := .T) (h.inv.pos .res)).2 (h.inv.tre (by rw [t]; decide))), rfl, by rw [t]; exact nofun⟩
    | wrote => exact ⟨_, .release t, rfl, by rw [t]; exact nofun⟩
    | released => exact absurd (.inl t) o
    | notified => exact absurd (.inr (.inl t)) o
    | gone => exact absurd (.inr (.inr (.inl t))) o
    | dead => exact absurd (.inr (.inr (.inr t))) o

/-! ### Runs -/

/-- The caller writes 3, schedules a task that uses it and returns 7, and calls `get` while it runs; the task ends; the caller gets 7,
reuses its data, calls `get` again and destroys the future. -/
theorem run (late : Bool) : ∃ s, Reach late s ∧ s.out = [some 7, none] ∧ s.freed = 1 ∧ s.tpc = .dead := by
  have r : Reach late .init := .init
  replace r := r.step (.prep 3 rfl)
  replace r := r.step (.construct rfl)
  replace r := r.step (.submit rfl)
  replace r := r.step (.get rfl)
  replace r := r.step (.start 1 rfl (by unfold CanRead; decide +kernel) (by decide +kernel))
  replace r := r.step (.use rfl (by unfold St.knows; decide +kernel))
  replace r := r.step (.work 5 rfl)
  replace r := r.step (.ret 7 rfl (by unfold St.knows; decide +kernel))
  replace r := r.step (.release rfl)
  replace r := r.step (.acquire rfl (by decide +kernel))
  replace r := r.step (.take rfl (by decide +kernel) (by unfold St.knows; decide +kernel))
  replace r := r.step (.reuse 4 rfl (by unfold St.knows; decide +kernel) (by unfold St.knows; decide +kernel))
  replace r := r.step (.get rfl)
  replace r := r.step (.empty rfl rfl)
  replace r := r.step (.destroy rfl)
  replace r := r.step (.drop rfl)
  replace r := r.step (.notify rfl)
  replace r := r.step (.unref rfl)
  replace r := r.step (.params rfl)
  exact ⟨_, r, by decide +kernel, by decide +kernel, by decide +kernel⟩

/-- C53, what does not hold: a parameter's destructor that uses the caller's data runs after the wait has returned, and races. -/
theorem late_race : ∃ s, Reach true s ∧ s.ub = true := by
  have r : Reach true .init := .init
  replace r := r.step (.construct rfl)
  replace r := r.step (.submit rfl)
  replace r := r.step (.start 1 rfl (by unfold CanRead; decide +kernel) (by decide +kernel))
  replace r := r.step (.ret 7 rfl (by unfold St.knows; decide +kernel))
  replace r := r.step (.release rfl)
  replace r := r.step (.wait rfl)
  replace r := r.step (.acquire rfl (by decide +kernel))
  replace r := r.step (.reuse 4 rfl (by unfold St.knows; decide +kernel) (by unfold St.knows; decide +kernel))
  replace r := r.step (.notify rfl)
  replace r := r.step (.unref rfl)
  replace r := r.step (.useLateRace rfl rfl (by unfold St.knows; decide +kernel))
  exact ⟨_, r, rfl⟩

/-- The full statement fails: not every reachable state is free of races. -/
theorem not_no_race : ¬ ∀ s, Reach true s → s.ub = false := by
  intro h
  obtain ⟨s, r, e⟩ := late_race
  rw [h s r] at e
  exact absurd e (by decide)

/-- `wait_ends` and `waited` are about states that are reached. -/
example : (∃ s, Reach false s ∧ s.upc = .acq .get ∧ ¬ Over s) ∧ (∃ s, Reach false s ∧ s.upc = .acq .get ∧ Over s) ∧
    (∃ s, Reach false s ∧ s.waited = true ∧ s.tpc = .released) := by
  have r : Reach false .init := .init
  replace r := r.step (.construct rfl)
  replace r := r.step (.submit rfl)
  replace r := r.step (.get rfl)
  have r1 := r
  replace r := r.step (.start 1 rfl (by unfold CanRead; decide +kernel) (by decide +kernel))
  replace r := r.step (.ret 7 rfl (by unfold St.knows; decide +kernel))
  replace r := r.step (.release rfl)
  have r2 := r
  replace r := r.step (.acquire rfl (by decide +kernel))
  exact ⟨⟨_, r1, rfl, by unfold Over; decide +kernel⟩, ⟨_, r2, rfl, .inl rfl⟩, ⟨_, r, rfl, rfl⟩⟩

end Verif.Weak.Fut
