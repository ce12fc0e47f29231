import Verif.EventCount.Props

/-!
C21 fails after 2^32 notifications: the epoch has 32 bits. One thread is in `await`, has found the condition false and is about to
look at the epoch; another one makes the condition true and calls `notify_all`, 2^32 times. Then the first one goes to sleep.

Then: concrete executions that meet the hypotheses of the theorems of Verif.EventCount.Props.
-/
namespace Verif.EventCount
namespace Wrap

/-- Thread 0 in `await` with key 0 after `j` posts by thread 1. -/
structure Q (j : Nat) (s : St) : Prop where
  p0 : s.pc 0 = .waiting 0 true
  p1 : s.pc 1 = .idle
  n : s.n = j
  clk : s.prepAt 0 ≤ s.clock
  posted : 0 < j → s.cond = true ∧ s.prepAt 0 < s.best

theorem two : 2 < P32 := by unfold P32; omega

theorem first : ∃ s, ReachAny 2 s ∧ Q 0 s := by
  have h0 : ReachAny 2 St.start := .start
  have h1 := h0.step (Step.await St.start (t := 0) (by omega) rfl)
  have h2 := h1.step (Step.first _ (t := 0) (by omega) (by simp [St.go, upd_same]))
  have h3 := h2.step (Step.awaitPrep _ (t := 0) (by omega) (by simp [St.go, upd_same, St.start]))
  have h4 := h3.step (Step.check _ (epochOf 0) (t := 0) (by omega) (by simp [doPrepare, St.go, upd_same, St.start]))
  have h5 : epochOf 0 = 0 := by unfold epochOf; simp
  refine ⟨_, h4, ?_, ?_, ?_, ?_, ?_⟩ <;> simp [doPrepare, St.go, upd_apply, St.start, h5]

theorem next {j : Nat} {s : St} (h : ReachAny 2 s) (q : Q j s) : ∃ s', ReachAny 2 s' ∧ Q (j + 1) s' := by
  obtain ⟨p0, p1, n, clk, posted⟩ := q
  have h1 := h.step (Step.post s (t := 1) (by omega) p1)
  have h2 := h1.step (Step.notifyAll _ (s.clock + 1) (t := 1) (by omega) (by simp [St.go, upd_same]))
  have hz : waitersOf s.val ≠ 0 := assert_holds two h (t := 0) (by omega) (by rw [p0]; rfl)
  unfold doNotifyAll at h2
  rw [if_pos (by exact hz)] at h2
  have h3 := h2.step (Step.wakeAll _ (s.clock + 1) (t := 1) (by omega) (by simp [St.go, upd_same]))
  refine ⟨_, h3, ?_, ?_, ?_, ?_, ?_⟩ <;> simp [doWakeAll, St.go, upd_apply, p0, rouse, n] <;> omega

theorem posts (j : Nat) : ∃ s, ReachAny 2 s ∧ Q j s := by
  induction j with
  | zero => exact first
  | succ j ih => obtain ⟨s, h, q⟩ := ih; exact next h q

/-- Steps of thread `t` only. -/
inductive Alone (N t : Nat) : St → St → Prop
  | refl (s : St) : Alone N t s s
  | step {s s1 s' : St} : Alone N t s s1 → Step N t s1 s' → Alone N t s s'

/-- C21, the negation: the thread sleeps in `await` although the condition is true and `notify_all` was called after its
`prepare_wait` and has returned; nobody is about to wake it, and by itself it will never leave `wait`. -/
theorem wrap_lost_wakeup : ∃ s, ReachAny 2 s ∧ s.cond = true ∧ isAsleep (s.pc 0) = true ∧ inAwait (s.pc 0) = true ∧
    s.pc 1 = .idle ∧ s.prepAt 0 < s.best ∧
    ∀ s', Alone 2 0 s s' → s'.pc 0 = .asleep 0 true ∨ s'.pc 0 = .waiting 0 true := by
  obtain ⟨s, h, q⟩ := posts P32
  have hP : 0 < P32 := by unfold P32; omega
  obtain ⟨p0, p1, n, clk, posted⟩ := q
  obtain ⟨q1, q2⟩ := posted hP
  have he : epochOf s.val = 0 := by
    rw [Rep.epoch (reach_rep two h), n]; exact Nat.mod_self _
  have h1 := h.step (Step.look s 0 true (t := 0) (by omega) p0)
  unfold doLook at h1
  rw [if_pos he] at h1
  refine ⟨_, h1, q1, ?_, ?_, ?_, q2, ?_⟩
  · simp [St.go, upd_same, isAsleep]
  · simp [St.go, upd_same, inAwait]
  · simp [St.go, upd_apply, p1]
  · intro s' ha
    suffices hs : (s'.pc 0 = .asleep 0 true ∨ s'.pc 0 = .waiting 0 true) ∧ epochOf s'.val = 0 from hs.1
    induction ha with
    | refl => exact ⟨by simp [St.go, upd_same], he⟩
    | step _ st ih =>
      obtain ⟨ih, hv⟩ := ih
      cases st with
      | look k aw ht hp =>
        rw [hp] at ih
        rcases ih with ih | ih
        · cases ih
        · cases ih
          unfold doLook; rw [if_pos hv]
          exact ⟨by simp [St.go, upd_same], hv⟩
      | spurious k aw ht hp =>
        rw [hp] at ih
        rcases ih with ih | ih
        · cases ih
          exact ⟨by simp [St.go, upd_same], hv⟩
        · cases ih
      | _ => simp_all

end Wrap

/-! ### Examples -/

theorem few_small {N : Nat} {s : St} (h : s.n < P32) : Few N s := fun t _ _ => by omega

/-- The hypotheses of `no_lost_wakeup_partial` and `await_awake_partial` are met: thread 0 sleeps in `await`, then thread 1
posts: the condition is true, nothing is under way and thread 0 is awake again. -/
theorem example_run : ∃ s, Reach 2 s ∧ s.cond = true ∧ s.prepAt 0 < s.best ∧ s.pc 1 = .idle ∧ s.pc 0 = .waiting 0 true ∧
    ∃ s0, Reach 2 s0 ∧ isAsleep (s0.pc 0) = true ∧ s0.best ≤ s0.prepAt 0 := by
  have hf : ∀ s : St, s.n < 5 → Few 2 s := fun s hs => few_small (by unfold P32; omega)
  have e0 : epochOf 0 = 0 := by unfold epochOf; simp
  have h0 : Reach 2 St.start := .start
  have h1 := h0.step (hf _ (by simp [St.start])) (Step.await St.start (t := 0) (by omega) rfl)
  have h2 := h1.step (hf _ (by simp [St.start, St.go])) (Step.first _ (t := 0) (by omega) (by simp [St.go, upd_same]))
  have h3 := h2.step (hf _ (by simp [St.start, St.go])) (Step.awaitPrep _ (t := 0) (by omega) (by simp [St.go, upd_same, St.start]))
  have h4 := h3.step (hf _ (by simp [St.start, St.go, doPrepare]))
    (Step.check _ (epochOf 0) (t := 0) (by omega) (by simp [doPrepare, St.go, upd_same, St.start]))
  have h5 := h4.step (hf _ (by simp [St.start, St.go, doPrepare])) (Step.look _ (epochOf 0) true (t := 0) (by omega)
    (by simp [doPrepare, St.go, upd_same, St.start]))
  have ew : epochOf (addWaiter 0) = 0 := by unfold epochOf addWaiter P64 P32; omega
  have ww : waitersOf (addWaiter 0) ≠ 0 := by unfold waitersOf addWaiter P64 P32; omega
  unfold doLook at h5
  rw [if_pos (by simp [doPrepare, St.go, St.start, ew, e0])] at h5
  have h6 := h5.step (hf _ (by simp [St.start, St.go, doPrepare])) (Step.post _ (t := 1) (by omega)
    (by simp [doPrepare, St.go, upd_apply, St.start]))
  have h7 := h6.step (hf _ (by simp [St.start, St.go, doPrepare])) (Step.notifyAll _ 6 (t := 1) (by omega)
    (by simp [doPrepare, St.go, upd_same, St.start]))
  unfold doNotifyAll at h7
  rw [if_pos (by simpa [doPrepare, St.go, St.start] using ww)] at h7
  have h8 := h7.step (hf _ (by simp [St.start, St.go, doPrepare])) (Step.wakeAll _ 6 (t := 1) (by omega)
    (by simp [doPrepare, St.go, upd_same, St.start]))
  refine ⟨_, h8, ?_, ?_, ?_, ?_, _, h5, ?_, ?_⟩ <;> simp [doWakeAll, doPrepare, St.go, upd_apply, St.start, rouse, e0, isAsleep]

/-- `await_returns_partial` applies to the state of `example_run`: five steps of thread 0 and it has returned. -/
example : ∃ s, Reach 2 s ∧ s.cond = true ∧ (∀ u, u < 2 → isNA (s.pc u) = false ∧ isWA (s.pc u) = false) ∧ inAwait (s.pc 0) = true := by
  obtain ⟨s, h, hc, _, h1, h0, _⟩ := example_run
  refine ⟨s, h, hc, fun u hu => ?_, by rw [h0]; rfl⟩
  match u, hu with
  | 0, _ => rw [h0]; exact ⟨rfl, rfl⟩
  | 1, _ => rw [h1]; exact ⟨rfl, rfl⟩

end Verif.EventCount
