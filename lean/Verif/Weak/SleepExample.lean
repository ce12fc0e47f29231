import Verif.Weak.SleepProps
import Verif.Weak.EvExample

/-!
C54: executions that meet the hypotheses of the theorems of `Weak/SleepProps.lean`. Thread 1 is a worker, thread 0 submits and destroys.
-/
namespace Verif.Weak.Sleep
open Verif.Weak.Ev (Loc client doPrepare doNotify doWakeAll rmwAny rmwAnyView upd Eligible IsBlocked Few epoch_one epoch_zero)
open Verif.EventCount (addWaiter P32 epochOf)

/-- Worker 1 finds nothing to do and blocks. -/
theorem exAsleep : ∃ s, Reach 2 0 s ∧ s.pc 0 = .run ∧ s.pc 1 = .sleep ∧ s.ev.pc 1 = .blocked 0 1 false ∧ s.stopped = false ∧ s.pending 1 = 0 ∧
    s.ev.cnt 1 = 0 ∧ s.ev.at_ 1 = 1 ∧ s.ev.mem.len .word = 2 := by
  have r := Reach.init (N := 2) (dt := 0)
  replace r := r.step (t := 1) (by decide) (.prepare rfl)
  replace r := r.step (t := 1) (by decide) (.popNone rfl (by decide +kernel))
  replace r := r.step (t := 1) (by decide) (.stopTest 0 rfl (by decide +kernel))
  replace r := r.step (t := 1) (by decide) (.dec 0 0 false (by decide +kernel))
  replace r := r.step (t := 1) (by decide) (.wait (k := epochOf 0) rfl rfl)
  replace r := r.step (t := 1) (by decide) (.look (i := 1) (k := epochOf 0) rfl rfl (by decide +kernel))
  refine ⟨_, r, rfl, rfl, ?_, rfl, by decide +kernel, rfl, rfl, rfl⟩
  show (if epochOf (addWaiter 0) = epochOf 0 then Ev.Pc.blocked (epochOf 0) 1 false else .leaving false) = _
  rw [if_pos (by rw [epoch_one, epoch_zero]), epoch_zero]

/-- Thread 0 submits to the sleeping worker: `submission_wakes` applies, with its second case. -/
theorem exSubmitted : ∃ s, Reach 2 0 s ∧ IsBlocked s.ev 1 ∧ s.pending 1 ≠ 0 ∧ Few s.ev 1 ∧ s.pusher 1 = 0 ∧ s.pc 0 = .post 1 := by
  obtain ⟨s, r, h1, h2, h3, h4, h5, h6, h7, h8⟩ := exAsleep
  replace r := r.step (t := 0) (by decide) (.push 1 h1)
  refine ⟨_, r, ⟨0, 1, false, ?_⟩, ?_, ?_, rfl, rfl⟩
  · exact h3
  · rw [pending_chg (s := s) (v := 1) _ rfl, if_pos rfl, h5]; decide
  · show s.ev.cnt (s.ev.mem.len .word - 1) < s.ev.cnt (s.ev.at_ 1) + P32
    rw [h7, h8, h6]; unfold P32; decide

/-- It notifies: the first and the third case. -/
theorem exNotified : ∃ s, Reach 2 0 s ∧ IsBlocked s.ev 1 ∧ s.pending 1 ≠ 0 ∧ Few s.ev 1 ∧ s.pc 0 = .tell false := by
  obtain ⟨s, r, h1, h2, h3, h4, h5, h6, h7, h8⟩ := exAsleep
  have r1 := r.step (t := 0) (by decide) (.push 1 h1)
  have r2 := r1.step (t := 0) (by decide) (.postNotify rfl)
  refine ⟨_, r2, ⟨0, 1, false, h3⟩, ?_, ?_, rfl⟩
  · rw [pending_word _ rfl, pending_chg (s := s) (v := 1) _ rfl, if_pos rfl, h5]; decide
  · show upd s.ev.cnt (s.ev.mem.len .word) (s.ev.cnt (s.ev.mem.len .word - 1) + 1) (s.ev.mem.len .word + 1 - 1) <
      upd s.ev.cnt (s.ev.mem.len .word) (s.ev.cnt (s.ev.mem.len .word - 1) + 1) (s.ev.at_ 1) + P32
    rw [h7, h8]
    simp [upd, h6, P32]

/-- Thread 0 destroys the pool while worker 1 sleeps: `stop_wakes` applies, with its second case. -/
theorem exStopped : ∃ s, Reach 2 0 s ∧ IsBlocked s.ev 1 ∧ s.stopped = true ∧ Few s.ev 1 ∧ s.pc 0 = .stopping := by
  obtain ⟨s, r, h1, h2, h3, h4, h5, h6, h7, h8⟩ := exAsleep
  replace r := r.step (t := 0) (by decide) (.stop rfl h1 h4)
  refine ⟨_, r, ⟨0, 1, false, h3⟩, rfl, ?_, rfl⟩
  show s.ev.cnt (s.ev.mem.len .word - 1) < s.ev.cnt (s.ev.at_ 1) + P32
  rw [h7, h8, h6]; unfold P32; decide

end Verif.Weak.Sleep
