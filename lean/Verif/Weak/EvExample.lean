import Verif.Weak.EvProps

/-!
C46: executions that meet the hypotheses of the theorems of `Weak/EvProps.lean`. Thread 0 is the poster, thread 1 waits.
-/
namespace Verif.Weak.Ev
open Verif.EventCount (addEpoch addWaiter subWaiter epochOf waitersOf P32)

instance {L : Type} [DecidableEq L] (m : Mem L) (tv : TV L) (l : L) (i : Nat) : Decidable (CanRead m tv l i) :=
  inferInstanceAs (Decidable (_ ∧ _))

theorem epoch_add : epochOf (addEpoch (addWaiter 0)) = 1 := by
  unfold epochOf addEpoch addWaiter Verif.EventCount.P32 Verif.EventCount.P64; decide
theorem epoch_one : epochOf (addWaiter 0) = 0 := by
  unfold epochOf addWaiter Verif.EventCount.P32 Verif.EventCount.P64; decide
theorem epoch_zero : epochOf 0 = 0 := by
  unfold epochOf Verif.EventCount.P32; decide

/-- Thread 1 is in `await`: the condition is false, it prepares (message 1 of `m_val`), the condition is still false. Meanwhile
thread 0 makes it true. -/
theorem exBefore : ∃ s₀, Reach 2 s₀ ∧ s₀.pc 0 = .idle ∧ (s₀.tv 0).cur (.data 0) = s₀.mem.last (.data 0) ∧
    s₀.mem.val (.data 0) (s₀.mem.last (.data 0)) = 1 ∧ s₀.pc 1 = .waiting (epochOf 0) true ∧ s₀.at_ 1 = 1 ∧ s₀.mem.len .word = 2 ∧
    s₀.mem.val .word 1 = (addWaiter 0 : Nat) ∧ (s₀.tv 1).cur .word = 1 ∧ s₀.cnt 1 = 0 ∧ s₀.mem.len (.data 0) = 2 := by
  have r := Reach.init (N := 2) fun _ => 0
  replace r := r.step (t := 1) (.await (by decide) rfl)
  replace r := r.step (t := 1) (.first 0 true (by decide) rfl (by decide +kernel))
  replace r := r.step (t := 1) (.awaitPrep (by decide) rfl)
  replace r := r.step (t := 1) (.check 0 true (k := epochOf 0) (by decide) rfl (by decide +kernel))
  replace r := r.step (t := 0) (.store 0 1 false (by decide) rfl rfl)
  exact ⟨_, r, rfl, rfl, rfl, rfl, rfl, rfl, rfl, rfl, rfl, rfl⟩

/-- Thread 0 then calls `notify_all`, which finds a waiter, and calls `epoch()->notify_all()`. Thread 1 has not yet looked at the epoch; when it
does it may still read the old one and block. It is then eligible: `no_lost_wakeup`, `await_not_stuck` apply, with their first case. -/
theorem exStale : ∃ s₀ s, Reach 2 s₀ ∧ s₀.pc 0 = .idle ∧ (s₀.tv 0).cur (.data 0) = s₀.mem.last (.data 0) ∧
    s₀.mem.val (.data 0) (s₀.mem.last (.data 0)) ≠ 0 ∧ Steps 2 (doNotify s₀ 0 true) s ∧ s.mem.len (.data 0) = s₀.mem.len (.data 0) ∧
    s.pc 1 = .blocked 0 1 true ∧ s.at_ 1 < s₀.mem.len .word ∧ Few s 1 ∧ s.pc 0 = .idle := by
  obtain ⟨s₀, r, h1, h2, h3, h4, h5, h6, h7, h8, h9, h10⟩ := exBefore
  rw [epoch_zero] at h4
  have hl0 : s₀.mem.last .word = 1 := by simp only [Mem.last, h6]
  have hval : s₀.val = addWaiter 0 := by
    show (s₀.mem.val .word (s₀.mem.last .word)).toNat = _
    rw [hl0, h7]; rfl
  have hw : waitersOf s₀.val ≠ 0 := assert_holds (by unfold P32; decide) r (t := 1) (by decide) (by rw [h4]; rfl)
  have g := grow_step (iv_reach r) (notify_step (N := 2) (all := true) (u := 0) (by decide) h1)
  have hp0 : (doNotify s₀ 0 true).pc 0 = .wakeAll := by
    simp [doNotify, St.rmw, upd, hw]
  have hp1 : (doWakeAll (doNotify s₀ 0 true) 0).pc 1 = .waiting 0 true := by
    simp [doWakeAll, doNotify, St.rmw, upd, h4]
  have htv : (doWakeAll (doNotify s₀ 0 true) 0).tv 1 = s₀.tv 1 := by
    simp [doWakeAll, doNotify, St.rmw, upd]
  have hlen : (doNotify s₀ 0 true).mem.len .word = 3 := by rw [doNotify, len_rmw, h6]
  have hv1 : (doWakeAll (doNotify s₀ 0 true) 0).mem.val .word 1 = (addWaiter 0 : Nat) :=
    (g.val .word 1 (by omega)).trans h7
  have st := (Steps.refl (N := 2) (doNotify s₀ 0 true)).step (Step.wakeAll (t := 0) (by decide) hp0)
  have st := st.step (Step.look (t := 1) (i := 1) (by decide) hp1 ⟨by rw [htv, h8]; decide, by
    show 1 < (doNotify s₀ 0 true).mem.len .word
    omega⟩)
  refine ⟨s₀, _, r, h1, h2, by rw [h3]; decide, st, ?_, ?_, ?_, ?_, ?_⟩
  · show (s₀.mem.rmw _ _ _).len _ = _
    rw [rmw_mem, append_len_ne (by decide)]
  · simp only [upd, if_true]
    rw [if_pos]
    rw [hv1]; exact epoch_one
  · show s₀.at_ 1 < _
    omega
  · show (doNotify s₀ 0 true).cnt ((doNotify s₀ 0 true).mem.last .word) < (doNotify s₀ 0 true).cnt (s₀.at_ 1) + P32
    have e1 : (doNotify s₀ 0 true).mem.last .word = s₀.mem.len .word := last_rmw ..
    have e2 : (doNotify s₀ 0 true).cnt (s₀.mem.len .word) = s₀.cnt (s₀.mem.last .word) + 1 := upd_same _ _ _
    have e3 := g.cnt 1 (by omega)
    rw [e1, e2, h5, e3, hl0, h9]
    unfold P32; decide
  · simp [doWakeAll, doNotify, St.rmw, upd]

/-- The theorems apply to it. -/
example : ∃ s, Reach 2 s ∧ IsBlocked s 1 ∧ Eligible s 1 := by
  obtain ⟨s₀, s, r, h1, h2, h3, h4, h5, h6, h7, h8, h9⟩ := exStale
  refine ⟨s, h4.reach (r.step (notify_step (by decide) h1)), ⟨_, _, _, h6⟩, ?_⟩
  rcases await_not_stuck (by unfold P32; decide) r (by decide) h1 h2 h3 h4 h5 (t := 1) (by decide) h6 h8 with h | ⟨h, -⟩
  · exact h
  · rw [h9] at h; cases h

/-- The poster writes a cell and notifies nobody; a thread that prepares afterwards cannot read the old value. -/
example : ∃ s₀ s, Reach 2 s₀ ∧ s₀.pc 0 = .idle ∧ Steps 2 (doNotify s₀ 0 false) s ∧ s.pc 1 = .idle ∧
    CanRead s.mem (s.tv 1) (.data 7) 0 ∧ ¬ CanRead (doPrepare s 1 .prepared).mem ((doPrepare s 1 .prepared).tv 1) (.data 7) 0 := by
  have r := Reach.init (N := 2) fun _ => 0
  replace r := r.step (t := 0) (.store 7 1 false (by decide) rfl rfl)
  refine ⟨_, _, r, rfl, .refl _, rfl, ?_, ?_⟩
  · exact ⟨by decide, by show 0 < 2; decide⟩
  · intro h
    have h1 := prepared_sees (all := false) r (u := 0) (by decide) rfl (.refl _) (t := 1) (by decide) rfl (.data 7)
    have h2 := h.1
    have h3 : 1 ≤ 0 := Nat.le_trans h1 h2
    omega

/-- `await_true` applies to both ways in which `await` returns. -/
example : (∃ s s', Reach 2 s ∧ Step 2 1 s s' ∧ s.pc 1 = .first ∧ s'.pc 1 = .idle) ∧
    (∃ s s', Reach 2 s ∧ Step 2 1 s s' ∧ s.pc 1 = .cancel ∧ s'.pc 1 = .idle) := by
  have r := Reach.init (N := 2) fun _ => 0
  replace r := r.step (t := 1) (.await (by decide) rfl)
  replace r := r.step (t := 0) (.store 0 1 false (by decide) rfl rfl)
  have r1 := r
  replace r := r.step (t := 1) (.first 0 true (by decide) rfl (by decide +kernel))
  replace r := r.step (t := 1) (.awaitPrep (by decide) rfl)
  replace r := r.step (t := 1) (.check 1 true (k := epochOf 0) (by decide) rfl (by decide +kernel))
  exact ⟨⟨_, _, r1, .first 1 true (by decide) rfl (by decide +kernel), rfl, rfl⟩, ⟨_, _, r, .cancelled (by decide) rfl, rfl, rfl⟩⟩

end Verif.Weak.Ev
