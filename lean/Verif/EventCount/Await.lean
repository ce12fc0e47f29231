import Verif.EventCount.Inv

/-!
C77: `await` returns only if its condition was true when it looked, in that call.
-/
namespace Verif.EventCount

/-- Any execution of `N` threads. -/
inductive Exec (N : Nat) : St → St → Prop
  | refl (s : St) : Exec N s s
  | step {s s1 s2 : St} {t : Nat} : Exec N s s1 → Step N t s1 s2 → Exec N s s2

theorem Exec.trans {N : Nat} {a b c : St} (h : Exec N a b) (h' : Exec N b c) : Exec N a c := by
  induction h' with
  | refl => exact h
  | step _ st ih => exact .step ih st

/-- The condition has been found true by the thread. -/
def Saw (s : St) (t : Nat) : Prop := s.out t = some true ∨ s.pc t = .cancel false

theorem rouse_cancel {p : Pc} {b : Bool} (h : rouse p = .cancel b) : p = .cancel b := by
  cases p <;> simp_all [rouse]

theorem other_step {N t u : Nat} {s s' : St} (st : Step N u s s') (hu : t ≠ u) : s'.out t = s.out t ∧ (s'.pc t = s.pc t ∨ s'.pc t = rouse (s.pc t)) := by
  cases st with
  | look k aw ht hp => unfold doLook; split <;> simp [St.go, upd_apply, hu]
  | notifyAll c ht hp => unfold doNotifyAll; split <;> simp [St.go, upd_apply, hu]
  | notifyOne c ht hp => unfold doNotifyOne; split <;> simp [St.go, upd_apply, hu]
  | first ht hp => refine ⟨?_, .inl (by simp [St.go, upd_apply, hu])⟩; dsimp only; split <;> simp [St.go, upd_apply, hu]
  | wakeOne c v ht hp hv he =>
    refine ⟨rfl, ?_⟩
    simp only [upd_apply, hu, if_false]
    split
    · rename_i e; rw [e]; exact .inr rfl
    · exact .inl rfl
  | _ => simp [doPrepare, doWakeAll, doLeave, St.go, upd_apply, hu]

/-- A thread comes to know that the condition is true only by looking at it. -/
theorem saw_step {N t u : Nat} {s s' : St} (st : Step N u s s') (h : ¬ Saw s t) (h' : Saw s' t) :
    u = t ∧ s.cond = true ∧ (s.pc t = .first ∨ ∃ k, s.pc t = .check k) := by
  by_cases hu : t = u
  · subst hu
    refine ⟨rfl, ?_⟩
    simp only [Saw, not_or] at h
    obtain ⟨h1, h2⟩ := h
    unfold Saw at h'
    cases st with
    | first ht hp =>
      cases hc : s.cond
      · simp [hc, St.go, upd_apply, h1] at h'
      · exact ⟨rfl, .inl hp⟩
    | check k ht hp =>
      cases hc : s.cond
      · simp [hc, St.go, upd_apply, h1] at h'
      · exact ⟨rfl, .inr ⟨k, hp⟩⟩
    | awaitCancel threw ht hp =>
      cases threw
      · exact absurd hp h2
      · simp [doLeave, St.go, upd_apply] at h'
    | look k aw ht hp => unfold doLook at h'; split at h' <;> simp [St.go, upd_apply, h1] at h'
    | leave aw ht hp => cases aw <;> simp [doLeave, St.go, upd_apply, h1] at h'
    | notifyAll c ht hp => unfold doNotifyAll at h'; split at h' <;> simp [St.go, upd_apply, h1] at h'
    | notifyOne c ht hp => unfold doNotifyOne at h'; split at h' <;> simp [St.go, upd_apply, h1] at h'
    | wakeOne c v ht hp hv he => simp [upd_apply, h1] at h'
    | _ => simp [doPrepare, doWakeAll, doLeave, St.go, upd_apply, h1] at h'
  · exfalso
    obtain ⟨h1, h2⟩ := other_step st hu
    refine h ?_
    rcases h' with h' | h'
    · exact .inl (by rw [← h1]; exact h')
    · rcases h2 with h2 | h2
      · exact .inr (by rw [← h2]; exact h')
      · exact .inr (rouse_cancel (by rw [← h2]; exact h'))

/-- C77: if a thread calls `await`, in state `s0`, and later has returned from it, then since the call it has evaluated the condition and found it true, in a step of its own that began in a state
in which the condition was true. -/
theorem C77_await_true {N t : Nat} {s0 s1 : St} (hc : s0.pc t = .first) (hn : s0.out t = none) (h : Exec N s0 s1) (hr : s1.out t = some true) :
    ∃ s s', Exec N s0 s ∧ Step N t s s' ∧ Exec N s' s1 ∧ s.cond = true ∧ (s.pc t = .first ∨ ∃ k, s.pc t = .check k) := by
  have key : ∀ s1, Exec N s0 s1 → Saw s1 t → ∃ s s', Exec N s0 s ∧ Step N t s s' ∧ Exec N s' s1 ∧ s.cond = true ∧ (s.pc t = .first ∨ ∃ k, s.pc t = .check k) := by
    intro s1 h
    induction h with
    | refl => rintro (h | h)
              · rw [hn] at h; cases h
              · rw [hc] at h; cases h
    | @step a b u hab st ih =>
      intro hs
      by_cases ha : Saw a t
      · obtain ⟨s, s', e1, e2, e3, e4⟩ := ih ha
        exact ⟨s, s', e1, e2, .step e3 st, e4⟩
      · obtain ⟨rfl, k2, k3⟩ := saw_step st ha hs
        exact ⟨a, b, hab, st, .refl b, k2, k3⟩
  exact key s1 h (.inl hr)

theorem out_none {N : Nat} {s : St} (h : ReachAny N s) (t : Nat) (ha : inAwait (s.pc t) = true) : s.out t = none := by
  induction h with
  | start => rfl
  | @step s s' u _ st ih =>
    by_cases hu : t = u
    · subst hu
      cases st with
      | first ht hp =>
        cases hc : s.cond
        · simp [hc, St.go]; exact ih (by rw [hp]; rfl)
        · simp [hc, St.go, upd_apply, inAwait] at ha
      | await ht hp => simp [St.go, upd_apply]
      | look k aw ht hp =>
        unfold doLook at ha ⊢
        split at ha <;> simp_all [St.go, upd_apply, inAwait]
      | leave aw ht hp => cases aw <;> simp_all [doLeave, St.go, upd_apply, inAwait]
      | notifyAll c ht hp => unfold doNotifyAll at ha; split at ha <;> simp [St.go, upd_apply, inAwait] at ha
      | notifyOne c ht hp => unfold doNotifyOne at ha; split at ha <;> simp [St.go, upd_apply, inAwait] at ha
      | wakeOne c v ht hp hv he => simp [upd_apply, inAwait] at ha
      | check k ht hp => exact ih (by rw [hp]; rfl)
      | _ => simp_all [doPrepare, doWakeAll, doLeave, St.go, upd_apply, inAwait]
    · obtain ⟨h1, h2⟩ := other_step st hu
      rw [h1]
      refine ih ?_
      rcases h2 with h2 | h2
      · rw [← h2]; exact ha
      · rw [h2] at ha
        revert ha
        cases s.pc t <;> simp [rouse, inAwait]

/-- C77: while a thread is in `await` it has no outcome yet, and the step with which it leaves gives it one: it has returned, or the condition threw. -/
theorem C77_await_outcome {N t : Nat} {s s' : St} (h : ReachAny N s) (st : Step N t s s') (h1 : inAwait (s.pc t) = true) :
    s.out t = none ∧ (inAwait (s'.pc t) = false ↔ s'.out t ≠ none) := by
  have h0 := out_none h t h1
  refine ⟨h0, fun h2 => ?_, fun h2 => ?_⟩
  · cases st with
    | first ht hp => cases hc : s.cond <;> simp_all [St.go, upd_apply, inAwait]
    | check k ht hp => cases hc : s.cond <;> simp_all [St.go, upd_apply, inAwait]
    | look k aw ht hp => unfold doLook at h2; split at h2 <;> simp_all [St.go, upd_apply, inAwait]
    | leave aw ht hp => cases aw <;> simp_all [doLeave, St.go, upd_apply, inAwait]
    | notifyAll c ht hp => rw [hp] at h1; cases h1
    | notifyOne c ht hp => rw [hp] at h1; cases h1
    | wakeOne c v ht hp hv he => rw [hp] at h1; cases h1
    | _ => simp_all [doPrepare, doWakeAll, doLeave, St.go, upd_apply, inAwait]
  · cases ha : inAwait (s'.pc t)
    · rfl
    · exact absurd (out_none (.step h st) t ha) h2

/-- An execution in which the condition is false when `await` is called and becomes true before it looks again, and it returns. -/
example : ∃ s0 s1, ReachAny 2 s0 ∧ s0.pc 0 = .first ∧ s0.out 0 = none ∧ s0.cond = false ∧ Exec 2 s0 s1 ∧ s1.out 0 = some true := by
  have r0 : ReachAny 2 _ := .step .start (.await (t := 0) .start (by decide) rfl)
  have e := Exec.refl (N := 2) { St.start.go 0 .first with out := upd St.start.out 0 none }
  have e := e.step (.first (t := 0) _ (by decide) rfl)
  have e := e.step (.awaitPrep (t := 0) _ (by decide) rfl)
  have e := e.step (.post (t := 1) _ (by decide) rfl)
  have e := e.step (.check (t := 0) _ (epochOf 0) (by decide) rfl)
  have e := e.step (.awaitCancel (t := 0) _ false (by decide) rfl)
  exact ⟨_, _, r0, rfl, rfl, rfl, e, rfl⟩

end Verif.EventCount
