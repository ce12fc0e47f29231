import Verif.Runtime.InvVal

/-! The values: preservation. -/
namespace Verif.Runtime
variable {σ V : Type}

set_option maxHeartbeats 1000000 in
theorem invVal_step {body : σ → Act σ V} {pend : σ → Nat} (hd : Disc body pend) {s s' : State σ V} (hx : Ctx s)
    (hs : InvSt body pend s) (hv : InvVal body s) (stp : Step body P s s') : InvVal body s' := by
  have hl := hx.link
  have hc := hx.count
  have hw := hw_of hx.loc hl hc hx.few
  have hkd := hk_of hd hx.loc hc hs
  have kz : ∀ f, Alive (s.loc f) → tok (s.loc f) = 0 → (s.fr f).steal = 0 → (s.fr f).kids = [] := by
    intro f h1 h2 h3
    have := hc.cnt f h1
    have := hc.steal f h1
    rw [← List.length_eq_zero_iff]; omega
  obtain ⟨fresh, run, sto, win, fin, queue, inb, qnd, ind⟩ := hx.loc
  have e0 : s.loc s.nf = .unborn := (fresh _).2 (Nat.le_refl _)
  cases stp with
  | fork w f c k h1 h2 =>
    have e1 : s.loc f = .running w := (run w f).2 (Or.inl h1)
    have e4 : f ≠ s.nf := by rintro rfl; rw [e0] at e1; cases e1
    refine invVal_new (c := c) (l := .fork f (s.fr f).slots.length) hv hx.loc hl ?_ ?_ rfl rfl ?_ ?_ ?_
    · simp only [doFork, newFrame, upd_apply]; grind [Alive]
    · simp only [doFork, newFrame, upd_apply]; grind [Alive]
    · simp only [doFork, newFrame, upd_apply]; grind
    · simp only [doFork, newFrame, upd_apply]; grind [forkPar]
    · intro p i e
      cases e
      refine ⟨e4, rfl, by simp [e1, Alive], ?_, ?_, ?_⟩ <;> simp [doFork, newFrame, upd_apply, h2]
  | call w f c k h1 h2 =>
    have e1 : s.loc f = .running w := (run w f).2 (Or.inl h1)
    have e4 : f ≠ s.nf := by rintro rfl; rw [e0] at e1; cases e1
    refine invVal_new (c := c) (l := .call f) hv hx.loc hl ?_ ?_ rfl rfl ?_ ?_ ?_
    · simp only [doCall, newFrame, upd_apply]; grind [Alive]
    · simp only [doCall, newFrame, upd_apply]; grind [Alive]
    · simp only [doCall, newFrame, upd_apply]; grind
    · simp only [doCall, newFrame, upd_apply]; grind [forkPar]
    · intro p i e; cases e
  | submit c w =>
    refine invVal_new (c := c) (l := .root) hv hx.loc hl ?_ ?_ rfl rfl ?_ ?_ ?_
    · simp only [submit, newFrame, upd_apply]; grind [Alive]
    · simp only [submit, newFrame, upd_apply]; grind [Alive]
    · simp only [submit, newFrame, upd_apply]; grind
    · simp only [submit, newFrame, upd_apply]; grind [forkPar]
    · intro p i e; cases e
  | joinNow w f k vs h1 h2 h3 h4 h5 h6 =>
    have e1 : s.loc f = .running w := (run w f).2 (Or.inl h1)
    have e2 : Alive (s.loc f) := by simp [e1, Alive]
    refine invVal_passed hl hv e2 (kz f e2 (by simp [e1, tok]) h3) h2 h6 ?_ rfl rfl ?_ ?_ ?_ ?_ <;>
      simp only [passed, upd_apply] <;> grind [Alive]
  | joinTake w f k vs h1 h2 h3 h4 h5 h6 =>
    have e1 : s.loc f = .winning w := (win w f).2 (by grind)
    have e2 : Alive (s.loc f) := by simp [e1, Alive]
    have c3 := hc.join f e2
    simp only [e1, JoinOk] at c3
    refine invVal_passed hl hv e2 c3 h2 h6 ?_ rfl rfl ?_ ?_ ?_ ?_ <;>
      simp only [passed, upd_apply] <;> grind [Alive]
  | finWin w f same k vs h1 h2 h3 h4 h5 h6 =>
    have e1 : s.loc f = .winning w := (win w f).2 (by grind)
    have e2 : Alive (s.loc f) := by simp [e1, Alive]
    have c3 := hc.join f e2
    simp only [e1, JoinOk] at c3
    refine invVal_passed hl hv e2 c3 h2 h3 ?_ rfl rfl ?_ ?_ ?_ ?_ <;>
      simp only [passed, upd_apply] <;> grind [Alive]
  | retRoot w f v h1 h2 h3 h4 =>
    have e1 : s.loc f = .running w := (run w f).2 (Or.inl h1)
    have e2 : Alive (s.loc f) := by simp [e1, Alive]
    refine invVal_end hv hl (ret_ser hd hs hv e2 h2) (hkd w f v h1 h2) e2 ?_ ?_ rfl rfl ?_ ?_ ?_ ?_ <;>
      simp only [destroyed, upd_apply] <;> grind [Alive]
  | retCall w f p v c k h1 h2 h3 h4 h5 h6 =>
    have e1 : s.loc f = .running w := (run w f).2 (Or.inl h1)
    have e2 : Alive (s.loc f) := by simp [e1, Alive]
    have e3 : s.loc p = .callwait f := (hl.callw p f).2 ⟨h4, e2⟩
    have e5 : p ≠ f := by rintro rfl; rw [e1] at e3; cases e3
    obtain ⟨k', e4⟩ := hs.cw p f e3
    rw [h6] at e4; cases e4
    refine invVal_end hv hl (ret_ser hd hs hv e2 h2) (hkd w f v h1 h2) e2 ?_ ?_ rfl rfl ?_ ?_ ?_ ?_ <;>
      simp only [destroyed, upd_apply]
    · grind [Alive]
    · grind [Alive]
    · grind
    · intro g hg
      by_cases e : g = p
      · subst e; exact Or.inr ⟨k, h4, h6, by simp⟩
      · left; simp [e]
    · grind
    · grind
  | retFork w f p i v h1 h2 h3 h4 =>
    have e1 : s.loc f = .running w := (run w f).2 (Or.inl h1)
    have e2 : Alive (s.loc f) := by simp [e1, Alive]
    refine invVal_end hv hl (ret_ser hd hs hv e2 h2) (hkd w f v h1 h2) e2 ?_ ?_ rfl rfl ?_ ?_ ?_ ?_ <;>
      simp only [destroyed, upd_apply] <;> grind [Alive, forkPar]
  | joinWait w f k h1 h2 =>
    refine invVal_frame hv ?_ rfl rfl ?_ ?_ ?_ <;> grind
  | loadWin w f h1 h2 =>
    have e1 : s.loc f = .running w := (run w f).2 (by grind)
    refine invVal_frame hv ?_ rfl rfl ?_ ?_ ?_ <;> simp only [upd_apply] <;> grind [Alive]
  | loadLose w f h1 h2 =>
    refine invVal_frame hv ?_ rfl rfl ?_ ?_ ?_ <;> grind
  | subWin w f h1 h2 =>
    have e1 : s.loc f = .running w := (run w f).2 (by grind)
    refine invVal_frame hv ?_ rfl rfl ?_ ?_ ?_ <;> simp only [upd_apply] <;> grind [Alive]
  | subLose w f h1 h2 =>
    have e1 : s.loc f = .running w := (run w f).2 (by grind)
    refine invVal_frame hv ?_ rfl rfl ?_ ?_ ?_ <;> simp only [upd_apply] <;> grind [Alive]
  | popHit w p c c' r h1 h2 =>
    have e1 : s.loc c = .finishing w := (fin w c).2 ⟨p, Or.inl h1⟩
    have e2 : s.loc p = .queued w c' := (queue w p c').2 (by simp [h2])
    refine invVal_frame hv ?_ rfl rfl ?_ ?_ ?_ <;> simp only [report, upd_apply] <;> grind [Alive]
  | popMiss w p c h1 h2 =>
    refine invVal_frame hv ?_ rfl rfl ?_ ?_ ?_ <;> grind
  | decWin w p c same h1 h2 =>
    have e1 : s.loc c = .finishing w := (fin w c).2 ⟨p, Or.inr ⟨_, h1⟩⟩
    have e2 := hw w p c same h1 h2
    refine invVal_frame hv ?_ rfl rfl ?_ ?_ ?_ <;> simp only [report, upd_apply] <;> grind [Alive]
  | decLose w p c same h1 h2 =>
    have e1 : s.loc c = .finishing w := (fin w c).2 ⟨p, Or.inr ⟨_, h1⟩⟩
    refine invVal_frame hv ?_ rfl rfl ?_ ?_ ?_ <;> simp only [report, upd_apply] <;> grind [Alive]
  | finLose w same h1 =>
    cases same <;> (refine invVal_frame hv ?_ rfl rfl ?_ ?_ ?_ <;> simp [release])
  | selfSteal w p c r h1 h2 =>
    have e2 : s.loc p = .queued w c := (queue w p c).2 (by simp [h2])
    refine invVal_frame hv ?_ rfl rfl ?_ ?_ ?_ <;> simp only [upd_apply] <;> grind [Alive]
  | selfNone w h1 h2 =>
    refine invVal_frame hv ?_ rfl rfl ?_ ?_ ?_ <;> grind
  | stole w p h1 =>
    have e2 : s.loc p = .stolenBy w := (sto w p).2 h1
    refine invVal_frame hv ?_ rfl rfl ?_ ?_ ?_ <;> simp only [upd_apply] <;> grind [Alive]
  | switch w f d k z h1 h2 =>
    have e1 : s.loc f = .running w := (run w f).2 (Or.inl h1)
    refine invVal_frame hv ?_ rfl rfl ?_ ?_ ?_
    · simp only [upd_apply]; grind [Alive]
    · simp only [upd_apply]; grind
    · simp only [upd_apply]; grind
    · intro g
      by_cases e : g = f
      · subst e; exact Or.inr ⟨d, by simp [upd_apply, h2]⟩
      · left; simp [upd_apply, e]
  | switchRel w z h1 =>
    cases z <;> (refine invVal_frame hv ?_ rfl rfl ?_ ?_ ?_ <;> simp [release])
  | steal w v p c r h1 h2 h3 =>
    have e2 : s.loc p = .queued v c := (queue v p c).2 (by simp [h3])
    refine invVal_frame hv ?_ rfl rfl ?_ ?_ ?_ <;> simp only [upd_apply] <;> grind [Alive]
  | take w f r h1 h2 =>
    have e1 : s.loc f = .inbox w := (inb w f).2 (by simp [h2])
    refine invVal_frame hv ?_ rfl rfl ?_ ?_ ?_ <;> simp only [upd_apply] <;> grind [Alive]

end Verif.Runtime
