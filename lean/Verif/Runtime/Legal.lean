import Verif.Runtime.InvLog

/-! Every history keeps the rules. -/
namespace Verif.Runtime
variable {σ V : Type}

/-- What has been recorded about results and submissions is right. -/
structure InvRes (body : σ → Act σ V) (s : State σ V) : Prop where
  dn : ∀ f v, Ev.done f v ∈ s.log → Ser body (s.init f) [] v ∧ f < s.nf
  sb : ∀ f c w, Ev.submit f c w ∈ s.log → s.init f = c ∧ f < s.nf

theorem invRes_frame {body : σ → Act σ V} {s s' : State σ V} (h : InvRes body s) (h1 : ∀ f, f < s.nf → s'.init f = s.init f)
    (h2 : s.nf ≤ s'.nf)
    (h3 : ∀ f v, Ev.done f v ∈ s'.log → Ev.done f v ∈ s.log ∨ (Ser body (s.init f) [] v ∧ f < s.nf))
    (h4 : ∀ f c w, Ev.submit f c w ∈ s'.log → Ev.submit f c w ∈ s.log ∨ (s'.init f = c ∧ f < s'.nf)) : InvRes body s' := by
  constructor
  · intro f v hm
    rcases h3 f v hm with e | e
    · obtain ⟨a, b⟩ := h.dn f v e; exact ⟨by rw [h1 f b]; exact a, by omega⟩
    · exact ⟨by rw [h1 f e.2]; exact e.1, by omega⟩
  · intro f c w hm
    rcases h4 f c w hm with e | e
    · obtain ⟨a, b⟩ := h.sb f c w e; exact ⟨by rw [h1 f b]; exact a, by omega⟩
    · exact e

theorem invRes_step {body : σ → Act σ V} {pend : σ → Nat} (hd : Disc body pend) {s s' : State σ V} (hx : Ctx s)
    (hs : InvSt body pend s) (hv : InvVal body s) (hr : InvRes body s) (stp : Step body P s s') : InvRes body s' := by
  have key : ∀ w f v, s.pc w = .run f → body (s.fr f).st = .ret v → Ser body (s.init f) [] v ∧ f < s.nf := by
    intro w f v h1 h2
    have e1 : s.loc f = .running w := (hx.loc.run w f).2 (Or.inl h1)
    refine ⟨ret_ser hd hs hv (by simp [e1, Alive]) h2, ?_⟩
    have := hx.loc.fresh f
    rw [e1] at this
    simpa using this
  have new : ∀ (c : σ) f, f < s.nf → upd s.init s.nf c f = s.init f := fun c f hf => upd_ne _ _ (Nat.ne_of_lt hf)
  cases stp with
  | fork w f c k h1 h2 =>
    refine invRes_frame hr (new c) (Nat.le_succ _) ?_ ?_ <;> simp [doFork, newFrame] <;> grind
  | call w f c k h1 h2 =>
    refine invRes_frame hr (new c) (Nat.le_succ _) ?_ ?_ <;> simp [doCall, newFrame] <;> grind
  | submit c w =>
    refine invRes_frame hr (new c) (Nat.le_succ _) ?_ ?_
    · simp [submit, newFrame]; grind
    · intro f c' w' hm
      simp only [submit, newFrame, List.mem_cons, Ev.submit.injEq] at hm ⊢
      rcases hm with ⟨rfl, rfl, rfl⟩ | hm
      · right; exact ⟨upd_same _ _ _, Nat.lt_succ_self _⟩
      · left; exact hm
  | retRoot w f v h1 h2 h3 h4 =>
    have := key w f v h1 h2
    refine invRes_frame hr (fun _ _ => rfl) (Nat.le_refl _) ?_ ?_ <;> simp [destroyed] <;> grind
  | retCall w f p v c k h1 h2 h3 h4 h5 h6 =>
    have := key w f v h1 h2
    refine invRes_frame hr (fun _ _ => rfl) (Nat.le_refl _) ?_ ?_ <;> simp [destroyed] <;> grind
  | retFork w f p i v h1 h2 h3 h4 =>
    have := key w f v h1 h2
    refine invRes_frame hr (fun _ _ => rfl) (Nat.le_refl _) ?_ ?_ <;> simp [destroyed] <;> grind
  | finLose w same h1 =>
    cases same <;> (refine invRes_frame hr (fun _ _ => rfl) (Nat.le_refl _) ?_ ?_ <;> simp [release] <;> grind)
  | switchRel w z h1 =>
    cases z <;> (refine invRes_frame hr (fun _ _ => rfl) (Nat.le_refl _) ?_ ?_ <;> simp [release] <;> grind)
  | _ => refine invRes_frame hr (fun _ _ => rfl) (Nat.le_refl _) ?_ ?_ <;> simp [passed, report] <;> grind

theorem legal_step {body : σ → Act σ V} {pend : σ → Nat} (hd : Disc body pend) {s s' : State σ V} (hx : Ctx s)
    (hs : InvSt body pend s) (hg : InvLog s) (h : Legal s.log) (stp : Step body P s s') : Legal s'.log := by
  have hl := hx.link
  have hc := hx.count
  have hi := hx.loc
  have hret := hk_of hd hi hc hs
  have kz : ∀ f, Alive (s.loc f) → tok (s.loc f) = 0 → (s.fr f).steal = 0 → (s.fr f).kids = [] := by
    intro f h1 h2 h3
    have := hc.cnt f h1
    have := hc.steal f h1
    rw [← List.length_eq_zero_iff]; omega
  have e0 : s.loc s.nf = .unborn := (hi.fresh _).2 (Nat.le_refl _)
  have no : ∀ w, (∀ f, s.pc w ≠ .run f) → ∀ g, status g s.log ≠ .running w := fun w h g hgs => h g (run_of_status hi hg hgs)
  have only : ∀ w f g, s.pc w = .run f → status g s.log = .running w → g = f := by
    intro w f g h1 h2; have := run_of_status hi hg h2; rw [h1] at this; cases this; rfl
  cases stp with
  | fork w f c k h1 h2 =>
    have r := hg.rn w f h1
    have hne : f ≠ s.nf := by rintro rfl; have := (hi.run w _).2 (Or.inl h1); rw [e0] at this; cases this
    have hnf := hg.un _ e0
    refine ⟨?_, ?_, ⟨w, r⟩, h⟩
    · intro g
      simp only [status]
      split
      · simp
      · rename_i hfg; intro hgs; exact hfg (only w f g h1 hgs).symm
    · simp only [MayResume, status, hne, if_false, hnf, Starts]
      exact ⟨trivial, r⟩
  | call w f c k h1 h2 =>
    have r := hg.rn w f h1
    have hne : f ≠ s.nf := by rintro rfl; have := (hi.run w _).2 (Or.inl h1); rw [e0] at this; cases this
    have hnf := hg.un _ e0
    refine ⟨?_, ?_, ⟨w, r⟩, h⟩
    · intro g
      simp only [status]
      split
      · simp
      · rename_i hfg; intro hgs; exact hfg (only w f g h1 hgs).symm
    · simp only [MayResume, status, hne, if_false, hnf, Starts]
      exact ⟨trivial, r⟩
  | joinNow w f k vs h1 h2 h3 h4 h5 h6 =>
    have r := hg.rn w f h1
    have e1 : s.loc f = .running w := (hi.run w f).2 (Or.inl h1)
    refine ⟨?_, ?_, ⟨w, r⟩, h⟩
    · intro g
      simp only [status]
      split
      · simp
      · rename_i hfg; intro hgs; exact hfg (only w f g h1 hgs).symm
    · simp only [MayResume, status, if_true, forked]
      intro c hcf
      have hdn := forked_done hl hg (p := f) (by simp [e1, Alive]) (kz f (by simp [e1, Alive]) (by simp [e1, tok]) h3) c hcf
      have : f ≠ c := by rintro rfl; rw [r] at hdn; cases hdn
      simpa [this] using hdn
  | joinWait w f k h1 h2 => exact ⟨⟨w, hg.rn w f h1⟩, h⟩
  | loadWin w f h1 h2 => exact h
  | loadLose w f h1 h2 => exact h
  | subWin w f h1 h2 => exact h
  | subLose w f h1 h2 => exact h
  | joinTake w f k vs h1 h2 h3 h4 h5 h6 =>
    have e1 : s.loc f = .winning w := (hi.win w f).2 (Or.inl h1)
    have c3 := hc.join f (by simp [e1, Alive])
    simp only [e1, JoinOk] at c3
    refine ⟨no w (by rw [h1]; simp), ?_, h⟩
    simp only [MayResume, hg.wi w f e1]
    exact forked_done hl hg (by simp [e1, Alive]) c3
  | retRoot w f v h1 h2 h3 h4 =>
    have e1 : s.loc f = .running w := (hi.run w f).2 (Or.inl h1)
    exact ⟨⟨w, hg.rn w f h1⟩, forked_done hl hg (by simp [e1, Alive]) (hret w f v h1 h2), h⟩
  | retCall w f p v c k h1 h2 h3 h4 h5 h6 =>
    have e1 : s.loc f = .running w := (hi.run w f).2 (Or.inl h1)
    have e3 : s.loc p = .callwait f := (hl.callw p f).2 ⟨h4, by simp [e1, Alive]⟩
    have hne : f ≠ p := by rintro rfl; rw [e1] at e3; cases e3
    refine ⟨?_, ?_, ⟨w, hg.rn w f h1⟩, forked_done hl hg (by simp [e1, Alive]) (hret w f v h1 h2), h⟩
    · intro g
      simp only [status]
      split
      · simp
      · rename_i hfg; intro hgs; exact hfg (only w f g h1 hgs).symm
    · simp [MayResume, status, hne, hg.cw p f e3]
  | retFork w f p i v h1 h2 h3 h4 =>
    have e1 : s.loc f = .running w := (hi.run w f).2 (Or.inl h1)
    exact ⟨⟨w, hg.rn w f h1⟩, forked_done hl hg (by simp [e1, Alive]) (hret w f v h1 h2), h⟩
  | popHit w p c c' r h1 h2 =>
    have e2 : s.loc p = .queued w c' := (hi.queue w p c').2 (by simp [h2])
    exact ⟨no w (by rw [h1]; simp), by simp [MayResume, hg.qd w p c' e2], h⟩
  | popMiss w p c h1 h2 => exact h
  | decWin w p c same h1 h2 => exact h
  | decLose w p c same h1 h2 => exact h
  | finWin w f same k vs h1 h2 h3 h4 h5 h6 =>
    have e1 : s.loc f = .winning w := (hi.win w f).2 (Or.inr ⟨same, h1⟩)
    have c3 := hc.join f (by simp [e1, Alive])
    simp only [e1, JoinOk] at c3
    refine ⟨no w (by rw [h1]; simp), ?_, h⟩
    simp only [MayResume, hg.wi w f e1]
    exact forked_done hl hg (by simp [e1, Alive]) c3
  | finLose w same h1 => cases same <;> exact h
  | selfSteal w p c r h1 h2 => exact h
  | selfNone w h1 h2 => exact h
  | stole w p h1 =>
    have e2 : s.loc p = .stolenBy w := (hi.sto w p).2 h1
    refine ⟨no w (by rw [h1]; simp), ?_, h⟩
    have := hg.sb w p e2
    unfold MayResume
    cases hst : status p s.log with
    | waiting y => cases y <;> simp_all [IsForkWait]
    | _ => simp_all [IsForkWait]
  | switch w f d k z h1 h2 => exact ⟨⟨w, hg.rn w f h1⟩, h⟩
  | switchRel w z h1 => cases z <;> exact h
  | steal w v p c r h1 h2 h3 => exact h
  | take w f r h1 h2 =>
    have e1 : s.loc f = .inbox w := (hi.inb w f).2 (by simp [h2])
    refine ⟨no w (by rw [h1]; simp), ?_, h⟩
    have := hg.ib w f e1
    unfold MayResume
    cases hst : status f s.log with
    | waiting y => cases y <;> simp_all [InboxOk]
    | _ => simp_all [InboxOk]
  | submit c w => exact ⟨hg.un _ e0, h⟩

end Verif.Runtime
