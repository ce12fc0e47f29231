import Verif.Runtime.Props

/-! A return object is unwritten as long as its child has not ended. -/
namespace Verif.Runtime
variable {σ V : Type}

structure InvSlot (s : State σ V) : Prop where
  un : ∀ c p i, s.link c = .fork p i → Alive (s.loc c) → (s.fr p).slots[i]? = some none
  uq : ∀ c c' p i, s.link c = .fork p i → s.link c' = .fork p i → Alive (s.loc c) → Alive (s.loc c') → c = c'

/-- Only return objects of tasks without children are dropped. -/
theorem InvSlot.keep {s s' : State σ V} (h : InvSlot s) (hl : s'.link = s.link) (ha : ∀ c, Alive (s'.loc c) → Alive (s.loc c))
    (hs : ∀ c p i, s.link c = .fork p i → Alive (s'.loc c) → (s.fr p).slots[i]? = some none → (s'.fr p).slots[i]? = some none) :
    InvSlot s' :=
  ⟨fun c p i h1 h2 => hs c p i (hl ▸ h1) h2 (h.un c p i (hl ▸ h1) (ha c h2)),
    fun c c' p i h1 h2 h3 h4 => h.uq c c' p i (hl ▸ h1) (hl ▸ h2) (ha c h3) (ha c' h4)⟩

theorem nokids {s : State σ V} (hl : InvLink s) {f : Nat} (ha : Alive (s.loc f)) (hk : (s.fr f).kids = []) {c p i : Nat}
    (h1 : s.link c = .fork p i) (h2 : Alive (s.loc c)) : p ≠ f := by
  rintro rfl
  have := (hl.kids p ha c).2 ⟨by rw [h1]; rfl, by intro e; rw [e] at h2; exact h2, by intro e; rw [e] at h2; exact h2⟩
  rw [hk] at this; cases this

set_option maxHeartbeats 1000000 in
theorem invSlot_step {body : σ → Act σ V} {pend : σ → Nat} {P : σ → Prop} {s s' : State σ V} (h : Inv body pend s)
    (hsl : InvSlot s) (st : Step body P s s') : InvSlot s' := by
  have hi := h.loc
  have hl := h.link
  have hc := h.count
  have hrun : ∀ w f, s.pc w = .run f → s.loc f = .running w := fun w f h1 => (hi.run w f).2 (Or.inl h1)
  have e0 : s.loc s.nf = .unborn := (hi.fresh _).2 (Nat.le_refl _)
  have hbig : ∀ f, Alive (s.loc f) → f < s.nf := by
    intro f ha
    by_cases hx : s.nf ≤ f
    · rw [(hi.fresh f).2 hx] at ha; exact absurd ha id
    · omega
  have par : ∀ c p i, s.link c = .fork p i → Alive (s.loc c) → p < c := fun c p i h1 h2 =>
    hl.olderF c p (hbig c h2) (by rw [h1]; rfl)
  have drop : ∀ f, Alive (s.loc f) → (s.fr f).kids = [] → ∀ (g : Fr σ V) (c p i : Nat), s.link c = .fork p i → Alive (s.loc c) →
      (s.fr p).slots[i]? = some none → ((upd s.fr f g) p).slots[i]? = some none := by
    intro f ha hk g c p i h1 h2 h3
    rw [upd_ne _ _ (nokids hl ha hk h1 h2)]; exact h3
  cases st with
  | fork w f c k h1 h2 =>
    have e1 := hrun w f h1
    have e2 : f < s.nf := hbig f (by rw [e1]; trivial)
    refine ⟨fun c' p i h3 h4 => ?_, fun c1 c2 p i h3 h4 h5 h6 => ?_⟩
    · simp only [doFork, newFrame, upd_apply] at h3 h4 ⊢
      by_cases hn : c' = s.nf
      · subst hn
        simp only [if_true] at h3
        cases h3
        simp
      · have ha : Alive (s.loc c') := by
          simp only [hn, if_false] at h4
          by_cases hf : c' = f
          · subst hf; rw [e1]; trivial
          · simpa [hf] using h4
        simp only [hn, if_false] at h3
        have h7 := hsl.un c' p i h3 ha
        have h8 := par c' p i h3 ha
        have h9 := hbig c' ha
        by_cases hp : p = f
        · subst hp
          simp only [if_true]
          have hlt : i < (s.fr p).slots.length := by
            by_cases hx : i < (s.fr p).slots.length
            · exact hx
            · rw [List.getElem?_eq_none (by omega)] at h7; cases h7
          rw [List.getElem?_append_left hlt]; exact h7
        · simp only [hp, if_false]
          rw [if_neg (by omega)]; exact h7
    · simp only [doFork, newFrame, upd_apply] at h3 h4 h5 h6
      have old : ∀ c', c' ≠ s.nf → Alive (if c' = s.nf then Loc.running w else if c' = f then Loc.queued w s.nf else s.loc c') → Alive (s.loc c') := by
        intro c' hn ha
        simp only [hn, if_false] at ha
        by_cases hf : c' = f
        · subst hf; rw [e1]; trivial
        · simpa [hf] using ha
      have len : ∀ c' q, c' ≠ s.nf → s.link c' = .fork f q → Alive (s.loc c') → q < (s.fr f).slots.length := by
        intro c' q _ hlk ha
        have h7 := hsl.un c' f q hlk ha
        by_cases hx : q < (s.fr f).slots.length
        · exact hx
        · rw [List.getElem?_eq_none (by omega)] at h7; cases h7
      by_cases n1 : c1 = s.nf <;> by_cases n2 : c2 = s.nf
      · rw [n1, n2]
      · simp only [n1, if_true] at h3; cases h3
        simp only [n2, if_false] at h4
        have := len c2 _ n2 h4 (old c2 n2 h6); omega
      · simp only [n2, if_true] at h4; cases h4
        simp only [n1, if_false] at h3
        have := len c1 _ n1 h3 (old c1 n1 h5); omega
      · simp only [n1, n2, if_false] at h3 h4
        exact hsl.uq c1 c2 p i h3 h4 (old c1 n1 h5) (old c2 n2 h6)
  | call w f c k h1 h2 =>
    have e1 := hrun w f h1
    have old : ∀ c', c' ≠ s.nf → Alive ((doCall s w f c).loc c') → Alive (s.loc c') := by
      intro c' hn ha
      simp only [doCall, upd_apply, hn, if_false] at ha
      by_cases hf : c' = f
      · subst hf; rw [e1]; trivial
      · simpa [hf] using ha
    have nn : ∀ c' p i, (doCall s w f c).link c' = .fork p i → c' ≠ s.nf ∧ s.link c' = .fork p i := by
      intro c' p i hx
      simp only [doCall, newFrame, upd_apply] at hx
      by_cases hn : c' = s.nf
      · simp [hn] at hx
      · exact ⟨hn, by simpa [hn] using hx⟩
    refine ⟨fun c' p i h3 h4 => ?_, fun c1 c2 p i h3 h4 h5 h6 => ?_⟩
    · obtain ⟨hn, h3⟩ := nn _ _ _ h3
      have ha := old c' hn h4
      have h8 := par c' p i h3 ha
      have h9 := hbig c' ha
      have h7 := hsl.un c' p i h3 ha
      show (upd s.fr s.nf _ p).slots[i]? = _
      rw [upd_ne _ _ (by omega)]; exact h7
    · obtain ⟨n1, h3⟩ := nn _ _ _ h3
      obtain ⟨n2, h4⟩ := nn _ _ _ h4
      exact hsl.uq c1 c2 p i h3 h4 (old c1 n1 h5) (old c2 n2 h6)
  | submit c w =>
    have old : ∀ c', c' ≠ s.nf → Alive ((submit s c w).loc c') → Alive (s.loc c') := by
      intro c' hn ha
      simpa only [submit, upd_apply, hn, if_false] using ha
    have nn : ∀ c' p i, (submit s c w).link c' = .fork p i → c' ≠ s.nf ∧ s.link c' = .fork p i := by
      intro c' p i hx
      simp only [submit, newFrame, upd_apply] at hx
      by_cases hn : c' = s.nf
      · simp [hn] at hx
      · exact ⟨hn, by simpa [hn] using hx⟩
    refine ⟨fun c' p i h3 h4 => ?_, fun c1 c2 p i h3 h4 h5 h6 => ?_⟩
    · obtain ⟨hn, h3⟩ := nn _ _ _ h3
      have ha := old c' hn h4
      have h8 := par c' p i h3 ha
      have h9 := hbig c' ha
      have h7 := hsl.un c' p i h3 ha
      show (upd s.fr s.nf _ p).slots[i]? = _
      rw [upd_ne _ _ (by omega)]; exact h7
    · obtain ⟨n1, h3⟩ := nn _ _ _ h3
      obtain ⟨n2, h4⟩ := nn _ _ _ h4
      exact hsl.uq c1 c2 p i h3 h4 (old c1 n1 h5) (old c2 n2 h6)
  | joinNow w f k vs h1 h2 h3 h4 =>
    have e1 := hrun w f h1
    have ha : Alive (s.loc f) := by rw [e1]; trivial
    have hk : (s.fr f).kids = [] := by
      have := hc.cnt f ha
      have := hc.steal f ha
      rw [← List.length_eq_zero_iff]; simp only [e1, tok] at *; omega
    have al : ∀ c, Alive (upd s.loc f (.running w) c) → Alive (s.loc c) := by
      intro c hx; by_cases e : c = f
      · subst e; exact ha
      · rwa [upd_ne _ _ e] at hx
    exact hsl.keep rfl al (fun c p i h5 h6 h7 => drop f ha hk _ c p i h5 (al c h6) h7)
  | joinTake w f k vs h1 =>
    have e1 : s.loc f = .winning w := (hi.win w f).2 (Or.inl h1)
    have ha : Alive (s.loc f) := by rw [e1]; trivial
    have hk : (s.fr f).kids = [] := by have := hc.join f ha; simpa only [e1, JoinOk] using this
    have al : ∀ c, Alive (upd s.loc f (.running w) c) → Alive (s.loc c) := by
      intro c hx; by_cases e : c = f
      · subst e; exact ha
      · rwa [upd_ne _ _ e] at hx
    exact hsl.keep rfl al (fun c p i h5 h6 h7 => by
      have hp := nokids hl ha hk h5 (al c h6)
      show ((upd (upd s.fr f _) f _) p).slots[i]? = _
      rw [upd_ne _ _ hp, upd_ne _ _ hp]; exact h7)
  | finWin w f same k vs h1 =>
    have e1 : s.loc f = .winning w := (hi.win w f).2 (Or.inr ⟨_, h1⟩)
    have ha : Alive (s.loc f) := by rw [e1]; trivial
    have hk : (s.fr f).kids = [] := by have := hc.join f ha; simpa only [e1, JoinOk] using this
    have al : ∀ c, Alive (upd s.loc f (.running w) c) → Alive (s.loc c) := by
      intro c hx; by_cases e : c = f
      · subst e; exact ha
      · rwa [upd_ne _ _ e] at hx
    exact hsl.keep rfl al (fun c p i h5 h6 h7 => by
      have hp := nokids hl ha hk h5 (al c h6)
      show ((upd (upd s.fr f _) f _) p).slots[i]? = _
      rw [upd_ne _ _ hp, upd_ne _ _ hp]; exact h7)
  | retFork w f p i v h1 h2 h3 h4 =>
    have e1 := hrun w f h1
    have ha : Alive (s.loc f) := by rw [e1]; trivial
    refine hsl.keep rfl (fun c hx => ?_) (fun c q j h5 h6 h7 => ?_)
    · simp only [upd_apply] at hx; grind [Alive]
    · have hcf : c ≠ f := by rintro rfl; simp only [upd_same, Alive] at h6
      simp only [upd_ne _ _ hcf] at h6
      simp only [upd_apply]
      by_cases hq : q = p
      · subst hq
        simp only [if_true]
        have hij : i ≠ j := by rintro rfl; exact hcf (hsl.uq c f q i h5 h4 h6 ha)
        rw [List.getElem?_set_ne hij]; exact h7
      · simp only [hq, if_false]; exact h7
  | retRoot w f v h1 =>
    refine hsl.keep rfl (fun c hx => ?_) (fun c q j h5 h6 h7 => h7)
    simp only [upd_apply] at hx; grind [Alive]
  | retCall w f p v c k h1 h2 h3 h4 =>
    have e1 := hrun w f h1
    have e2 := (hl.callw p f).2 ⟨h4, by rw [e1]; trivial⟩
    refine hsl.keep rfl (fun c hx => ?_) (fun c q j h5 h6 h7 => ?_)
    · simp only [upd_apply] at hx; grind [Alive]
    · simp only [upd_apply]; grind
  | joinWait w f k h1 => exact hsl.keep rfl (fun c hx => hx) (fun c q j h5 h6 h7 => h7)
  | loadWin w f h1 h2 =>
    have e1 : s.loc f = .running w := (hi.run w f).2 (Or.inr (Or.inl h1))
    refine hsl.keep rfl (fun c hx => ?_) (fun c q j h5 h6 h7 => h7)
    simp only [upd_apply] at hx; grind [Alive]
  | loadLose w f h1 => exact hsl.keep rfl (fun c hx => hx) (fun c q j h5 h6 h7 => h7)
  | subWin w f h1 h2 =>
    have e1 : s.loc f = .running w := (hi.run w f).2 (Or.inr (Or.inr h1))
    refine hsl.keep rfl (fun c hx => ?_) (fun c q j h5 h6 h7 => ?_)
    · simp only [upd_apply] at hx; grind [Alive]
    · simp only [upd_apply]; grind
  | subLose w f h1 h2 =>
    have e1 : s.loc f = .running w := (hi.run w f).2 (Or.inr (Or.inr h1))
    refine hsl.keep rfl (fun c hx => ?_) (fun c q j h5 h6 h7 => ?_)
    · simp only [upd_apply] at hx; grind [Alive]
    · simp only [upd_apply]; grind
  | popHit w p c c' r h1 h2 =>
    have e1 : s.loc p = .queued w c' := (hi.queue w p c').2 (by rw [h2]; exact List.mem_cons_self ..)
    refine hsl.keep rfl (fun c hx => ?_) (fun c q j h5 h6 h7 => ?_)
    · simp only [report, upd_apply] at hx; grind [Alive]
    · simp only [report, upd_apply]; grind
  | popMiss w p c h1 h2 => exact hsl.keep rfl (fun c hx => hx) (fun c q j h5 h6 h7 => h7)
  | decWin w p c same h1 h2 =>
    have e1 : s.loc c = .finishing w := (hi.fin w c).2 ⟨p, Or.inr ⟨_, h1⟩⟩
    have e2 : Alive (s.loc p) := hl.kid c p (hl.flink' w p c _ h1) (by simp [e1]) (by simp [e1])
    refine hsl.keep rfl (fun c hx => ?_) (fun c q j h5 h6 h7 => ?_)
    · simp only [report, upd_apply] at hx; grind [Alive]
    · simp only [report, upd_apply]; grind
  | decLose w p c same h1 h2 =>
    refine hsl.keep rfl (fun c hx => ?_) (fun c q j h5 h6 h7 => ?_)
    · simp only [report, upd_apply] at hx; grind [Alive]
    · simp only [report, upd_apply]; grind
  | finLose w same h1 => cases same <;> exact hsl.keep rfl (fun c hx => hx) (fun c q j h5 h6 h7 => h7)
  | selfSteal w p c r h1 h2 =>
    have e1 : s.loc p = .queued w c := (hi.queue w p c).2 (by rw [h2]; exact List.mem_cons_self ..)
    refine hsl.keep rfl (fun c hx => ?_) (fun c q j h5 h6 h7 => h7)
    simp only [upd_apply] at hx; grind [Alive]
  | selfNone w h1 => exact hsl.keep rfl (fun c hx => hx) (fun c q j h5 h6 h7 => h7)
  | stole w p h1 =>
    have e1 : s.loc p = .stolenBy w := (hi.sto w p).2 h1
    refine hsl.keep rfl (fun c hx => ?_) (fun c q j h5 h6 h7 => ?_)
    · simp only [upd_apply] at hx; grind [Alive]
    · simp only [upd_apply]; grind
  | switch w f d k z h1 =>
    have e1 := hrun w f h1
    refine hsl.keep rfl (fun c hx => ?_) (fun c q j h5 h6 h7 => ?_)
    · simp only [upd_apply] at hx; grind [Alive]
    · simp only [upd_apply]; grind
  | switchRel w z h1 => cases z <;> exact hsl.keep rfl (fun c hx => hx) (fun c q j h5 h6 h7 => h7)
  | steal w v p c r h1 h2 h3 =>
    have e1 : s.loc p = .queued v c := (hi.queue v p c).2 (by rw [h3]; simp)
    refine hsl.keep rfl (fun c hx => ?_) (fun c q j h5 h6 h7 => h7)
    simp only [upd_apply] at hx; grind [Alive]
  | take w f r h1 h2 =>
    have e1 : s.loc f = .inbox w := (hi.inb w f).2 (by rw [h2]; exact List.mem_cons_self ..)
    refine hsl.keep rfl (fun c hx => ?_) (fun c q j h5 h6 h7 => h7)
    simp only [upd_apply] at hx; grind [Alive]

theorem reach_slot {body : σ → Act σ V} {pend : σ → Nat} (hd : Disc body pend) {s : State σ V} (h : Reach body pend s) :
    InvSlot s := by
  induction h with
  | start x => exact ⟨(fun c p i h => by cases h), (fun c c' p i h => by cases h)⟩
  | submit w h hf hp ih => exact invSlot_step (reach_inv hd h) ih (P := fun c => pend c = 0) (.submit _ _ w hp)
  | step h hf hs ih => exact invSlot_step (reach_inv hd h) ih (P := fun c => pend c = 0) (step_rel hs)

end Verif.Runtime
