import Verif.Runtime.Term

/-!
What holds of every state of every serial elision holds of every task of every schedule. Proof device of C59.
-/
namespace Verif.Runtime
variable {σ V : Type}

/-- `P x vs`: closed under the steps of serial elisions; `vs` are the results of the children forked since the last join. -/
structure Closed (body : σ → Act σ V) (P : σ → List V → Prop) : Prop where
  fork : ∀ {x c k vs}, body x = .fork c k → P x vs → P c [] ∧ ∃ y, Ser body c [] y ∧ P k (vs ++ [y])
  call : ∀ {x c k vs}, body x = .call c k → P x vs → P c [] ∧ ∀ y, Ser body c [] y → P (k y) vs
  join : ∀ {x k vs}, body x = .join k → P x vs → P (k vs) []
  switch : ∀ {x d k vs}, body x = .switch d k → P x vs → P k vs

def PAt (body : σ → Act σ V) (P : σ → List V → Prop) (g : Fr σ V) : Prop := ∃ vs, SerAll body g.inits vs ∧ P g.st vs

def PInv (body : σ → Act σ V) (P : σ → List V → Prop) (s : State σ V) : Prop := ∀ f, Alive (s.loc f) → PAt body P (s.fr f)

theorem pinv_of {body : σ → Act σ V} {P : σ → List V → Prop} {s s' : State σ V} (h : PInv body P s)
    (hs : ∀ f, Alive (s'.loc f) → (Alive (s.loc f) ∧ (s'.fr f).inits = (s.fr f).inits ∧ (s'.fr f).st = (s.fr f).st) ∨
      PAt body P (s'.fr f)) : PInv body P s' := by
  intro f ha
  rcases hs f ha with ⟨h1, h2, h3⟩ | h1
  · obtain ⟨vs, a, b⟩ := h f h1
    exact ⟨vs, by rw [h2]; exact a, by rw [h3]; exact b⟩
  · exact h1

theorem pinv_pass {body : σ → Act σ V} {P : σ → List V → Prop} (hP : Closed body P) {s s' : State σ V} {w f : Nat} {k : List V → σ}
    {vs : List V} (h : PInv body P s) (hv : InvVal body s) (ha : Alive (s.loc f)) (hb : body (s.fr f).st = .join k)
    (hr : results (s.fr f).slots = some vs) (h5 : s'.loc = upd s.loc f (.running w)) (h7 : ∀ g, g ≠ f → s'.fr g = s.fr g)
    (h8 : (s'.fr f).st = k vs) (h9 : (s'.fr f).inits = []) : PInv body P s' := by
  refine pinv_of h fun g hg => ?_
  by_cases e : g = f
  · subst e
    obtain ⟨us, a, b⟩ := h g ha
    have e : us = vs := serAll_det a (serAll_results hv ha hr)
    subst e
    exact .inr ⟨[], by rw [h9]; exact .nil, by rw [h8]; exact hP.join hb b⟩
  · rw [h5, upd_ne _ _ e] at hg
    exact .inl ⟨hg, by rw [h7 g e], by rw [h7 g e]⟩

theorem pinv_step {body : σ → Act σ V} {pend : σ → Nat} {P : σ → List V → Prop} (hP : Closed body P) {s s' : State σ V} (hd : Disc body pend)
    (h : Inv body pend s) (hf : Few s) (hp : PInv body P s) (st : Step body (fun c => P c []) s s') : PInv body P s' := by
  have hl := h.link
  have hv := h.val
  have hst := h.st
  have hw := hw_of h.loc hl h.count hf
  obtain ⟨fresh, run, sto, win, fin, queue, inb', qnd, ind⟩ := h.loc
  have e0 : s.loc s.nf = .unborn := (fresh _).2 (Nat.le_refl _)
  have old : ∀ f, s.loc f ≠ .unborn → f ≠ s.nf := fun f hx e => hx (e ▸ e0)
  have kidA : ∀ w p c, (s.pc w = .finPop p c ∨ ∃ b, s.pc w = .finDec p c b) → Alive (s.loc p) ∧ s.loc c = .finishing w := by
    intro w p c hpc
    have e1 : s.loc c = .finishing w := (fin w c).2 ⟨p, hpc⟩
    rcases hpc with e | ⟨b, e⟩
    · exact ⟨hl.kid c p (hl.flink w p c e) (by simp [e1]) (by simp [e1]), e1⟩
    · exact ⟨hl.kid c p (hl.flink' w p c b e) (by simp [e1]) (by simp [e1]), e1⟩
  cases st with
  | fork w f c k h1 h2 =>
    have e1 : s.loc f = .running w := (run w f).2 (Or.inl h1)
    have hne : f ≠ s.nf := old f (by simp [e1])
    obtain ⟨us, n1, n2⟩ := hp f (by simp [e1, Alive])
    obtain ⟨n3, y, n4, n5⟩ := hP.fork h2 n2
    refine pinv_of hp fun g hg => ?_
    by_cases e : g = s.nf
    · subst e
      refine .inr ⟨[], ?_, ?_⟩
      · simpa [doFork, newFrame, upd_same, upd_ne _ _ (Ne.symm hne)] using .nil
      · simpa [doFork, newFrame, upd_same, upd_ne _ _ (Ne.symm hne)] using n3
    · by_cases e' : g = f
      · subst e'
        refine .inr ⟨us ++ [y], ?_, ?_⟩
        · simpa [doFork, upd_same] using .snoc n1 n4
        · simpa [doFork, upd_same] using n5
      · refine .inl ⟨?_, ?_, ?_⟩
        · simpa [doFork, upd_ne _ _ e, upd_ne _ _ e'] using hg
        · simp [doFork, newFrame, upd_ne _ _ e, upd_ne _ _ e']
        · simp [doFork, newFrame, upd_ne _ _ e, upd_ne _ _ e']
  | call w f c k h1 h2 =>
    have e1 : s.loc f = .running w := (run w f).2 (Or.inl h1)
    have hne : f ≠ s.nf := old f (by simp [e1])
    obtain ⟨us, n1, n2⟩ := hp f (by simp [e1, Alive])
    obtain ⟨n3, -⟩ := hP.call h2 n2
    refine pinv_of hp fun g hg => ?_
    by_cases e : g = s.nf
    · subst e
      refine .inr ⟨[], ?_, ?_⟩
      · simpa [doCall, newFrame, upd_same] using .nil
      · simpa [doCall, newFrame, upd_same] using n3
    · refine .inl ⟨?_, ?_, ?_⟩
      · by_cases e' : g = f
        · subst e'; simp [e1, Alive]
        · simpa [doCall, upd_ne _ _ e, upd_ne _ _ e'] using hg
      · simp [doCall, newFrame, upd_ne _ _ e]
      · simp [doCall, newFrame, upd_ne _ _ e]
  | joinNow w f k vs h1 h2 h3 h4 h5 h6 =>
    have e1 : s.loc f = .running w := (run w f).2 (Or.inl h1)
    exact pinv_pass hP (w := w) hp hv (by simp [e1, Alive]) h2 h6 rfl (fun g hg => upd_ne _ _ hg) (by simp [passed, upd_same])
      (by simp [passed, upd_same])
  | joinTake w f k vs h1 h2 h3 h4 h5 h6 =>
    have e1 : s.loc f = .winning w := (win w f).2 (Or.inl h1)
    exact pinv_pass hP (w := w) hp hv (by simp [e1, Alive]) h2 h6 rfl (fun g hg => by simp [passed, upd_ne _ _ hg])
      (by simp [passed, upd_same]) (by simp [passed, upd_same])
  | finWin w p same k vs h1 h2 h3 =>
    have e1 : s.loc p = .winning w := (win w p).2 (Or.inr ⟨_, h1⟩)
    exact pinv_pass hP (w := w) hp hv (by simp [e1, Alive]) h2 h3 rfl (fun g hg => by simp [passed, upd_ne _ _ hg])
      (by simp [passed, upd_same]) (by simp [passed, upd_same])
  | retCall w f p v c k h1 h2 h3 h4 h5 h6 =>
    have e1 : s.loc f = .running w := (run w f).2 (Or.inl h1)
    have ha : Alive (s.loc f) := by simp [e1, Alive]
    have e3 : s.loc p = .callwait f := (hl.callw p f).2 ⟨h4, ha⟩
    obtain ⟨k', e4⟩ := hst.cw p f e3
    rw [h6] at e4; cases e4
    obtain ⟨us, n1, n2⟩ := hp p (by simp [e3, Alive])
    refine pinv_of hp fun g hg => ?_
    by_cases e' : g = p
    · subst e'
      refine .inr ⟨us, by simpa [upd_same] using n1, ?_⟩
      obtain ⟨ws, m1, m2⟩ := hp f ha
      simpa [upd_same] using (hP.call h6 n2).2 v (hv.val f ws v ha m1 (.ret h2))
    · refine .inl ⟨?_, by simp [upd_ne _ _ e'], by simp [upd_ne _ _ e']⟩
      simp only [upd_ne _ _ e', upd_apply] at hg
      split at hg
      · exact hg.elim
      · exact hg
  | switch w f d k z h1 h2 h3 h4 h5 =>
    have e1 : s.loc f = .running w := (run w f).2 (Or.inl h1)
    obtain ⟨us, n1, n2⟩ := hp f (by simp [e1, Alive])
    refine pinv_of hp fun g hg => ?_
    by_cases e : g = f
    · subst e
      exact .inr ⟨us, by simpa [upd_same] using n1, by simpa [upd_same] using hP.switch h2 n2⟩
    · exact .inl ⟨by simpa [upd_ne _ _ e] using hg, by simp [upd_ne _ _ e], by simp [upd_ne _ _ e]⟩
  | submit c w hc =>
    refine pinv_of hp fun g hg => ?_
    by_cases e : g = s.nf
    · subst e
      refine .inr ⟨[], ?_, ?_⟩
      · simpa [submit, newFrame, upd_same] using .nil
      · simpa [submit, newFrame, upd_same] using hc
    · exact .inl ⟨by simpa [submit, upd_ne _ _ e] using hg, by simp [submit, newFrame, upd_ne _ _ e], by simp [submit, newFrame, upd_ne _ _ e]⟩
  | joinWait w f k h1 h2 h3 => exact hp
  | loadLose w f h1 => exact hp
  | popMiss w p c h1 h2 => exact hp
  | selfNone w h1 h2 => exact hp
  | finLose w same h1 => cases same <;> exact hp
  | switchRel w z h1 => cases z <;> exact hp
  | loadWin w f h1 h2 =>
    have e1 : s.loc f = .running w := (run w f).2 (Or.inr (Or.inl h1))
    refine pinv_of hp fun g hg => .inl ⟨?_, rfl, rfl⟩
    simp only [upd_apply] at hg; grind [Alive]
  | subWin w f h1 h2 =>
    have e1 : s.loc f = .running w := (run w f).2 (Or.inr (Or.inr h1))
    refine pinv_of hp fun g hg => .inl ⟨?_, ?_, ?_⟩ <;> simp only [upd_apply] at hg ⊢ <;> grind [Alive]
  | subLose w f h1 h2 =>
    have e1 : s.loc f = .running w := (run w f).2 (Or.inr (Or.inr h1))
    refine pinv_of hp fun g hg => .inl ⟨?_, ?_, ?_⟩ <;> simp only [upd_apply] at hg ⊢ <;> grind [Alive]
  | retRoot w f v h1 h2 h3 =>
    refine pinv_of hp fun g hg => .inl ⟨?_, rfl, rfl⟩
    simp only [upd_apply] at hg; grind [Alive]
  | retFork w f p i v h1 h2 h3 h4 =>
    refine pinv_of hp fun g hg => .inl ⟨?_, ?_, ?_⟩ <;> simp only [upd_apply] at hg ⊢ <;> grind [Alive]
  | popHit w p c c' r h1 h2 =>
    have hk := kidA w p c (Or.inl h1)
    refine pinv_of hp fun g hg => .inl ⟨?_, ?_, ?_⟩ <;> simp only [report, upd_apply] at hg ⊢ <;> grind [Alive]
  | decWin w p c same h1 h2 =>
    have hk := kidA w p c (Or.inr ⟨_, h1⟩)
    refine pinv_of hp fun g hg => .inl ⟨?_, ?_, ?_⟩ <;> simp only [report, upd_apply] at hg ⊢ <;> grind [Alive]
  | decLose w p c same h1 h2 =>
    refine pinv_of hp fun g hg => .inl ⟨?_, ?_, ?_⟩ <;> simp only [report, upd_apply] at hg ⊢ <;> grind [Alive]
  | selfSteal w p c r h1 h2 =>
    have e2 : s.loc p = .queued w c := (queue w p c).2 (by rw [h2]; exact List.mem_cons_self ..)
    refine pinv_of hp fun g hg => .inl ⟨?_, rfl, rfl⟩
    simp only [upd_apply] at hg; grind [Alive]
  | stole w p h1 =>
    have e1 : s.loc p = .stolenBy w := (sto w p).2 h1
    refine pinv_of hp fun g hg => .inl ⟨?_, ?_, ?_⟩ <;> simp only [upd_apply] at hg ⊢ <;> grind [Alive]
  | steal w v p c r h1 h2 h3 =>
    have e2 : s.loc p = .queued v c := (queue v p c).2 (by rw [h3]; simp)
    refine pinv_of hp fun g hg => .inl ⟨?_, rfl, rfl⟩
    simp only [upd_apply] at hg; grind [Alive]
  | take w f r h1 h2 =>
    have e1 : s.loc f = .inbox w := (inb' w f).2 (by rw [h2]; exact List.mem_cons_self ..)
    refine pinv_of hp fun g hg => .inl ⟨?_, rfl, rfl⟩
    simp only [upd_apply] at hg; grind [Alive]

end Verif.Runtime
