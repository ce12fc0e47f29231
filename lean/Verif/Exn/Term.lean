import Verif.Exn.TermSpec
import Verif.Exn.Props
import Verif.Runtime.Closed
import Verif.Runtime.TermProps
import Verif.FairStop

/-! What the termination of serial elisions says about the translated program (Verif.Exn.Oracle). -/
namespace Verif.Exn
open Verif.Runtime (State Res Fr Pc Loc Link Ev Why upd upd_apply upd_same upd_ne Alive Few SerC sumTo Closed PInv)
variable {σ V E : Type} {body : σ → Act σ V E} {pend : σ → Nat} {dirty : σ → Prop} {may : E → Prop}

theorem Ends.mono {x : σ} {rs : List (Except E V)} {es : List E} {n t : Nat} (h : Ends body may x rs es n) (hn : n ≤ t) :
    Ends body may x rs es t := by
  cases h with
  | ret h1 h2 => exact .ret h1 (by omega)
  | throw h1 h2 => exact .throw h1 (by omega)
  | fork h1 h2 h3 h4 h5 => exact .fork h1 h2 h3 h4 (by omega)
  | call h1 h2 h3 h4 h5 h6 => exact .call h1 h2 h3 h4 h5 (by omega)
  | join h1 h2 h3 h4 => exact .join h1 h2 h3 (by omega)
  | switch h1 h2 h3 h4 => exact .switch h1 h2 h3 (by omega)

theorem norm_fork {c : σ} {k h} {x : σ} (hb : body x = .fork c k h) (o : Orc E) (es : List E) :
    norm body may o x es = (x, es, o) ∨ ∃ e o', may e ∧ norm body may o x es = norm body may o' (h e) es := by
  cases o with
  | fail e o =>
    by_cases hm : may e
    · exact .inr ⟨e, o, hm, by simp [norm, hm, hb]⟩
    · exact .inl (by simp [norm, hm])
  | ready o => exact .inl (by simp [norm, hb])
  | _ => exact .inl rfl

theorem norm_call {c : σ} {k h} {x : σ} (hb : body x = .call c k h) (o : Orc E) (es : List E) :
    norm body may o x es = (x, es, o) ∨ ∃ e o', may e ∧ norm body may o x es = norm body may o' (h e) es := by
  cases o with
  | fail e o =>
    by_cases hm : may e
    · exact .inr ⟨e, o, hm, by simp [norm, hm, hb]⟩
    · exact .inl (by simp [norm, hm])
  | ready o => exact .inl (by simp [norm, hb])
  | _ => exact .inl rfl

theorem norm_switch {d : Nat} {k : σ} {h} {x : σ} (hb : body x = .switch d k h) (o : Orc E) (es : List E) :
    norm body may o x es = (x, es, o) ∨ (∃ e o', may e ∧ norm body may o x es = norm body may o' (h e) es) ∨
      ∃ o', norm body may o x es = norm body may o' k es := by
  cases o with
  | fail e o =>
    by_cases hm : may e
    · exact .inr (.inl ⟨e, o, hm, by simp [norm, hm, hb]⟩)
    · exact .inl (by simp [norm, hm])
  | ready o => exact .inr (.inr ⟨o, by simp [norm, hb]⟩)
  | _ => exact .inl rfl

/-- What is left after some failures. -/
theorem ends_norm {rs : List (Except E V)} (o : Orc E) {x : σ} {es : List E} {n : Nat} (h : Ends body may x rs es n) :
    Ends body may (norm body may o x es).1 rs (norm body may o x es).2.1 n := by
  rw [norm_es]
  induction o generalizing x with
  | fail e o ih =>
    unfold Verif.Exn.norm
    split
    · rename_i hm
      split
      · rename_i hb
        cases h with
        | fork h1 h2 h3 h4 h5 => rw [hb] at h1; cases h1; exact ih ((h4 e hm).mono (by omega))
        | _ => simp_all
      · rename_i hb
        cases h with
        | call h1 h2 h3 h4 h5 h6 => rw [hb] at h1; cases h1; exact ih ((h5 e hm).mono (by omega))
        | _ => simp_all
      · rename_i hb
        cases h with
        | switch h1 h2 h3 h4 => rw [hb] at h1; cases h1; exact ih ((h3 e hm).mono (by omega))
        | _ => simp_all
      · exact h
    · exact h
  | ready o ih =>
    unfold Verif.Exn.norm
    split
    · rename_i hb
      cases h with
      | switch h1 h2 h3 h4 => rw [hb] at h1; cases h1; exact ih (h2.mono (by omega))
      | _ => simp_all
    · exact h
  | _ => exact h

/-- Whatever is foreseen, the translated program ends. -/
theorem Ends.serC {x : σ} {rs : List (Except E V)} {es : List E} {n : Nat} (h : Ends body may x rs es n) (o : Orc E) :
    ∃ r j, SerC (tgt body may) (norm body may o x es) rs r j ∧ j ≤ n := by
  induction h generalizing o with
  | ret h1 h2 => rw [norm_ret h1]; exact ⟨_, 1, .ret (by simp only [tgt, h1]; rfl), h2⟩
  | throw h1 h2 => rw [norm_throw h1]; exact ⟨_, 1, .ret (by simp only [tgt, h1]; rfl), h2⟩
  | @fork x c k h rs es m n t h1 h2 h3 h4 h5 i2 i3 i4 =>
    rcases norm_fork h1 o es with e | ⟨e, o', hm, e'⟩
    · rw [e]
      obtain ⟨y, j, a1, a2⟩ := i2 o.kid
      have hy : Ser body may c [] [] y := by
        have := ser_tgt a1.ser
        rw [norm_es] at this
        exact norm_ser _ _ _ this
      obtain ⟨r, j', b1, b2⟩ := i3 o.bit y hy o.rest
      exact ⟨r, j + j' + 1, .fork (by simp only [tgt, h1]) a1 b1, by omega⟩
    · rw [e']
      obtain ⟨r, j, a1, a2⟩ := i4 e hm o'
      exact ⟨r, j, a1, by omega⟩
  | @call x c k h rs es m n t h1 h2 h3 h4 h5 h6 i2 i3 i4 i5 =>
    rcases norm_call h1 o es with e | ⟨e, o', hm, e'⟩
    · rw [e]
      obtain ⟨y, j, a1, a2⟩ := i2 o.kid
      have hy : Ser body may c [] [] y := by
        have := ser_tgt a1.ser
        rw [norm_es] at this
        exact norm_ser _ _ _ this
      cases y with
      | ok v =>
        obtain ⟨r, j', b1, b2⟩ := i3 v hy o.rest
        exact ⟨r, j + j' + 1, .call (by simp only [tgt, h1]; rfl) a1 b1, by omega⟩
      | error e =>
        obtain ⟨r, j', b1, b2⟩ := i4 e hy o.rest
        exact ⟨r, j + j' + 1, .call (by simp only [tgt, h1]; rfl) a1 b1, by omega⟩
    · rw [e']
      obtain ⟨r, j, a1, a2⟩ := i5 e hm o'
      exact ⟨r, j, a1, by omega⟩
  | @join x k h rs es n t h1 h2 h3 h4 i2 i3 =>
    rw [norm_join h1]
    cases hl : errs rs ++ es with
    | nil =>
      obtain ⟨r, j, a1, a2⟩ := i2 hl o
      refine ⟨r, j + 1, .join (by simp only [tgt, h1]; rfl) ?_, by omega⟩
      simpa only [after, hl] using a1
    | cons e0 l =>
      obtain ⟨r, j, a1, a2⟩ := i3 (pick o.ex e0 l) (hl ▸ pick_mem _ _ _) o.rest
      refine ⟨r, j + 1, .join (by simp only [tgt, h1]; rfl) ?_, by omega⟩
      simpa only [after, hl] using a1
  | @switch x d k h rs es n t h1 h2 h3 h4 i2 i3 =>
    rcases norm_switch h1 o es with e | ⟨e, o', hm, e'⟩ | ⟨o', e'⟩
    · rw [e]
      obtain ⟨r, j, a1, a2⟩ := i2 o.rest
      exact ⟨r, j + 1, .switch (by simp only [tgt, h1]; rfl) a1, by omega⟩
    · rw [e']
      obtain ⟨r, j, a1, a2⟩ := i3 e hm o'
      exact ⟨r, j, a1, by omega⟩
    · rw [e']
      obtain ⟨r, j, a1, a2⟩ := i2 o'
      exact ⟨r, j, a1, by omega⟩

/-- The states from which everything ends within `n` actions. -/
def Short (body : σ → Act σ V E) (may : E → Prop) (n : Nat) (y : T σ E) (rs : List (Except E V)) : Prop := Ends body may y.1 rs y.2.1 n

theorem closed_short (n : Nat) : Closed (tgt body may) (Short body may n) where
  fork {y c k rs} hb h := by
    unfold tgt at hb
    split at hb <;> cases hb
    rename_i hb
    cases h with
    | fork h1 h2 h3 h4 h5 =>
      rw [hb] at h1; cases h1
      refine ⟨(ends_norm _ h2).mono (by omega), ?_⟩
      obtain ⟨v, j, a1, a2⟩ := h2.serC y.2.2.kid
      have := ser_tgt a1.ser
      rw [norm_es] at this
      exact ⟨v, a1.ser, (ends_norm _ (h3 _ v (norm_ser _ _ _ this))).mono (by omega)⟩
    | _ => simp_all
  call {y c k rs} hb h := by
    unfold tgt at hb
    split at hb <;> cases hb
    rename_i hb
    cases h with
    | call h1 h2 h3 h4 h5 h6 =>
      rw [hb] at h1; cases h1
      refine ⟨(ends_norm _ h2).mono (by omega), fun v hv => ?_⟩
      have := ser_tgt hv
      rw [norm_es] at this
      have hv := norm_ser _ _ _ this
      cases v with
      | ok v => exact (ends_norm _ (h3 v hv)).mono (by omega)
      | error e => exact (ends_norm _ (h4 e hv)).mono (by omega)
    | _ => simp_all
  join {y k rs} hb h := by
    unfold tgt at hb
    split at hb <;> cases hb
    rename_i hb
    cases h with
    | join h1 h2 h3 h4 =>
      rw [hb] at h1; cases h1
      show Ends ..
      unfold after
      split
      · rename_i hl; exact (ends_norm _ (h2 hl)).mono (by omega)
      · rename_i e0 l hl; exact (ends_norm _ (h3 _ (hl ▸ pick_mem _ _ _))).mono (by omega)
    | _ => simp_all
  switch {y d k rs} hb h := by
    unfold tgt at hb
    split at hb <;> cases hb
    rename_i hb
    cases h with
    | switch h1 h2 h3 h4 => rw [hb] at h1; cases h1; exact (ends_norm _ h2).mono (by omega)
    | _ => simp_all

/-! ### Which task goes on in a step -/

/-- At most one task gets a new state to go on from. -/
def Touch (s s' : XS σ V E) : Prop :=
  ∃ g, (s'.c.nf = s.c.nf ∨ (s'.c.nf = s.c.nf + 1 ∧ g = s.c.nf)) ∧ ∀ f, f < s'.c.nf → s'.aw f = none →
    (f < s.c.nf ∧ s.aw f = none ∧ (s'.c.fr f).st = (s.c.fr f).st) ∨ (f = g ∧ Alive (s'.c.loc f))

/-- The step of a scheduler that looks at no task. -/
theorem touch_plain {s s' : XS σ V E} {x : Res (State σ (Except E V))} (h : plain s x = .ok s')
    (hx : ∀ c', x = .ok c' → c'.nf = s.c.nf ∧ ∀ f, (c'.fr f).st = (s.c.fr f).st) :
    s'.c.nf = s.c.nf ∧ s'.aw = s.aw ∧ (∀ f, (s'.c.fr f).st = (s.c.fr f).st) ∧ x = .ok s'.c := by
  unfold plain Res.bind at h
  split at h
  · cases h
    exact ⟨(hx _ rfl).1, rfl, (hx _ rfl).2, rfl⟩
  · cases h
  · cases h

theorem touch_of_plain {s s' : XS σ V E} {x : Res (State σ (Except E V))} (h : plain s x = .ok s')
    (hx : ∀ c', x = .ok c' → c'.nf = s.c.nf ∧ ∀ f, (c'.fr f).st = (s.c.fr f).st) : Touch s s' := by
  obtain ⟨h1, h2, h3, -⟩ := touch_plain h hx
  exact ⟨0, .inl h1, fun f hf ha => .inl ⟨by omega, by rw [← h2]; exact ha, h3 f⟩⟩

theorem finPop_same {c c' : State σ (Except E V)} {w p k : Nat} (h : Verif.Runtime.finPop c w p k = .ok c') :
    c'.nf = c.nf ∧ (∀ f, (c'.fr f).st = (c.fr f).st) ∧ (c.q w ≠ [] → Alive (c'.loc p)) := by
  unfold Verif.Runtime.finPop at h
  split at h
  · rename_i hq
    split at h <;> cases h
    refine ⟨rfl, fun f => ?_, fun _ => ?_⟩
    · simp only [Verif.Runtime.report, upd_apply]; split
      · rename_i e; subst e; rfl
      · rfl
    · simp [upd_same, Alive]
  · rename_i hq
    split at h <;> cases h
    exact ⟨rfl, fun _ => rfl, fun hne => absurd hq hne⟩

theorem stole_same {c c' : State σ (Except E V)} {w p : Nat} (h : Verif.Runtime.stole c w p = .ok c') :
    c'.nf = c.nf ∧ (∀ f, (c'.fr f).st = (c.fr f).st) ∧ Alive (c'.loc p) := by
  unfold Verif.Runtime.stole at h
  split at h <;> cases h
  refine ⟨rfl, fun f => ?_, by simp [upd_same, Alive]⟩
  simp only [upd_apply]; split
  · rename_i e; subst e; rfl
  · rfl

theorem touch_wake {s s' : XS σ V E} {x : Res (State σ (Except E V))} {p : Nat} (h : Res.bind (plain s x) (wake body · p) = .ok s')
    (hx : ∀ c', x = .ok c' → c'.nf = s.c.nf ∧ (∀ f, (c'.fr f).st = (s.c.fr f).st) ∧ Alive (c'.loc p)) : Touch s s' := by
  cases hp : plain s x with
  | ub => rw [hp] at h; cases h
  | no => rw [hp] at h; cases h
  | ok s1 =>
    rw [hp] at h
    obtain ⟨h1, h2, h3, h4⟩ := touch_plain hp fun c' hc => ⟨(hx c' hc).1, (hx c' hc).2.1⟩
    have ha := (hx _ h4).2.2
    simp only [Res.bind, wake] at h
    split at h <;> cases h
    refine ⟨p, .inl h1, fun f hf hf2 => ?_⟩
    by_cases e : f = p
    · exact .inr ⟨e, by rw [e]; exact ha⟩
    · simp only [upd_ne _ _ e] at hf2
      refine .inl ⟨by simpa [goOn, h1] using hf, by rw [← h2]; exact hf2, ?_⟩
      simp only [goOn, upd_ne _ _ e]; exact h3 f

theorem touch_pass {s0 s s' : XS σ V E} {w f : Nat} (h : passJoin body s w f = .ok s') (h1 : s.c.nf = s0.c.nf) (h2 : s.aw = s0.aw)
    (h3 : ∀ g, g ≠ f → (s.c.fr g).st = (s0.c.fr g).st) : Touch s0 s' := by
  unfold passJoin at h
  dsimp only at h
  split at h
  · split at h <;> cases h
    · refine ⟨f, .inl h1, fun g hg ha => ?_⟩
      by_cases e : g = f
      · exact .inr ⟨e, by subst e; simp [upd_same, Alive]⟩
      · exact .inl ⟨by simpa [h1] using hg, by rw [← h2]; exact ha, by simp only [upd_ne _ _ e]; exact h3 g e⟩
    · refine ⟨f, .inl h1, fun g hg ha => ?_⟩
      by_cases e : g = f
      · exact .inr ⟨e, by subst e; simp [upd_same, Alive]⟩
      · exact .inl ⟨by simpa [h1] using hg, by rw [← h2]; exact ha, by simp only [upd_ne _ _ e]; exact h3 g e⟩
  · cases h

theorem destroy_same {c c' : State σ (Except E V)} {w f : Nat} (h : Verif.Runtime.destroy c w f = .ok c') : c'.nf = c.nf := by
  unfold Verif.Runtime.destroy at h
  split at h <;> cases h
  rfl

theorem touch_end {s s' : XS σ V E} {w f : Nat} {r : Except E V} (h : doEnd body s w f r = .ok s') : Touch s s' := by
  unfold doEnd at h
  dsimp only at h
  split at h
  · split at h
    · split at h
      · rename_i hd
        split at h <;> cases h
        have e1 := destroy_same hd
        have e2 := (Verif.Runtime.destroy_ok hd).1
        exact ⟨0, .inl e1, fun g hg ha => .inl ⟨by simpa [e1] using hg, ha, by rw [e2]; rfl⟩⟩
      · cases h
    · rename_i p _
      split at h
      · split at h
        · rename_i hd
          cases h
          have e1 := destroy_same hd
          refine ⟨p, .inl e1, fun g hg ha => ?_⟩
          by_cases e : g = p
          · exact .inr ⟨e, by subst e; simp [upd_same, Alive]⟩
          · simp only [upd_ne _ _ e] at ha
            exact .inl ⟨by simpa [e1] using hg, ha, by simp only [upd_ne _ _ e]⟩
        · cases h
      · cases h
    · rename_i p i _
      split at h
      · split at h
        · rename_i hd
          cases h
          have e1 := destroy_same hd
          refine ⟨0, .inl e1, fun g hg ha => .inl ⟨by simpa [e1] using hg, ha, ?_⟩⟩
          simp only [upd_apply]; split
          · rename_i e; subst e; rfl
          · rfl
        · cases h
      · cases h
  · cases h

theorem touch_step {s s' : XS σ V E} {w : Nat} {ch : Choice E} (hq : ¬ Quiet s w ch) (h : step body w ch s = .ok s') : Touch s s' := by
  unfold step at h
  cases hp : s.c.pc w with
  | idle =>
    rw [hp] at h
    cases ch with
    | go ch =>
      cases ch with
      | take =>
        refine touch_of_plain h fun c' hc => ?_
        unfold Verif.Runtime.take at hc
        split at hc
        · split at hc <;> cases hc
          exact ⟨rfl, fun _ => rfl⟩
        · cases hc
      | steal v =>
        refine touch_of_plain h fun c' hc => ?_
        unfold Verif.Runtime.steal at hc
        split at hc
        · split at hc
          · cases hc; exact ⟨rfl, fun _ => rfl⟩
          · split at hc <;> cases hc
        · cases hc
    | fail e late => cases h
    | ready => cases h
  | run f =>
    rw [hp] at h
    cases ch with
    | go ch =>
      dsimp only [run] at h
      split at h
      · exact touch_end h
      · exact touch_end h
      · rename_i c k x hb
        cases h
        refine ⟨s.c.nf, .inr ⟨rfl, rfl⟩, fun g hg ha => ?_⟩
        by_cases e : g = s.c.nf
        · exact .inr ⟨e, by subst e; simp [fork, Verif.Runtime.doFork, upd_same, Alive]⟩
        · have e' : g ≠ f := by
            rintro rfl
            simp [fork, upd_same] at ha
          simp only [fork, upd_ne _ _ e, upd_ne _ _ e'] at ha
          have hg' : g < s.c.nf + 1 := hg
          refine .inl ⟨by omega, ha, ?_⟩
          simp [fork, Verif.Runtime.doFork, Verif.Runtime.newFrame, upd_ne _ _ e, upd_ne _ _ e']
      · rename_i c k x hb
        cases h
        refine ⟨s.c.nf, .inr ⟨rfl, rfl⟩, fun g hg ha => ?_⟩
        by_cases e : g = s.c.nf
        · exact .inr ⟨e, by subst e; simp [call, Verif.Runtime.doCall, upd_same, Alive]⟩
        · have e' : g ≠ f := by
            rintro rfl
            simp [call, upd_same] at ha
          simp only [call, upd_ne _ _ e, upd_ne _ _ e'] at ha
          have hg' : g < s.c.nf + 1 := hg
          refine .inl ⟨by omega, ha, ?_⟩
          simp [call, Verif.Runtime.doCall, Verif.Runtime.newFrame, upd_ne _ _ e]
      · unfold doJoin at h
        dsimp only at h
        split at h
        · exact touch_pass h rfl rfl fun _ _ => rfl
        · cases h
          exact ⟨0, .inl rfl, fun g hg ha => .inl ⟨hg, ha, rfl⟩⟩
      · rename_i d k x hb
        unfold Verif.Runtime.doSwitch at h
        dsimp only at h
        split at h
        · cases h
          refine ⟨f, .inl rfl, fun g hg ha => ?_⟩
          by_cases e : g = f
          · exact .inr ⟨e, by subst e; simp [upd_same, Alive]⟩
          · exact .inl ⟨hg, ha, by simp only [upd_ne _ _ e]⟩
        · cases h
    | fail e late => exact absurd ⟨⟨_, hp⟩, fun _ => by simp⟩ hq
    | ready => exact absurd ⟨⟨_, hp⟩, fun _ => by simp⟩ hq
  | joinLoad f =>
    rw [hp] at h
    refine touch_of_plain h fun c' hc => ?_
    unfold Verif.Runtime.joinLoad at hc
    dsimp only at hc
    split at hc <;> cases hc <;> exact ⟨rfl, fun _ => rfl⟩
  | joinSub f =>
    rw [hp] at h
    refine touch_of_plain h fun c' hc => ?_
    unfold Verif.Runtime.joinSub at hc
    dsimp only at hc
    split at hc <;> cases hc <;> refine ⟨rfl, fun g => ?_⟩ <;> simp only [upd_apply] <;> split <;> simp_all
  | joinTake f =>
    rw [hp] at h
    unfold joinTake at h
    dsimp only at h
    split at h
    · exact touch_pass h rfl rfl fun g hg => by simp only [upd_ne _ _ hg]
    · cases h
  | finPop p c =>
    rw [hp] at h
    dsimp only at h
    split at h
    · exact touch_of_plain h fun c' hc => ⟨(finPop_same hc).1, (finPop_same hc).2.1⟩
    · rename_i hq
      exact touch_wake h fun c' hc => ⟨(finPop_same hc).1, (finPop_same hc).2.1, (finPop_same hc).2.2 (by rw [hq]; simp)⟩
  | finDec p c same =>
    rw [hp] at h
    refine touch_of_plain h fun c' hc => ?_
    unfold Verif.Runtime.finDec at hc
    dsimp only at hc
    split at hc
    · split at hc <;> cases hc <;> refine ⟨rfl, fun g => ?_⟩ <;> simp only [Verif.Runtime.report, upd_apply] <;> split <;> simp_all
    · cases hc
  | finWin p same =>
    rw [hp] at h
    unfold finWin at h
    dsimp only at h
    split at h
    · split at h
      · exact touch_pass h rfl rfl fun g hg => by simp only [upd_ne _ _ hg]
      · split at h
        · exact touch_pass h rfl rfl fun g hg => by simp only [upd_ne _ _ hg]
        · cases h
    · cases h
  | finLose same =>
    rw [hp] at h
    refine touch_of_plain h fun c' hc => ?_
    unfold Verif.Runtime.finLose at hc
    cases same <;> simp only [Bool.false_eq_true, if_true, if_false] at hc <;> split at hc <;> cases hc <;> exact ⟨rfl, fun _ => rfl⟩
  | selfSteal =>
    rw [hp] at h
    refine touch_of_plain h fun c' hc => ?_
    unfold Verif.Runtime.selfSteal at hc
    split at hc
    · cases hc; exact ⟨rfl, fun _ => rfl⟩
    · split at hc <;> cases hc
      exact ⟨rfl, fun _ => rfl⟩
  | stole p => rw [hp] at h; exact touch_wake h fun c' hc => stole_same hc
  | switchRel z =>
    rw [hp] at h
    refine touch_of_plain h fun c' hc => ?_
    unfold Verif.Runtime.switchRel at hc
    cases z <;> simp only [Bool.false_eq_true, if_true, if_false] at hc <;> split at hc <;> cases hc <;> exact ⟨rfl, fun _ => rfl⟩

/-- A quiet step moves its task on, and nothing else. -/
theorem quiet_step {s s' : XS σ V E} {w : Nat} {ch : Choice E} (hq : Quiet s w ch) (hch : Allowed may ch) (h : step body w ch s = .ok s') :
    ∃ f, s.c.pc w = .run f ∧ s'.c.nf = s.c.nf ∧ s'.aw = s.aw ∧ (∀ g, g ≠ f → (s'.c.fr g).st = (s.c.fr g).st) ∧
      ∀ rs es n, Ends body may (s.c.fr f).st rs es n → ∃ m, m + 1 ≤ n ∧ Ends body may (s'.c.fr f).st rs es m := by
  obtain ⟨⟨f, hp⟩, hn⟩ := hq
  unfold step at h
  rw [hp] at h
  have hfl : ∀ {c x : σ} {late : Bool}, failed s w f c x late = .ok s' → s'.c.nf = s.c.nf ∧ s'.aw = s.aw ∧
      (∀ g, g ≠ f → (s'.c.fr g).st = (s.c.fr g).st) ∧ (s'.c.fr f).st = x := by
    intro c x late h
    unfold failed at h
    split at h
    · split at h <;> cases h
      exact ⟨rfl, rfl, fun g hg => by simp only [goOn, upd_ne _ _ hg], by simp only [goOn, upd_same]⟩
    · cases h
      exact ⟨rfl, rfl, fun g hg => by simp only [goOn, upd_ne _ _ hg], by simp only [goOn, upd_same]⟩
  cases ch with
  | go c => exact absurd rfl (hn c)
  | fail e late =>
    dsimp only [run] at h
    split at h
    · rename_i c k x hb
      obtain ⟨a, b, c, d⟩ := hfl h
      refine ⟨f, hp, a, b, c, fun rs es n hE => ?_⟩
      cases hE with
      | fork h1 h2 h3 h4 h5 => rw [hb] at h1; cases h1; rw [d]; exact ⟨_, by omega, h4 e hch⟩
      | _ => simp_all
    · rename_i c k x hb
      obtain ⟨a, b, c, d⟩ := hfl h
      refine ⟨f, hp, a, b, c, fun rs es n hE => ?_⟩
      cases hE with
      | call h1 h2 h3 h4 h5 h6 => rw [hb] at h1; cases h1; rw [d]; exact ⟨_, by omega, h5 e hch⟩
      | _ => simp_all
    · rename_i d k x hb
      cases h
      refine ⟨f, hp, rfl, rfl, fun g hg => by simp only [goOn, upd_ne _ _ hg], fun rs es n hE => ?_⟩
      simp only [goOn, upd_same]
      cases hE with
      | switch h1 h2 h3 h4 => rw [hb] at h1; cases h1; exact ⟨_, h4, h3 e hch⟩
      | _ => simp_all
    · cases h
  | ready =>
    dsimp only [run] at h
    split at h
    · rename_i d k x hb
      cases h
      refine ⟨f, hp, rfl, rfl, fun g hg => by simp only [goOn, upd_ne _ _ hg], fun rs es n hE => ?_⟩
      simp only [goOn, upd_same]
      cases hE with
      | switch h1 h2 h3 h4 => rw [hb] at h1; cases h1; exact ⟨_, h4, h2⟩
      | _ => simp_all
    · cases h

end Verif.Exn
