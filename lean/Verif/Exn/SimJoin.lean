import Verif.Exn.SimPlain

/-! Every step of the runtime with exceptions is one of the runtime without, or none: joins. -/
namespace Verif.Exn
open Verif.Runtime (State Res Fr Pc Loc Link Ev Why upd maxU16 U16 newFrame reset destroy release joinLoad joinSub finPop finDec finLose
  selfSteal stole switchRel steal take doFork doCall report upd_apply upd_same upd_ne results Alive Few Inv)

variable {σ V E : Type} {body : σ → Act σ V E} {pend : σ → Nat} {dirty : σ → Prop} {may : E → Prop}

/-- What will happen to a task at its join. -/
def orcJoin (body : σ → Act σ V E) (F : Nat → Orc E) (s : XS σ V E) (f : Nat) : Nat → Orc E :=
  upd F f (match body (s.c.fr f).st with
    | .join _ _ => match s.exc f with
      | some e => .exc e (F f)
      | none => F f
    | _ => .go (F f))

theorem pass_sim {F : Nat → Orc E} {es : Nat → List E} {s : XS σ V E} {r' r0 : State (T σ E) (Except E V)} {w f : Nat}
    (hr : Verif.Runtime.passJoin (tgt body may) r0 w f = .ok r')
    (hb : Base (Orig body may) (fun g => Sh body may dirty (s.aw g) (es g) (orcJoin body F s f g)) (fun g => Sl (s.exc g) (es g)) s.c r0)
    (hf : f < s.c.nf) (ha : s.aw f = none) (haw : ∀ g, g ≠ f → AwOk (s.c.loc g) (s.aw g) (s.c.fr g).steal) :
    ∃ s' es', passJoin body s w f = .ok s' ∧ Rel body may dirty F es' s' r' := by
  obtain ⟨k', vs, rfl, h1, h2, h3, h4, h5, h6⟩ := Verif.Runtime.passJoin_ok hr
  have hsl := Verif.Runtime.results_spec h6
  have hst := hb.st f hf
  simp only [ha, orcJoin, upd_same] at hst
  obtain ⟨-, hy⟩ := hst
  -- the task is at a join
  obtain ⟨k, x, hbd⟩ : ∃ k x, body (s.c.fr f).st = .join k x := by
    cases hbd : body (s.c.fr f).st with
    | join k x => exact ⟨k, x, rfl⟩
    | _ => simp only [hbd, norm] at hy; rw [hy] at h5; simp only [tgt, hbd] at h5; cases h5
  simp only [hbd] at hy
  rw [norm_join hbd] at hy
  rw [hy] at h5
  simp only [tgt, hbd, Verif.Runtime.Act.join.injEq] at h5
  have hL := hb.sl f hf
  obtain ⟨hL1, hL2⟩ := hL
  rw [hsl] at hL1 hL2
  rw [errsO_some] at hL2
  have hheld : (s.c.fr f).slots.map held = vs.map Except.toOption := by rw [hL1]; exact held_some vs
  have hcond : (s.c.fr f).steal = 0 ∧ (s.c.fr f).join = maxU16 ∧ s.c.wk w = s.c.stk f ∧ s.c.isTop f = true := by
    refine ⟨by rw [← hb.steal]; exact h1, by rw [← hb.join]; exact h2, by rw [← hb.wk, ← hb.stk]; exact h3, ?_⟩
    rw [← hb.isTop]; exact Verif.Runtime.isTop_iff.2 h4
  have rel : ∀ (st' : σ) (exc' : Nat → Option E), (∀ g, g ≠ f → exc' g = s.exc g) → exc' f = none →
      k' vs = norm body may (F f) st' [] →
      Rel body may dirty F (upd es f []) ⟨{ s.c with
        fr := upd s.c.fr f { s.c.fr f with st := st', slots := [], inits := [] }
        pc := upd s.c.pc w (.run f)
        loc := upd s.c.loc f (.running w)
        log := .resume f w :: s.c.log }, exc', s.aw⟩ (Verif.Runtime.passed r0 w f k' vs) := by
    intro st' exc' he1 he2 hk
    refine ⟨?_, fun g => ?_⟩
    · have := ((hb.frame' (S' := fun g => Sh body may dirty (s.aw g) (upd es f [] g) (F g)) (L' := fun g => Sl (exc' g) (upd es f [] g)) f
        { s.c.fr f with st := st', slots := [], inits := [] } { r0.fr f with st := k' vs, slots := [], inits := [] }
        (fun g hg a b h => by simpa only [orcJoin, upd_ne _ _ hg] using h)
        (fun g hg a b h => by simpa only [upd_ne _ _ hg, he1 g hg] using h)
        (by simp only [upd_same, ha]; exact ⟨fun h => absurd rfl h, hk⟩)
        (by simp only [upd_same, he2]; exact ⟨rfl, rfl⟩) (hb.steal f) (hb.join f) (hb.stolen f)).setPc w (.run f)).setLoc f (.running w)
          |>.setLog (.resume f w) (.resume f w) ⟨rfl, rfl⟩
      exact this
    · show AwOk (upd s.c.loc f (.running w) g) (s.aw g) (upd s.c.fr f _ g).steal
      by_cases e : g = f
      · subst e; rw [upd_same]; exact ha
      · rw [upd_ne _ _ e, upd_ne _ _ e]; exact haw g e
  unfold passJoin
  dsimp only
  rw [if_pos hcond]
  simp only [hbd, hheld]
  cases hx : s.exc f with
  | none =>
    rw [hx] at hL2
    have hL2 : errs vs ++ es f = [] := hL2
    have hn := List.append_eq_nil_iff.1 hL2
    simp only [hx] at h5
    rw [allHeld_ok vs hn.1]
    refine ⟨_, upd es f [], rfl, rel _ s.exc (fun _ _ => rfl) hx ?_⟩
    rw [← h5]
    simp only [after, hL2]
  | some e =>
    rw [hx] at hL2
    have hL2 : e ∈ errs vs ++ es f := hL2
    simp only [hx] at h5
    refine ⟨_, upd es f [], rfl, rel _ (upd s.exc f none) (fun g hg => upd_ne _ _ hg) (upd_same _ _ _) ?_⟩
    rw [← h5]
    unfold after
    cases hz : errs vs ++ es f with
    | nil => rw [hz] at hL2; cases hL2
    | cons e0 l =>
      rw [hz] at hL2
      simp only [Orc.ex, Orc.rest, pick, hL2, if_true]

section
variable {F : Nat → Orc E} {es : Nat → List E} {s : XS σ V E} {r : State (T σ E) (Except E V)} {w : Nat}

theorem sim_doJoin {f : Nat} {k x} (hi : Inv (tgt body may) (fun y => pend y.1) r)
    (hs : ∀ ch, r.pc w ≠ .idle → ∃ r', Verif.Runtime.step (tgt body may) w ch r = .ok r')
    (h : Rel body may dirty (if (s.c.fr f).steal = 0 then orcJoin body F s f else F) es s r) (hp : s.c.pc w = .run f)
    (hbd : body (s.c.fr f).st = .join k x) : Out (some .take) body may dirty F r w (doJoin body s w f) := by
  have hpr : r.pc w = .run f := by rw [h.base.pc]; exact hp
  have hl : s.c.loc f = .running w := by rw [← h.base.loc]; exact (hi.loc.run w f).2 (Or.inl hpr)
  have ha : s.aw f = none := by have := h.aw f; rwa [hl] at this
  have hlt := alive_lt hi h (f := f) (by rw [hl]; trivial)
  have hy := (h.base.st f hlt).2
  simp only [ha] at hy
  rw [norm_join hbd] at hy
  obtain ⟨r', hst⟩ := hs .take (by rw [hpr]; simp)
  have hst' := hst
  simp only [Verif.Runtime.step, hpr] at hst'
  rw [hy] at hst'
  simp only [tgt, hbd] at hst'
  unfold Verif.Runtime.doJoin at hst'
  dsimp only at hst'
  unfold doJoin
  dsimp only
  by_cases hz : (s.c.fr f).steal = 0
  · rw [if_pos (by rw [h.base.steal]; exact hz)] at hst'
    rw [if_pos hz] at h ⊢
    obtain ⟨s', es', e1, e2⟩ := pass_sim (F := F) (es := es) (s := { s with c := { s.c with log := .suspend f .join :: s.c.log } }) hst'
      (h.base.setLog (.suspend f .join) (.suspend f .join) ⟨rfl, rfl⟩) hlt ha (fun g _ => h.aw g)
    rw [e1]
    exact .ok hst e2
  · rw [if_neg (by rw [h.base.steal]; exact hz)] at hst'
    rw [if_neg hz] at h ⊢
    cases hst'
    exact .ok (s' := ⟨{ s.c with pc := upd s.c.pc w (.joinLoad f), log := .suspend f .join :: s.c.log }, s.exc, s.aw⟩) hst
      ⟨(h.base.setPc w (.joinLoad f)).setLog (.suspend f .join) (.suspend f .join) ⟨rfl, rfl⟩, h.aw⟩

theorem sim_joinTake {f : Nat} (hi : Inv (tgt body may) (fun y => pend y.1) r)
    (hs : ∀ ch, r.pc w ≠ .idle → ∃ r', Verif.Runtime.step (tgt body may) w ch r = .ok r')
    (h : Rel body may dirty (orcJoin body F s f) es s r) (hp : s.c.pc w = .joinTake f) :
    Out (some .take) body may dirty F r w (joinTake body s w f) := by
  have hpr : r.pc w = .joinTake f := by rw [h.base.pc]; exact hp
  have hl : s.c.loc f = .winning w := by rw [← h.base.loc]; exact (hi.loc.win w f).2 (Or.inl hpr)
  have ha : s.aw f = none := by have := h.aw f; rwa [hl] at this
  have hlt := alive_lt hi h (f := f) (by rw [hl]; trivial)
  obtain ⟨r', hst⟩ := hs .take (by rw [hpr]; simp)
  have hst' := hst
  simp only [Verif.Runtime.step, hpr] at hst'
  unfold Verif.Runtime.joinTake at hst'
  unfold joinTake
  split at hst'
  · rename_i hc
    rw [if_pos (by rw [← h.base.steal, ← h.base.wkEmpty, ← h.base.isTop]; exact hc)]
    have hb := (h.base.frame f (reset (s.c.fr f)) (reset (r.fr f)) rfl rfl rfl rfl rfl rfl rfl).setWk (upd s.c.wk w (s.c.stk f))
    have ee : upd r.wk w (r.stk f) = upd s.c.wk w (s.c.stk f) := by rw [h.base.wk, h.base.stk]
    rw [ee] at hst'
    obtain ⟨s', es', e1, e2⟩ := pass_sim (F := F) (es := es) (body := body)
      (s := { s with c := { s.c with wk := upd s.c.wk w (s.c.stk f), fr := upd s.c.fr f (reset (s.c.fr f)) } }) hst'
      (by
        have : orcJoin body F { s with c := { s.c with wk := upd s.c.wk w (s.c.stk f), fr := upd s.c.fr f (reset (s.c.fr f)) } } f
            = orcJoin body F s f := by simp only [orcJoin, upd_same, reset]
        rw [this]; exact hb) hlt ha
      (fun g hg => by
        show AwOk _ _ (upd s.c.fr f _ g).steal
        rw [upd_ne _ _ hg]; exact h.aw g)
    rw [e1]
    exact .ok hst e2
  · cases hst'

theorem sim_finWin {f : Nat} {b : Bool} (hi : Inv (tgt body may) (fun y => pend y.1) r)
    (hs : ∀ ch, r.pc w ≠ .idle → ∃ r', Verif.Runtime.step (tgt body may) w ch r = .ok r')
    (h : Rel body may dirty (orcJoin body F s f) es s r) (hp : s.c.pc w = .finWin f b) :
    Out (some .take) body may dirty F r w (finWin body s w f b) := by
  have hpr : r.pc w = .finWin f b := by rw [h.base.pc]; exact hp
  have hl : s.c.loc f = .winning w := by rw [← h.base.loc]; exact (hi.loc.win w f).2 (Or.inr ⟨b, hpr⟩)
  have ha : s.aw f = none := by have := h.aw f; rwa [hl] at this
  have hlt := alive_lt hi h (f := f) (by rw [hl]; trivial)
  obtain ⟨r', hst⟩ := hs .take (by rw [hpr]; simp)
  have hst' := hst
  simp only [Verif.Runtime.step, hpr] at hst'
  unfold Verif.Runtime.finWin at hst'
  unfold finWin
  have hb := h.base.frame f (reset (s.c.fr f)) (reset (r.fr f)) rfl rfl rfl rfl rfl rfl rfl
  split at hst'
  · rename_i hv
    rw [if_pos (by rw [← h.base.live]; exact hv)]
    dsimp only at hst' ⊢
    cases b with
    | true =>
      rw [if_pos rfl] at hst'
      rw [if_pos rfl]
      obtain ⟨s', es', e1, e2⟩ := pass_sim (F := F) (es := es) (body := body)
        (s := { s with c := { s.c with fr := upd s.c.fr f (reset (s.c.fr f)) } }) hst'
        (by
          have : orcJoin body F { s with c := { s.c with fr := upd s.c.fr f (reset (s.c.fr f)) } } f
              = orcJoin body F s f := by simp only [orcJoin, upd_same, reset]
          rw [this]; exact hb) hlt ha
        (fun g hg => by
          show AwOk _ _ (upd s.c.fr f _ g).steal
          rw [upd_ne _ _ hg]; exact h.aw g)
      rw [e1]
      exact .ok hst e2
    | false =>
      rw [if_neg (by simp)] at hst'
      rw [if_neg (by simp)]
      split at hst'
      · rename_i hc
        rw [if_pos (by rw [← h.base.wkEmpty, ← h.base.isTop]; exact hc)]
        have hb' := hb.setWk (upd s.c.wk w (s.c.stk f))
        have ee : upd r.wk w (r.stk f) = upd s.c.wk w (s.c.stk f) := by rw [h.base.wk, h.base.stk]
        rw [ee] at hst'
        obtain ⟨s', es', e1, e2⟩ := pass_sim (F := F) (es := es) (body := body)
          (s := { s with c := { s.c with wk := upd s.c.wk w (s.c.stk f), fr := upd s.c.fr f (reset (s.c.fr f)) } }) hst'
          (by
            have : orcJoin body F { s with c := { s.c with wk := upd s.c.wk w (s.c.stk f), fr := upd s.c.fr f (reset (s.c.fr f)) } } f
                = orcJoin body F s f := by simp only [orcJoin, upd_same, reset]
            rw [this]; exact hb') hlt ha
          (fun g hg => by
            show AwOk _ _ (upd s.c.fr f _ g).steal
            rw [upd_ne _ _ hg]; exact h.aw g)
        rw [e1]
        exact .ok hst e2
      · cases hst'
  · cases hst'

end

end Verif.Exn
