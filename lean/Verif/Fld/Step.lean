import Verif.Fld.Inv

/-!
What a step does, as far as frames are concerned.
-/
namespace Verif.Fld
open Verif.Runtime (State Res Fr Pc Loc Link Alive Few forkPar upd upd_apply upd_same upd_ne maxU16)
open Verif.Exn (XS Choice)
open Verif.Mem (MS Act)
open Verif.Hb (HS Clk Ord Par I Fx JX All who sync order plain_ok upd_gone alive_gone)

variable {σ V E L : Type}

/-- What a step does to the life of tasks and to the exceptions they hold. -/
structure Mv (body : σ → Act σ V E L) (pend : σ → Nat) (w : Nat) (ch : Choice E) (x x' : XS σ V E) : Prop where
  gone : ∀ c, x.c.loc c = .gone → x'.c.loc c = .gone
  nf : x'.c.nf = x.c.nf ∨ x'.c.nf = x.c.nf + 1 ∧ ∃ f, New body w ch x f
  new : ∀ f, New body w ch x f → x'.c.nf = x.c.nf + 1
  exc : ∀ p, x'.exc p = none → x.exc p = none ∨ p = x.c.nf ∨ Pass body w ch x p
  cap : ∀ f p, Catch body w ch x f p → x'.exc p ≠ none
  pass : ∀ f, Pass body w ch x f → x'.c.pc w = .run f ∧ pend (x'.c.fr f).st = 0

variable {body : σ → Act σ V E L} {pend : σ → Nat} {dirty : σ → Prop} {w : Nat} {ch : Choice E} {x x' : XS σ V E}

/-- A step that does none of these things. -/
theorem Mv.plain (h1 : ∀ c, x.c.loc c = .gone → x'.c.loc c = .gone) (h2 : x'.c.nf = x.c.nf) (h3 : x'.exc = x.exc)
    (hn : ∀ f, ¬ New body w ch x f) (hc : ∀ f p, ¬ Catch body w ch x f p) (hp : ∀ f, ¬ Pass body w ch x f) : Mv body pend w ch x x' :=
  ⟨h1, .inl h2, fun f h => absurd h (hn f), fun p h => .inl (by rw [← h3]; exact h), fun f p h => absurd h (hc f p), fun f h => absurd h (hp f)⟩

theorem quiet (h : (∀ f, x.c.pc w ≠ .run f) ∧ (∀ f, x.c.pc w ≠ .joinTake f) ∧ ∀ f b, x.c.pc w ≠ .finWin f b) :
    (∀ f, ¬ New body w ch x f) ∧ (∀ f p, ¬ Catch body w ch x f p) ∧ ∀ f, ¬ Pass body w ch x f := by
  obtain ⟨h1, h2, h3⟩ := h
  exact ⟨fun f h => h1 f h.1, fun f _ h => h1 f h.1, fun f h => h.elim (h2 f) fun h => h.elim (fun ⟨b, h⟩ => h3 f b h) fun h => h1 f h.1⟩

theorem Mv.still (h : (∀ f, x.c.pc w ≠ .run f) ∧ (∀ f, x.c.pc w ≠ .joinTake f) ∧ ∀ f b, x.c.pc w ≠ .finWin f b)
    (h1 : ∀ c, x.c.loc c = .gone → x'.c.loc c = .gone) (h2 : x'.c.nf = x.c.nf) (h3 : x'.exc = x.exc) : Mv body pend w ch x x' :=
  let ⟨a, b, c⟩ := quiet h
  .plain h1 h2 h3 a b c

theorem gone_upd {loc : Nat → Loc} {f : Nat} {l : Loc} (h : loc f ≠ .gone) (c : Nat) (hc : loc c = .gone) : upd loc f l c = .gone := by
  rw [upd_apply]; split
  · rename_i e; subst e; exact absurd hc h
  · exact hc

/-- The end of a join. -/
theorem mv_pass [Inhabited E] (hd : Mem.Disc body pend dirty) {s : XS σ V E} {f : Nat} (e : Exn.passJoin (Mem.ctl body) s w f = .ok x') :
    x'.c.loc = upd s.c.loc f (.running w) ∧ x'.c.nf = s.c.nf ∧ x'.c.pc w = .run f ∧ (∀ p, p ≠ f → x'.exc p = s.exc p) ∧
      ((∃ k z, body (s.c.fr f).st = .join k z) ∧ pend (x'.c.fr f).st = 0 ∨ ∃ d k z, Mem.ctl body (s.c.fr f).st = .join k z ∧ body (s.c.fr f).st = d ∧ ∀ k z, d ≠ .join k z) := by
  unfold Exn.passJoin at e
  simp only at e
  have dj : ∀ {k z}, Mem.ctl body (s.c.fr f).st = .join k z → body (s.c.fr f).st = .join k z := by
    intro k z hb
    unfold Mem.ctl at hb
    split at hb <;> cases hb
    assumption
  split at e
  · split at e
    · rename_i k z e0 hb he
      cases e
      have hb' := dj hb
      exact ⟨rfl, rfl, upd_same _ _ _, fun p hp => upd_ne _ _ hp, .inl ⟨⟨_, _, hb'⟩, by
        show pend (upd s.c.fr f _ f).st = 0
        rw [upd_same]; exact (hd.join _ _ _ hb').2 _ _⟩⟩
    · rename_i k z hb he hv
      cases e
      have hb' := dj hb
      exact ⟨rfl, rfl, upd_same _ _ _, fun p hp => rfl, .inl ⟨⟨_, _, hb'⟩, by
        show pend (upd s.c.fr f _ f).st = 0
        rw [upd_same]; exact (hd.join _ _ _ hb').1 _⟩⟩
    · cases e
  · cases e

theorem Mv.passed {f : Nat} (hg : x.c.loc f ≠ .gone) (hP : ∀ p, Pass body w ch x p ↔ p = f) (hn : ∀ f, ¬ New body w ch x f) (hc : ∀ f p, ¬ Catch body w ch x f p)
    (h1 : x'.c.loc = upd x.c.loc f (.running w)) (h2 : x'.c.nf = x.c.nf) (h3 : x'.c.pc w = .run f) (h4 : ∀ p, p ≠ f → x'.exc p = x.exc p) (h5 : pend (x'.c.fr f).st = 0) :
    Mv body pend w ch x x' := by
  refine ⟨fun c h => by rw [h1]; exact gone_upd hg c h, .inl h2, fun f h => absurd h (hn f), fun p h => ?_, fun f p h => absurd h (hc f p), fun p hp => ?_⟩
  · by_cases e : p = f
    · exact .inr (.inr ((hP p).2 e))
    · exact .inl (by rw [← h4 p e]; exact h)
  · rw [(hP p).1 hp]; exact ⟨h3, h5⟩

section
variable [Inhabited E] (hd : Mem.Disc body pend dirty) (F : Fx x)
include hd F

theorem mv_run {f : Nat} (hp : x.c.pc w = .run f) (hn : Mem.NoAcc body (x.c.fr f).st) (e : Exn.run (Mem.ctl body) x w f ch = .ok x') : Mv body pend w ch x x' := by
  have hl := (F.loc.run w f).2 (.inl hp)
  have hg : x.c.loc f ≠ .gone := by rw [hl]; simp
  have eqf : ∀ f', x.c.pc w = .run f' → f' = f := fun f' h => by rw [hp] at h; cases h; rfl
  have nP : (∀ k z, body (x.c.fr f).st ≠ .join k z) → ∀ p, ¬ Pass body w ch x p := fun h p hP => by
    rcases hP with h1 | ⟨b, h1⟩ | ⟨h1, _, ⟨k, z, h2⟩, _⟩
    · rw [hp] at h1; cases h1
    · rw [hp] at h1; cases h1
    · cases eqf _ h1; exact h k z h2
  have nN : (∀ c k z, body (x.c.fr f).st ≠ .fork c k z) → (∀ c k z, body (x.c.fr f).st ≠ .call c k z) → ∀ f', ¬ New body w ch x f' := fun h1 h2 f' hN => by
    obtain ⟨h, _, hb⟩ := hN
    cases eqf _ h
    rcases hb with ⟨c, k, z, hb⟩ | ⟨c, k, z, hb⟩
    · exact h1 _ _ _ hb
    · exact h2 _ _ _ hb
  have nC : (∀ v, body (x.c.fr f).st ≠ .throw v) → ∀ f' p, ¬ Catch body w ch x f' p := fun h1 f' p hC => by
    obtain ⟨h, _, ⟨v, hb⟩, _⟩ := hC
    cases eqf _ h
    exact h1 _ hb
  have nG : (∀ o, ch ≠ .go o) → (∀ f, ¬ New body w ch x f) ∧ (∀ f p, ¬ Catch body w ch x f p) ∧ ∀ f, ¬ Pass body w ch x f := fun h =>
    ⟨fun _ ⟨_, ⟨o, h1⟩, _⟩ => h o h1, fun _ _ ⟨_, ⟨o, h1⟩, _⟩ => h o h1, fun p hP => by
      rcases hP with h1 | ⟨b, h1⟩ | ⟨_, ⟨o, h1⟩, _⟩
      · rw [hp] at h1; cases h1
      · rw [hp] at h1; cases h1
      · exact h o h1⟩
  have en : ∀ {r : Except E V}, Exn.doEnd (Mem.ctl body) x w f r = .ok x' → ((∃ v, body (x.c.fr f).st = .ret v) ∧ (∃ v, r = .ok v) ∨ (∃ v, body (x.c.fr f).st = .throw v) ∧ ∃ v, r = .error v) →
      Mv body pend w ch x x' := by
    intro r e hb
    have hj : ∀ k z, body (x.c.fr f).st ≠ .join k z := by rcases hb with ⟨⟨v, hb⟩, _⟩ | ⟨⟨v, hb⟩, _⟩ <;> rw [hb] <;> simp
    have hN := nN (by rcases hb with ⟨⟨v, hb⟩, _⟩ | ⟨⟨v, hb⟩, _⟩ <;> rw [hb] <;> simp) (by rcases hb with ⟨⟨v, hb⟩, _⟩ | ⟨⟨v, hb⟩, _⟩ <;> rw [hb] <;> simp)
    have fin : (∀ c, x.c.loc c = .gone → x'.c.loc c = .gone) → x'.c.nf = x.c.nf → (∀ p, x'.exc p = none → x.exc p = none) →
        (∀ p v, r = .error v → (x.c.link f = .call p ∨ ∃ i, x.c.link f = .fork p i) → x'.exc p ≠ none) → Mv body pend w ch x x' := fun h1 h2 h3 h4 =>
      ⟨h1, .inl h2, fun f h => absurd h (hN f), fun p h => .inl (h3 p h), fun f' p h => by
        obtain ⟨h5, _, ⟨v, h6⟩, h7⟩ := h
        cases eqf _ h5
        rcases hb with ⟨⟨u, hb⟩, _⟩ | ⟨_, v', hr⟩
        · rw [hb] at h6; cases h6
        · exact h4 p v' hr h7, fun f h => absurd h (nP hj f)⟩
    have cp : ∀ q v p, Exn.capture x.exc q v p = none → x.exc p = none := by
      intro q v p h
      simp only [Exn.capture, upd_apply] at h
      split at h
      · split at h <;> cases h
      · exact h
    have cs : ∀ q v, Exn.capture x.exc q v q ≠ none := by
      intro q v h
      simp only [Exn.capture, upd_same] at h
      split at h <;> cases h
    unfold Exn.doEnd at e
    split at e
    · simp only at e
      split at e
      · rename_i hk
        split at e
        · rename_i s1 hs
          obtain ⟨q1, q2, q3⟩ := Hb.destroy_eq hs
          split at e <;> cases e
          exact fin (fun c h => by show upd x.c.loc f .gone c = .gone; rw [upd_apply]; split <;> simp_all) q1 (fun _ h => h)
            (fun p v _ h => by rcases h with h | ⟨i, h⟩ <;> (rw [hk] at h; cases h))
        · cases e
      · rename_i p hk
        have hcw := (F.callw p f).2 ⟨hk, by rw [hl]; trivial⟩
        have hpg : x.c.loc p ≠ .gone := by rw [hcw]; simp
        split at e
        · split at e
          · rename_i s1 _ _ hs
            obtain ⟨q1, q2, q3⟩ := Hb.destroy_eq hs
            cases e
            refine fin (fun c h => ?_) q1 (fun p' h => ?_) (fun p' v hr h => ?_)
            · show upd (upd x.c.loc f .gone) p _ c = .gone
              have h2 : c ≠ p := by rintro rfl; exact hpg h
              rw [upd_ne _ _ h2, upd_apply]; split <;> simp_all
            · simp only at h
              split at h
              · exact h
              · exact cp _ _ _ h
            · rcases h with h | ⟨i, h⟩ <;> rw [hk] at h <;> cases h
              subst hr
              exact cs _ _
          · cases e
        · cases e
      · rename_i p i hk
        split at e
        · split at e
          · rename_i s1 hs
            obtain ⟨q1, q2, q3⟩ := Hb.destroy_eq hs
            cases e
            refine fin (fun c h => gone_upd hg c h) q1 (fun p' h => ?_) (fun p' v hr h => ?_)
            · simp only at h
              split at h
              · exact h
              · exact cp _ _ _ h
            · rcases h with h | ⟨i, h⟩ <;> rw [hk] at h <;> cases h
              subst hr
              exact cs _ _
          · cases e
        · cases e
    · cases e
  have hfr : ∀ p, p < x.c.nf → p ≠ x.c.nf := fun p h => Nat.ne_of_lt h
  unfold Exn.run at e
  cases ch with
  | go o =>
    cases hb : body (x.c.fr f).st with
    | ret v =>
      simp only [Mem.ctl, hb] at e
      exact en e (.inl ⟨⟨v, hb⟩, v, rfl⟩)
    | throw v =>
      simp only [Mem.ctl, hb] at e
      exact en e (.inr ⟨⟨v, hb⟩, v, rfl⟩)
    | fork c k z =>
      simp only [Mem.ctl, hb] at e
      cases e
      refine ⟨fun c h => ?_, .inr ⟨rfl, f, hp, ⟨o, rfl⟩, .inl ⟨c, k, z, hb⟩⟩, fun _ _ => rfl, fun p h => ?_, fun f' p h => absurd h (nC (by rw [hb]; simp) f' p), fun f' h => absurd h (nP (by rw [hb]; simp) f')⟩
      · have h1 : c ≠ f := by rintro rfl; exact hg h
        have h2 : c ≠ x.c.nf := by rintro rfl; rw [F.next.1] at h; cases h
        show upd (upd x.c.loc f _) x.c.nf _ c = .gone
        rw [upd_ne _ _ h2, upd_ne _ _ h1]; exact h
      · by_cases e : p = x.c.nf
        · exact .inr (.inl e)
        · left
          have : upd x.exc x.c.nf none p = none := h
          rw [upd_ne _ _ e] at this; exact this
    | call c k z =>
      simp only [Mem.ctl, hb] at e
      cases e
      refine ⟨fun c h => ?_, .inr ⟨rfl, f, hp, ⟨o, rfl⟩, .inr ⟨c, k, z, hb⟩⟩, fun _ _ => rfl, fun p h => ?_, fun f' p h => absurd h (nC (by rw [hb]; simp) f' p), fun f' h => absurd h (nP (by rw [hb]; simp) f')⟩
      · have h1 : c ≠ f := by rintro rfl; exact hg h
        have h2 : c ≠ x.c.nf := by rintro rfl; rw [F.next.1] at h; cases h
        show upd (upd x.c.loc f _) x.c.nf _ c = .gone
        rw [upd_ne _ _ h2, upd_ne _ _ h1]; exact h
      · by_cases e : p = x.c.nf
        · exact .inr (.inl e)
        · left
          have : upd x.exc x.c.nf none p = none := h
          rw [upd_ne _ _ e] at this; exact this
    | join k z =>
      simp only [Mem.ctl, hb] at e
      have hN := nN (by rw [hb]; simp) (by rw [hb]; simp)
      have hC := nC (by rw [hb]; simp)
      unfold Exn.doJoin at e
      simp only at e
      split at e
      · rename_i h0
        obtain ⟨h1, h2, h3, h4, h5⟩ := mv_pass (w := w) hd e
        refine Mv.passed hg (fun p => ⟨fun hP => ?_, fun e => ?_⟩) hN hC h1 h2 h3 h4 ?_
        · rcases hP with h1 | ⟨b, h1⟩ | ⟨h1, _⟩
          · rw [hp] at h1; cases h1
          · rw [hp] at h1; cases h1
          · exact eqf _ h1
        · subst e; exact .inr (.inr ⟨hp, ⟨o, rfl⟩, ⟨k, z, hb⟩, h0⟩)
        · rcases h5 with h5 | ⟨d, k', z', h6, rfl, h7⟩
          · exact h5.2
          · exact absurd hb (h7 _ _)
      · rename_i h0
        cases e
        refine .plain (fun _ h => h) rfl rfl hN hC (fun p hP => ?_)
        rcases hP with h1 | ⟨b, h1⟩ | ⟨h1, _, _, h2⟩
        · rw [hp] at h1; cases h1
        · rw [hp] at h1; cases h1
        · cases eqf _ h1; exact h0 h2
    | switch d k z =>
      simp only [Mem.ctl, hb] at e
      obtain ⟨c1, e1, rfl⟩ := plain_ok e
      unfold Runtime.doSwitch at e1
      simp only at e1
      split at e1 <;> cases e1
      exact .plain (fun c h => gone_upd hg c h) rfl rfl (nN (by rw [hb]; simp) (by rw [hb]; simp)) (nC (by rw [hb]; simp)) (nP (by rw [hb]; simp))
    | load l k => exact absurd hb (hn.1 l k)
    | store l d k => exact absurd hb (hn.2 l d k)
  | fail e0 late =>
    obtain ⟨a, b, c⟩ := nG (by simp)
    simp only at e
    split at e
    · obtain ⟨h1, h2, _⟩ := Hb.failed_eq e
      refine .plain (fun c h => by rw [h2]; exact h) h1 ?_ a b c
      unfold Exn.failed at e
      split at e
      · split at e <;> cases e
        rfl
      · cases e; rfl
    · obtain ⟨h1, h2, _⟩ := Hb.failed_eq e
      refine .plain (fun c h => by rw [h2]; exact h) h1 ?_ a b c
      unfold Exn.failed at e
      split at e
      · split at e <;> cases e
        rfl
      · cases e; rfl
    · cases e; exact .plain (fun _ h => h) rfl rfl a b c
    · cases e
  | ready =>
    obtain ⟨a, b, c⟩ := nG (by simp)
    simp only at e
    split at e
    · cases e; exact .plain (fun _ h => h) rfl rfl a b c
    · cases e

end
end Verif.Fld
