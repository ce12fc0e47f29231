import Verif.Busy.Inbox

/-! What a step inside `resume` does, as far as the pool is concerned. -/
namespace Verif.Busy
open Verif.Runtime (Res Ev upd upd_apply upd_same upd_ne Alive)
open Verif.Exn (XS Choice NextX goOn reach_rel disc_tgt alive_lt)
open Verif.Mem (MS Act Allowed ctl Disc disc_ctl NoAcc Facts facts)

variable {σ V E L : Type} [Inhabited E] [DecidableEq L] {body : σ → Act σ V E L} {pend : σ → Nat} {dirty : σ → Prop} {may : E → Prop}

theorem next_of {y z : σ} (h : NextX (ctl body) y z) : Next body y z := by
  cases h with
  | child h => exact .child (Mem.ctl_fork h)
  | fork b h => exact .fork b (Mem.ctl_fork h)
  | forkX e h => exact .forkX e (Mem.ctl_fork h)
  | callee h => exact .callee (Mem.ctl_call h)
  | call r h => exact .call r (Mem.ctl_call h)
  | callX e h => exact .callX e (Mem.ctl_call h)
  | join l h => exact .join l (Mem.ctl_join h)
  | joinX e l h => exact .joinX e l (Mem.ctl_join h)
  | switch h =>
    unfold ctl at h
    split at h <;> cases h
    · exact .switch ‹_›
    · exact .load default ‹_›
    · exact .store ‹_›
  | switchX e h =>
    unfold ctl at h
    split at h <;> cases h
    · exact .switchX e ‹_›
    · exact .load e ‹_›
    · exact .store ‹_›

omit [Inhabited E] in
theorem live_lt {body : σ → Exn.Act σ V E} (hd : Exn.Disc body pend dirty) {x : XS σ V E} (h : Exn.Reach body pend may x) {p : Nat} (hl : x.c.live p = true) :
    p < x.c.nf := by
  obtain ⟨es, r, hr, hrel⟩ := reach_rel hd h fun _ => .nil
  have hi := Verif.Runtime.reach_inv (disc_tgt hd) hr
  simp only [Runtime.State.live, decide_eq_true_eq] at hl
  have h1 := (hi.stk.mem p (x.c.stk p)).1 (by rw [hrel.base.al]; exact hl)
  exact alive_lt hi hrel (by rw [← hrel.base.loc]; exact h1.1)

/-- A step of worker `w`. -/
structure Eff (body : σ → Act σ V E L) (w : Nat) (ch : Choice E) (s s' : MS σ V E L) : Prop where
  pc : ∀ v, v ≠ w → s'.x.c.pc v = s.x.c.pc v
  st : ∀ f, f < s'.x.c.nf → ∃ p, p < s.x.c.nf ∧ After body (s.x.c.fr p).st (s'.x.c.fr f).st
  inb : s'.x.c.inbox = s.x.c.inbox ∨ (s.x.c.pc w = .idle ∧ ch = .go .take ∧ ∃ f r, s.x.c.inbox w = f :: r ∧ s'.x.c.inbox = upd s.x.c.inbox w r) ∨
    ∃ f d k h, s.x.c.pc w = .run f ∧ body (s.x.c.fr f).st = .switch d k h ∧ s'.x.c.inbox = upd s.x.c.inbox d (s.x.c.inbox d ++ [f])
  log : Mem.Grown s.x.c.log s'.x.c.log
  runs : ∀ f, s.x.c.pc w = .run f → f < s.x.c.nf
  nf : s.x.c.nf ≤ s'.x.c.nf

omit [Inhabited E] [DecidableEq L] in
theorem eff_goOn {w f : Nat} {k : σ} {ch : Choice E} {s s' : MS σ V E L} (hx : s'.x = { s.x with c := goOn s.x.c f k }) (hp : s.x.c.pc w = .run f)
    (hf : f < s.x.c.nf) (hn : Next body (s.x.c.fr f).st k) : Eff body w ch s s' := by
  refine ⟨fun v hv => by rw [hx]; rfl, fun g hg => ?_, .inl (by rw [hx]; rfl), ⟨[], by rw [hx]; rfl, rfl⟩, fun g hg => by rw [hp] at hg; cases hg; exact hf, by rw [hx]; exact Nat.le_refl _⟩
  rw [hx] at hg ⊢
  by_cases e : g = f
  · subst e; exact ⟨g, hf, by rw [Exn.goOn_st, if_pos rfl]; exact .next hn (.refl _)⟩
  · exact ⟨g, hg, by rw [Exn.goOn_st, if_neg e]; exact .refl _⟩

theorem eff_control (hd : Disc body pend dirty) {w : Nat} {ch : Choice E} {s s' : MS σ V E L} (h : Exn.Reach (ctl body) pend may s.x)
    (hs : Mem.control body w ch s = .ok s') (hn : ∀ f, s.x.c.pc w = .run f → NoAcc body (s.x.c.fr f).st) : Eff body w ch s s' := by
  unfold Mem.control at hs
  cases hx : Exn.step (ctl body) w ch s.x with
  | no => rw [hx] at hs; cases hs
  | ub => rw [hx] at hs; cases hs
  | ok x =>
    rw [hx] at hs; cases hs
    have F := facts (disc_ctl hd) h
    have e := Exn.eff_step hx fun f hf => (F.run w f hf).1
    refine ⟨e.pc, fun f hf => ?_, ?_, Mem.grown_step hx, fun f hf => (F.run w f hf).1, e.nf⟩
    · rcases e.st f hf with ⟨h1, h2⟩ | ⟨p, h1, h2⟩
      · exact ⟨f, h1, by rw [h2]; exact .refl _⟩
      · refine ⟨p, ?_, .next (next_of h2) (.refl _)⟩
        rcases h1 with h1 | h1
        · exact (F.run w p h1).1
        · exact live_lt (disc_ctl hd) h h1
    · rcases Exn.inb_step hx with h1 | h1 | ⟨f, d, k, g, h1, h2, h3⟩
      · exact .inl h1
      · exact .inr (.inl h1)
      · exact .inr (.inr ⟨f, d, k, g, h1, Mem.ctl_switch (hn f h1) h2, h3⟩)

theorem eff_step (hd : Disc body pend dirty) {w : Nat} {ch : Choice E} {s s' : MS σ V E L} (h : Exn.Reach (ctl body) pend may s.x)
    (hs : Mem.step body w ch s = .ok s') : Eff body w ch s s' := by
  have F := facts (disc_ctl hd) h
  unfold Mem.step at hs
  split at hs
  · rename_i f hf
    split at hs
    · rename_i l k hb
      cases hs; exact eff_goOn rfl hf (F.run w f hf).1 (.load _ hb)
    · rename_i l d k hb
      cases hs; exact eff_goOn rfl hf (F.run w f hf).1 (.store hb)
    · rename_i h1 h2
      refine eff_control hd h hs fun g hg => ?_
      rw [hf] at hg; cases hg
      exact ⟨h1, h2⟩
  · rename_i hn
    exact eff_control hd h hs fun f hf => absurd hf (hn f)

omit [Inhabited E] [DecidableEq L] in
theorem After.trans {x y z : σ} (h : After body x y) (h' : After body y z) : After body x z := by
  induction h with
  | refl => exact h'
  | next a _ ih => exact .next a (ih h')

omit [Inhabited E] [DecidableEq L] in
theorem Still.after {x y : σ} (h : Still body x) (h' : After body x y) : Still body y := fun z hz => h z (h'.trans hz)

omit [Inhabited E] [DecidableEq L] in
/-- A task that will make no switch makes none. -/
theorem Eff.still {w : Nat} {ch : Choice E} {s s' : MS σ V E L} (h : Eff body w ch s s') (hs : ∀ f, f < s.x.c.nf → Still body (s.x.c.fr f).st) :
    ∀ f, f < s'.x.c.nf → Still body (s'.x.c.fr f).st := fun f hf => by
  obtain ⟨p, h1, h2⟩ := h.st f hf
  exact (hs p h1).after h2

end Verif.Busy
