import Verif.Hb.Cut
import Verif.Hb.OrdClosed

/-!
A step of the runtime, and what it means for executions without the steps that come after a certain access.
-/
namespace Verif.Hb
open Verif.Runtime (State Res Fr Pc Loc Link Alive Few forkPar upd upd_apply upd_same upd_ne maxU16 Ev status)
open Verif.Exn (XS Choice)
open Verif.Mem (MS Act FJ XR modeOf)
variable {σ V E L : Type}

theorem mode_ne_none (f : Nat) (l : List (Ev σ (Except E V))) : (modeOf f l : Mem.Mode V E) ≠ .none := by
  have h := Mem.status_mode f l
  intro e
  rw [e] at h
  unfold Mem.modeSt at h
  split at h
  · obtain ⟨r, h⟩ := h; cases h
  · cases h
  · cases h
  · cases h

theorem xr_mode {x : XS σ V E} {a : FJ σ V E L} (h : XR x a) (f : Nat) : a.mode f = .none ↔ x.c.nf ≤ f := by
  rcases Nat.lt_or_ge f x.c.nf with h1 | h1
  · exact ⟨fun e => absurd (by rw [← h.mode f h1]; exact e) (mode_ne_none f x.c.log), fun e => by omega⟩
  · exact ⟨fun _ => h1, fun _ => h.un f h1⟩

variable [Inhabited E] {body : σ → Act σ V E L}

/-- Only forks and calls make tasks. -/
theorem nf_step {w : Nat} {ch : Choice E} {x x' : XS σ V E} (hn : ∀ f, x.c.pc w = .run f → Mem.NoAcc body (x.c.fr f).st) (e : Exn.step (Mem.ctl body) w ch x = .ok x') :
    x'.c.nf = x.c.nf ∨ ∃ f o, x.c.pc w = .run f ∧ ch = .go o ∧ ((∃ c k z, body (x.c.fr f).st = .fork c k z) ∨ ∃ c k z, body (x.c.fr f).st = .call c k z) := by
  have wk : ∀ {r : Res (State σ (Except E V))} {p : Nat}, Exn.Res.bind (Exn.plain x r) (Exn.wake (Mem.ctl body) · p) = .ok x' → (∀ c, r = .ok c → c.nf = x.c.nf) → x'.c.nf = x.c.nf := by
    intro r p e hr
    cases e0 : Exn.plain x r with
    | ub => rw [e0] at e; cases e
    | no => rw [e0] at e; cases e
    | ok x1 =>
      rw [e0] at e
      obtain ⟨c1, e1, rfl⟩ := plain_ok e0
      exact (wake_eq e).1.trans (hr c1 e1)
  have pl : ∀ {r : Res (State σ (Except E V))}, Exn.plain x r = .ok x' → (∀ c, r = .ok c → c.nf = x.c.nf) → x'.c.nf = x.c.nf := by
    intro r e hr
    obtain ⟨c1, e1, rfl⟩ := plain_ok e
    exact hr c1 e1
  unfold Exn.step at e
  split at e
  · left
    split at e
    · refine pl e fun c e => ?_
      unfold Runtime.take at e
      repeat' split at e
      all_goals cases e
      all_goals first | rfl | (split <;> rfl)
    · refine pl e fun c e => ?_
      unfold Runtime.steal at e
      repeat' split at e
      all_goals cases e
      rfl
    · cases e
  · rename_i f hp
    have hnf := hn f hp
    unfold Exn.run at e
    cases ch with
    | go o =>
      cases hb : body (x.c.fr f).st with
      | fork c k z => exact .inr ⟨f, o, hp, rfl, .inl ⟨c, k, z, hb⟩⟩
      | call c k z => exact .inr ⟨f, o, hp, rfl, .inr ⟨c, k, z, hb⟩⟩
      | ret v =>
        left
        simp only [Mem.ctl, hb] at e
        unfold Exn.doEnd at e
        simp only at e
        split at e
        · split at e
          · split at e
            · split at e
              · rename_i h1 h2; cases e; exact (destroy_eq h1).1
              · cases e
            · cases e
          · split at e
            · split at e
              · rename_i h1 h2 h3; cases e; first | exact (destroy_eq h1).1 | exact (destroy_eq h2).1 | exact (destroy_eq h3).1 | exact (destroy_eq ‹_›).1
              · cases e
            · cases e
          · split at e
            · split at e
              · rename_i h1; cases e; exact (destroy_eq h1).1
              · cases e
            · cases e
        · cases e
      | throw v =>
        left
        simp only [Mem.ctl, hb] at e
        unfold Exn.doEnd at e
        simp only at e
        split at e
        · split at e
          · split at e
            · split at e
              · rename_i h1 h2; cases e; exact (destroy_eq h1).1
              · cases e
            · cases e
          · split at e
            · split at e
              · rename_i h1 h2 h3; cases e; first | exact (destroy_eq h1).1 | exact (destroy_eq h2).1 | exact (destroy_eq h3).1 | exact (destroy_eq ‹_›).1
              · cases e
            · cases e
          · split at e
            · split at e
              · rename_i h1; cases e; exact (destroy_eq h1).1
              · cases e
            · cases e
        · cases e
      | join k z =>
        left
        simp only [Mem.ctl, hb] at e
        unfold Exn.doJoin at e
        simp only at e
        split at e
        · exact (passJoin_eq e).1
        · cases e; rfl
      | switch d k z =>
        left
        simp only [Mem.ctl, hb] at e
        refine pl e fun c e => ?_
        unfold Runtime.doSwitch at e
        simp only at e
        split at e <;> cases e
        rfl
      | load l k => exact absurd hb (hnf.1 l k)
      | store l d k => exact absurd hb (hnf.2 l d k)
    | fail y b =>
      left
      simp only at e
      split at e
      · rw [Exn.failed_eq] at e; cases e; rfl
      · rw [Exn.failed_eq] at e; cases e; rfl
      · cases e; rfl
      · cases e
    | ready =>
      left
      simp only at e
      split at e <;> cases e
      rfl
  · left
    refine pl e fun c e => ?_
    unfold Runtime.joinLoad at e
    simp only at e
    repeat' split at e
    all_goals cases e
    all_goals rfl
  · left
    refine pl e fun c e => ?_
    unfold Runtime.joinSub at e
    simp only at e
    repeat' split at e
    all_goals cases e
    all_goals rfl
  · left
    unfold Exn.joinTake at e
    split at e
    · exact (passJoin_eq e).1
    · cases e
  · left
    split at e
    · refine pl e fun c e => ?_
      unfold Runtime.finPop at e
      repeat' split at e
      all_goals cases e
      all_goals rfl
    · refine wk e fun c e => ?_
      unfold Runtime.finPop at e
      repeat' split at e
      all_goals cases e
      all_goals rfl
  · left
    refine pl e fun c e => ?_
    unfold Runtime.finDec at e
    simp only at e
    repeat' split at e
    all_goals cases e
    all_goals rfl
  · left
    unfold Exn.finWin at e
    simp only at e
    repeat' split at e
    · exact (passJoin_eq e).1
    · exact (passJoin_eq e).1
    · cases e
    · cases e
  · left
    refine pl e fun c e => ?_
    unfold Runtime.finLose at e
    rename_i same _ _
    cases same <;> simp only [Bool.false_eq_true, if_false, if_true] at e <;> split at e <;> cases e <;> rfl
  · left
    refine pl e fun c e => ?_
    unfold Runtime.selfSteal at e
    repeat' split at e
    all_goals cases e
    all_goals rfl
  · left
    refine wk e fun c e => ?_
    unfold Runtime.stole at e
    split at e <;> cases e
    rfl
  · left
    refine pl e fun c e => ?_
    unfold Runtime.switchRel at e
    rename_i same _ _
    cases same <;> simp only [Bool.false_eq_true, if_false, if_true] at e <;> split at e <;> cases e <;> rfl

end Verif.Hb
