import Verif.Fld.Step

/-!
What a step does, as far as frames are concerned: the other steps.
-/
namespace Verif.Fld
open Verif.Runtime (State Res Fr Pc Loc Link Alive Few forkPar upd upd_apply upd_same upd_ne maxU16)
open Verif.Exn (XS Choice)
open Verif.Mem (MS Act)
open Verif.Hb (HS Clk Ord Par I Fx JX All who sync order plain_ok)

variable {σ V E L : Type}
variable {body : σ → Act σ V E L} {pend : σ → Nat} {dirty : σ → Prop} {w : Nat} {ch : Choice E} {x x' : XS σ V E}

/-- The end of a join that was lost at first. -/
theorem mv_won [Inhabited E] (hd : Mem.Disc body pend dirty) (F : Fx x) {f : Nat} (hp : x.c.pc w = .joinTake f ∨ ∃ b, x.c.pc w = .finWin f b)
    {s : XS σ V E} (e : Exn.passJoin (Mem.ctl body) s w f = .ok x') (h1 : s.c.loc = x.c.loc) (h2 : s.c.nf = x.c.nf) (h3 : s.exc = x.exc) : Mv body pend w ch x x' := by
  obtain ⟨q1, q2, q3, q4, q5⟩ := mv_pass (w := w) hd e
  have hl := (F.loc.win w f).2 hp
  have nr : ∀ g, x.c.pc w ≠ .run g := fun g h => by rcases hp with hp | ⟨b, hp⟩ <;> (rw [hp] at h; cases h)
  refine Mv.passed (by rw [hl]; simp) (fun p => ⟨fun hP => ?_, fun e => ?_⟩) (fun g h => nr g h.1) (fun g _ h => nr g h.1) (by rw [q1, h1]) (by rw [q2, h2]) q3
    (fun p hp => by rw [q4 p hp, h3]) ?_
  · rcases hP with h | ⟨b, h⟩ | h
    · rcases hp with hp | ⟨b, hp⟩ <;> (rw [hp] at h; cases h)
      rfl
    · rcases hp with hp | ⟨b, hp⟩ <;> (rw [hp] at h; cases h)
      rfl
    · exact absurd h.1 (nr p)
  · subst e
    rcases hp with hp | hp
    · exact .inl hp
    · exact .inr (.inl hp)
  · rcases q5 with h5 | ⟨d, k', z', h6, rfl, h7⟩
    · exact h5.2
    · exfalso
      unfold Mem.ctl at h6
      split at h6 <;> cases h6
      rename_i hb
      exact h7 _ _ hb

theorem wake_exc {bd : σ → Exn.Act σ V E} {s s' : XS σ V E} {p : Nat} (e : Exn.wake bd s p = .ok s') : s'.exc = s.exc := by
  unfold Exn.wake at e
  split at e <;> cases e
  rfl

theorem mv_control [Inhabited E] (hd : Mem.Disc body pend dirty) (F : Fx x)
    (hn : ∀ f, x.c.pc w = .run f → Mem.NoAcc body (x.c.fr f).st) (e : Exn.step (Mem.ctl body) w ch x = .ok x') : Mv body pend w ch x x' := by
  unfold Exn.step at e
  split at e
  · rename_i hp
    have hq : (∀ f, x.c.pc w ≠ .run f) ∧ (∀ f, x.c.pc w ≠ .joinTake f) ∧ ∀ f b, x.c.pc w ≠ .finWin f b := by rw [hp]; simp
    split at e
    · obtain ⟨c1, e1, rfl⟩ := plain_ok e
      unfold Runtime.take at e1
      split at e1
      · rename_i f r hb
        have hl : x.c.loc f = .inbox w := (F.loc.inb w f).2 (by rw [hb]; exact List.mem_cons_self ..)
        split at e1 <;> cases e1
        exact .still hq (fun c h => gone_upd (by rw [hl]; simp) c h) rfl rfl
      · cases e1
    · obtain ⟨c1, e1, rfl⟩ := plain_ok e
      unfold Runtime.steal at e1
      split at e1
      · rename_i v p k hb
        have hl := (F.loc.queue _ p k).2 (List.mem_of_getLast? hb)
        split at e1
        · cases e1
          exact .still hq (fun c h => gone_upd (by rw [hl]; simp) c h) rfl rfl
        · split at e1 <;> cases e1
      · cases e1
    · cases e
  · rename_i hp; exact mv_run hd F hp (hn _ hp) e
  · rename_i f hp
    have hq : (∀ f, x.c.pc w ≠ .run f) ∧ (∀ f, x.c.pc w ≠ .joinTake f) ∧ ∀ f b, x.c.pc w ≠ .finWin f b := by rw [hp]; simp
    have hl := (F.loc.run w f).2 (.inr (.inl hp))
    obtain ⟨c1, e1, rfl⟩ := plain_ok e
    unfold Runtime.joinLoad at e1
    simp only at e1
    split at e1 <;> cases e1
    · exact .still hq (fun c h => gone_upd (by rw [hl]; simp) c h) rfl rfl
    · exact .still hq (fun c h => h) rfl rfl
  · rename_i f hp
    have hq : (∀ f, x.c.pc w ≠ .run f) ∧ (∀ f, x.c.pc w ≠ .joinTake f) ∧ ∀ f b, x.c.pc w ≠ .finWin f b := by rw [hp]; simp
    have hl := (F.loc.run w f).2 (.inr (.inr hp))
    obtain ⟨c1, e1, rfl⟩ := plain_ok e
    unfold Runtime.joinSub at e1
    simp only at e1
    split at e1 <;> cases e1
    · exact .still hq (fun c h => gone_upd (by rw [hl]; simp) c h) rfl rfl
    · exact .still hq (fun c h => gone_upd (by rw [hl]; simp) c h) rfl rfl
  · rename_i f hp
    unfold Exn.joinTake at e
    split at e
    · exact mv_won hd F (.inl hp) e rfl rfl rfl
    · cases e
  · rename_i p c hp
    have hq : (∀ f, x.c.pc w ≠ .run f) ∧ (∀ f, x.c.pc w ≠ .joinTake f) ∧ ∀ f b, x.c.pc w ≠ .finWin f b := by rw [hp]; simp
    split at e
    · rename_i hqw
      obtain ⟨c1, e1, rfl⟩ := plain_ok e
      unfold Runtime.finPop at e1
      rw [hqw] at e1
      simp only at e1
      split at e1 <;> cases e1
      exact .still hq (fun c h => h) rfl rfl
    · rename_i y r hqw
      obtain ⟨p', c'⟩ := y
      cases hx : Exn.plain x (Runtime.finPop x.c w p c) with
      | no => rw [hx] at e; cases e
      | ub => rw [hx] at e; cases e
      | ok x1 =>
        rw [hx] at e
        obtain ⟨c1, e1, rfl⟩ := plain_ok hx
        obtain ⟨w1, w2, _⟩ := Hb.wake_eq e
        have w3 := wake_exc e
        unfold Runtime.finPop at e1
        rw [hqw] at e1
        simp only at e1
        split at e1
        · rename_i hpp
          cases e1
          obtain ⟨rfl, _⟩ := hpp
          have hl := (F.loc.queue w p' c').2 (by rw [hqw]; exact List.mem_cons_self ..)
          refine .still hq (fun c0 h => ?_) w1 w3
          rw [w2]
          show upd (upd x.c.loc c .gone) p' _ c0 = .gone
          have h2 : c0 ≠ p' := by rintro rfl; rw [hl] at h; cases h
          rw [upd_ne _ _ h2, upd_apply]; split <;> simp_all
        · cases e1
  · rename_i p c b hp
    have hq : (∀ f, x.c.pc w ≠ .run f) ∧ (∀ f, x.c.pc w ≠ .joinTake f) ∧ ∀ f b, x.c.pc w ≠ .finWin f b := by rw [hp]; simp
    have hfl := (F.loc.fin w c).2 ⟨p, .inr ⟨b, hp⟩⟩
    have ha := F.kid c p (F.flink w p c (.inr ⟨b, hp⟩)) (by rw [hfl]; simp) (by rw [hfl]; simp)
    obtain ⟨c1, e1, rfl⟩ := plain_ok e
    unfold Runtime.finDec at e1
    simp only at e1
    split at e1
    · split at e1 <;> cases e1
      · refine .still hq (fun c0 h => ?_) rfl rfl
        show upd (upd x.c.loc c .gone) p _ c0 = .gone
        have h2 : c0 ≠ p := by rintro rfl; rw [h] at ha; exact ha
        rw [upd_ne _ _ h2, upd_apply]; split <;> simp_all
      · refine .still hq (fun c0 h => ?_) rfl rfl
        show upd x.c.loc c .gone c0 = .gone
        rw [upd_apply]; split <;> simp_all
    · cases e1
  · rename_i f b hp
    unfold Exn.finWin at e
    split at e
    · simp only at e
      split at e
      · exact mv_won hd F (.inr ⟨b, hp⟩) e rfl rfl rfl
      · split at e
        · exact mv_won hd F (.inr ⟨b, hp⟩) e rfl rfl rfl
        · cases e
    · cases e
  · rename_i b hp
    have hq : (∀ f, x.c.pc w ≠ .run f) ∧ (∀ f, x.c.pc w ≠ .joinTake f) ∧ ∀ f b, x.c.pc w ≠ .finWin f b := by rw [hp]; simp
    obtain ⟨c1, e1, rfl⟩ := plain_ok e
    unfold Runtime.finLose at e1
    cases b <;> simp only [if_true, if_false, Bool.false_eq_true] at e1 <;> split at e1 <;> cases e1 <;> exact .still hq (fun c h => h) rfl rfl
  · rename_i hp
    have hq : (∀ f, x.c.pc w ≠ .run f) ∧ (∀ f, x.c.pc w ≠ .joinTake f) ∧ ∀ f b, x.c.pc w ≠ .finWin f b := by rw [hp]; simp
    obtain ⟨c1, e1, rfl⟩ := plain_ok e
    unfold Runtime.selfSteal at e1
    split at e1
    · rename_i p k r hb
      have hl := (F.loc.queue w p k).2 (by rw [hb]; exact List.mem_cons_self ..)
      cases e1
      exact .still hq (fun c h => gone_upd (by rw [hl]; simp) c h) rfl rfl
    · split at e1 <;> cases e1
      exact .still hq (fun c h => h) rfl rfl
  · rename_i p hp
    have hq : (∀ f, x.c.pc w ≠ .run f) ∧ (∀ f, x.c.pc w ≠ .joinTake f) ∧ ∀ f b, x.c.pc w ≠ .finWin f b := by rw [hp]; simp
    have hl := (F.loc.sto w p).2 hp
    cases hx : Exn.plain x (Runtime.stole x.c w p) with
    | no => rw [hx] at e; cases e
    | ub => rw [hx] at e; cases e
    | ok x1 =>
      rw [hx] at e
      obtain ⟨c1, e1, rfl⟩ := plain_ok hx
      obtain ⟨w1, w2, _⟩ := Hb.wake_eq e
      have w3 := wake_exc e
      unfold Runtime.stole at e1
      split at e1 <;> cases e1
      refine .still hq (fun c0 h => ?_) w1 w3
      rw [w2]
      exact gone_upd (by rw [hl]; simp) c0 h
  · rename_i z hp
    have hq : (∀ f, x.c.pc w ≠ .run f) ∧ (∀ f, x.c.pc w ≠ .joinTake f) ∧ ∀ f b, x.c.pc w ≠ .finWin f b := by rw [hp]; simp
    obtain ⟨c1, e1, rfl⟩ := plain_ok e
    unfold Runtime.switchRel at e1
    cases z <;> simp only [if_true, if_false, Bool.false_eq_true] at e1 <;> split at e1 <;> cases e1 <;> exact .still hq (fun c h => h) rfl rfl

/-- Every step of a worker. -/
theorem mv_step [Inhabited E] [DecidableEq L] (hd : Mem.Disc body pend dirty) {s s' : MS σ V E L} (F : Fx s.x) (e : Mem.step body w ch s = .ok s') : Mv body pend w ch s.x s'.x := by
  have hc : (∀ f, s.x.c.pc w = .run f → Mem.NoAcc body (s.x.c.fr f).st) → Mem.control body w ch s = .ok s' → Mv body pend w ch s.x s'.x := by
    intro hn e
    unfold Mem.control at e
    cases hx : Exn.step (Mem.ctl body) w ch s.x with
    | ok x => rw [hx] at e; cases e; exact mv_control hd F hn hx
    | no => rw [hx] at e; cases e
    | ub => rw [hx] at e; cases e
  have nl : ∀ {f : Nat}, s.x.c.pc w = .run f → (∃ l k, body (s.x.c.fr f).st = .load l k) ∨ (∃ l d k, body (s.x.c.fr f).st = .store l d k) →
      (∀ f, ¬ New body w ch s.x f) ∧ (∀ f p, ¬ Catch body w ch s.x f p) ∧ ∀ f, ¬ Pass body w ch s.x f := by
    intro f hp hb
    refine ⟨fun f' h => ?_, fun f' p h => ?_, fun f' h => ?_⟩
    · obtain ⟨h1, _, h2⟩ := h
      rw [hp] at h1; cases h1
      rcases hb with ⟨_, _, hb⟩ | ⟨_, _, _, hb⟩ <;> rcases h2 with ⟨_, _, _, h2⟩ | ⟨_, _, _, h2⟩ <;> (rw [hb] at h2; cases h2)
    · obtain ⟨h1, _, ⟨_, h2⟩, _⟩ := h
      rw [hp] at h1; cases h1
      rcases hb with ⟨_, _, hb⟩ | ⟨_, _, _, hb⟩ <;> (rw [hb] at h2; cases h2)
    · rcases h with h1 | ⟨b, h1⟩ | ⟨h1, _, ⟨_, _, h2⟩, _⟩
      · rw [hp] at h1; cases h1
      · rw [hp] at h1; cases h1
      · rw [hp] at h1; cases h1
        rcases hb with ⟨_, _, hb⟩ | ⟨_, _, _, hb⟩ <;> (rw [hb] at h2; cases h2)
  unfold Mem.step at e
  split at e
  · rename_i f hp
    split at e
    · rename_i l k hb
      cases e
      obtain ⟨a, b, c⟩ := nl hp (.inl ⟨_, _, hb⟩)
      exact .plain (fun _ h => h) rfl rfl a b c
    · rename_i l d k hb
      cases e
      obtain ⟨a, b, c⟩ := nl hp (.inr ⟨_, _, _, hb⟩)
      exact .plain (fun _ h => h) rfl rfl a b c
    · rename_i hn1 hn2
      exact hc (fun f' hf' => by rw [hp] at hf'; cases hf'; exact ⟨fun l k h => hn1 l k h, fun l d k h => hn2 l d k h⟩) e
  · rename_i hnr
    exact hc (fun f' hf' => absurd hf' (hnr f')) e

end Verif.Fld
