import Verif.Busy.Model
import Verif.Mem.Props
import Verif.Mem.Determ
import Verif.WholeM.Log

/-! What a step of the runtime does, as far as the pool is concerned. -/
namespace Verif.Exn
open Verif.Runtime (State Res Ev upd upd_apply upd_same upd_ne destroy_ok reset newFrame)

variable {σ V E : Type} {body : σ → Act σ V E}

/-- As Verif.Busy.Next. -/
inductive NextX (body : σ → Act σ V E) : σ → σ → Prop
  | child {y c k x} : body y = .fork c k x → NextX body y c
  | fork {y c k x} (b : Bool) : body y = .fork c k x → NextX body y (k b)
  | forkX {y c k x} (e : E) : body y = .fork c k x → NextX body y (x e)
  | callee {y c k x} : body y = .call c k x → NextX body y c
  | call {y c k x} (r : Option V) : body y = .call c k x → NextX body y (k r)
  | callX {y c k x} (e : E) : body y = .call c k x → NextX body y (x e)
  | join {y k x} (l : List V) : body y = .join k x → NextX body y (k l)
  | joinX {y k x} (e : E) (l : List (Option V)) : body y = .join k x → NextX body y (x e l)
  | switch {y d k x} : body y = .switch d k x → NextX body y k
  | switchX {y d k x} (e : E) : body y = .switch d k x → NextX body y (x e)

/-- What a step does to the places of other workers and to the states of the tasks. -/
structure Eff (body : σ → Act σ V E) (w : Nat) (x x' : XS σ V E) : Prop where
  pc : ∀ v, v ≠ w → x'.c.pc v = x.c.pc v
  st : ∀ f, f < x'.c.nf → (f < x.c.nf ∧ (x'.c.fr f).st = (x.c.fr f).st) ∨
    ∃ p, (x.c.pc w = .run p ∨ x.c.live p = true) ∧ NextX body (x.c.fr p).st (x'.c.fr f).st
  nf : x.c.nf ≤ x'.c.nf

/-- No task changes its state. -/
theorem Eff.quiet {w : Nat} {x x' : XS σ V E} (h1 : ∀ v, v ≠ w → x'.c.pc v = x.c.pc v) (h2 : x'.c.nf = x.c.nf)
    (h3 : ∀ f, (x'.c.fr f).st = (x.c.fr f).st) : Eff body w x x' := ⟨h1, fun f hf => .inl ⟨by omega, h3 f⟩, by omega⟩

/-- One task does. -/
theorem Eff.one {w p : Nat} {k : σ} {x x' : XS σ V E} (h1 : ∀ v, v ≠ w → x'.c.pc v = x.c.pc v) (h2 : x'.c.nf = x.c.nf)
    (h3 : ∀ f, (x'.c.fr f).st = if f = p then k else (x.c.fr f).st) (h4 : x.c.pc w = .run p ∨ x.c.live p = true) (h5 : NextX body (x.c.fr p).st k) :
    Eff body w x x' := by
  refine ⟨h1, fun f hf => ?_, by omega⟩
  by_cases e : f = p
  · subst e; exact .inr ⟨f, h4, by rw [h3 f, if_pos rfl]; exact h5⟩
  · exact .inl ⟨by omega, by rw [h3 f, if_neg e]⟩

theorem live_top {c : State σ (Except E V)} {f : Nat} (h : c.isTop f = true) : c.live f = true := by
  simp only [State.isTop, State.live, decide_eq_true_eq] at *
  exact List.mem_of_mem_head? h

theorem eff_passJoin {x0 x x' : XS σ V E} {w f : Nat} (h : passJoin body x w f = .ok x') (hp : ∀ v, v ≠ w → x.c.pc v = x0.c.pc v)
    (hn : x.c.nf = x0.c.nf) (hs : ∀ g, (x.c.fr g).st = (x0.c.fr g).st) (ha : x.c.al = x0.c.al) (hk : x.c.stk = x0.c.stk) : Eff body w x0 x' := by
  unfold passJoin at h
  simp only at h
  split at h
  · rename_i hc
    have hl : x0.c.live f = true := by
      have := live_top hc.2.2.2
      simp only [State.live, ha, hk] at this ⊢
      exact this
    split at h
    · rename_i kk xx e hb he
      cases h
      refine Eff.one (fun v hv => ?_) hn (p := f) (fun g => ?_) (.inr hl) (.joinX e ((x.c.fr f).slots.map held) (by rw [← hs]; assumption))
      · simp only [upd_ne _ _ hv]; exact hp v hv
      · simp only [upd_apply]; split
        · rfl
        · exact hs g
    · rename_i kk xx vs hb he hv
      cases h
      refine Eff.one (fun v hv => ?_) hn (p := f) (fun g => ?_) (.inr hl) (.join vs (by rw [← hs]; assumption))
      · simp only [upd_ne _ _ hv]; exact hp v hv
      · simp only [upd_apply]; split
        · rfl
        · exact hs g
    · cases h
  · cases h

theorem eff_end {x x' : XS σ V E} {w f : Nat} {r : Except E V} (h : doEnd body x w f r = .ok x') : Eff body w x x' := by
  unfold doEnd at h
  simp only at h
  split at h
  rotate_left
  · cases h
  split at h
  · split at h
    · rename_i hd
      obtain ⟨rfl, _⟩ := destroy_ok hd
      split at h <;> cases h
      exact Eff.quiet (fun v hv => upd_ne _ _ hv) rfl (fun _ => rfl)
    · cases h
  · split at h
    · rename_i hl
      split at h
      · rename_i hb hd
        obtain ⟨rfl, _⟩ := destroy_ok hd
        cases h
        refine Eff.one (fun v hv => upd_ne _ _ hv) rfl (fun g => ?_) (.inr hl) (.call r.toOption hb)
        simp only [upd_apply]; split <;> rfl
      · cases h
    · cases h
  · split at h
    · split at h
      · rename_i hd
        obtain ⟨rfl, _⟩ := destroy_ok hd
        cases h
        refine Eff.quiet (fun v hv => upd_ne _ _ hv) rfl (fun g => ?_)
        simp only [upd_apply]; split
        · subst_vars; rfl
        · rfl
      · cases h
    · cases h

theorem goOn_st (c : State σ (Except E V)) (f : Nat) (k : σ) (g : Nat) : ((goOn c f k).fr g).st = if g = f then k else (c.fr g).st := by
  simp only [goOn, upd_apply]; split <;> rfl

theorem eff_failed {x x' : XS σ V E} {w f : Nat} {c k : σ} {late : Bool} (h : failed x w f c k late = .ok x') (hr : x.c.pc w = .run f)
    (hn : NextX body (x.c.fr f).st k) : Eff body w x x' := by
  unfold failed at h
  split at h
  · split at h <;> cases h
    exact Eff.one (fun _ _ => rfl) rfl (goOn_st _ _ _) (.inl hr) hn
  · cases h
    exact Eff.one (fun _ _ => rfl) rfl (goOn_st _ _ _) (.inl hr) hn

theorem eff_run {x x' : XS σ V E} {w f : Nat} {ch : Choice E} (h : run body x w f ch = .ok x') (hr : x.c.pc w = .run f) (hf : f < x.c.nf) : Eff body w x x' := by
  unfold run at h
  cases ch with
  | go ch =>
    simp only at h
    split at h
    · exact eff_end h
    · exact eff_end h
    · rename_i hb
      cases h
      refine ⟨fun v hv => by simp [fork, Runtime.doFork, newFrame, upd_ne _ _ hv], fun g hg => ?_, Nat.le_succ _⟩
      simp only [fork, Runtime.doFork, newFrame, upd_apply] at hg ⊢
      by_cases e1 : g = f
      · subst e1
        by_cases e2 : g < x.c.nf
        · exact .inl ⟨e2, by simp⟩
        · exact absurd hf e2
      · rw [if_neg e1]
        by_cases e2 : g = x.c.nf
        · rw [if_pos e2]; exact .inr ⟨f, .inl hr, .child hb⟩
        · rw [if_neg e2]; exact .inl ⟨by omega, rfl⟩
    · rename_i hb
      cases h
      refine ⟨fun v hv => by simp [call, Runtime.doCall, newFrame, upd_ne _ _ hv], fun g hg => ?_, Nat.le_succ _⟩
      simp only [call, Runtime.doCall, newFrame, upd_apply] at hg ⊢
      by_cases e2 : g = x.c.nf
      · rw [if_pos e2]; exact .inr ⟨f, .inl hr, .callee hb⟩
      · rw [if_neg e2]; exact .inl ⟨by omega, rfl⟩
    · unfold doJoin at h
      simp only at h
      split at h
      · exact eff_passJoin h (fun _ _ => rfl) rfl (fun _ => rfl) rfl rfl
      · cases h; exact Eff.quiet (fun v hv => upd_ne _ _ hv) rfl (fun _ => rfl)
    · rename_i hb
      unfold Verif.Runtime.doSwitch at h
      simp only at h
      split at h
      · cases h
        refine Eff.one (fun v hv => upd_ne _ _ hv) rfl (fun g => ?_) (.inl hr) (.switch hb)
        simp only [upd_apply]; split <;> rfl
      · cases h
  | fail e late =>
    simp only at h
    split at h
    · exact eff_failed h hr (.forkX _ ‹_›)
    · exact eff_failed h hr (.callX _ ‹_›)
    · cases h; exact Eff.one (fun _ _ => rfl) rfl (goOn_st _ _ _) (.inl hr) (.switchX _ ‹_›)
    · cases h
  | ready =>
    simp only at h
    split at h
    · cases h; exact Eff.one (fun _ _ => rfl) rfl (goOn_st _ _ _) (.inl hr) (.switch ‹_›)
    · cases h

theorem eff_plain {x x' : XS σ V E} {w : Nat} {r : Res (State σ (Except E V))} (h : plain x r = .ok x')
    (hr : ∀ c, r = .ok c → (∀ v, v ≠ w → c.pc v = x.c.pc v) ∧ c.nf = x.c.nf ∧ ∀ f, (c.fr f).st = (x.c.fr f).st) : Eff body w x x' := by
  cases r with
  | ok c => cases h; obtain ⟨h1, h2, h3⟩ := hr c rfl; exact Eff.quiet h1 h2 h3
  | _ => cases h

theorem eff_wake {x x1 x' : XS σ V E} {w p : Nat} (h : wake body x1 p = .ok x') (h1 : ∀ v, v ≠ w → x1.c.pc v = x.c.pc v) (h2 : x1.c.nf = x.c.nf)
    (h3 : ∀ f, (x1.c.fr f).st = (x.c.fr f).st) (hl : x.c.live p = true) : Eff body w x x' := by
  unfold wake at h
  split at h
  · rename_i pre c k xx ha hb
    cases h
    refine Eff.one h1 h2 (fun g => ?_) (.inr hl) (.fork (decide ((x1.c.fr p).steal = pre)) (by rw [← h3]; exact hb))
    rw [goOn_st]; split
    · rfl
    · exact h3 g
  · cases h

theorem eff_step {x x' : XS σ V E} {w : Nat} {ch : Choice E} (h : step body w ch x = .ok x') (hf : ∀ f, x.c.pc w = .run f → f < x.c.nf) :
    Eff body w x x' := by
  unfold step at h
  split at h
  · split at h
    · refine eff_plain h fun c hc => ?_
      unfold Runtime.take at hc
      split at hc
      · split at hc <;> cases hc
        exact ⟨fun v hv => upd_ne _ _ hv, rfl, fun _ => rfl⟩
      · cases hc
    · refine eff_plain h fun c hc => ?_
      unfold Runtime.steal at hc
      split at hc
      · split at hc
        · cases hc; exact ⟨fun v hv => upd_ne _ _ hv, rfl, fun _ => rfl⟩
        · split at hc <;> cases hc
      · cases hc
    · cases h
  · exact eff_run h ‹_› (hf _ ‹_›)
  · refine eff_plain h fun c hc => ?_
    unfold Runtime.joinLoad at hc
    simp only at hc
    split at hc <;> cases hc <;> exact ⟨fun v hv => upd_ne _ _ hv, rfl, fun _ => rfl⟩
  · refine eff_plain h fun c hc => ?_
    unfold Runtime.joinSub at hc
    simp only at hc
    split at hc <;> cases hc <;> exact ⟨fun v hv => upd_ne _ _ hv, rfl, fun g => by simp only [upd_apply]; split <;> simp_all⟩
  · unfold joinTake at h
    split at h
    · exact eff_passJoin h (fun _ _ => rfl) rfl (fun g => by simp only [upd_apply]; split <;> simp_all [reset]) rfl rfl
    · cases h
  · rename_i p c1 _
    have pop : ∀ {c : State σ (Except E V)}, Runtime.finPop x.c w p c1 = .ok c →
        ((∀ v, v ≠ w → c.pc v = x.c.pc v) ∧ c.nf = x.c.nf ∧ ∀ f, (c.fr f).st = (x.c.fr f).st) ∧ x.c.live p = true := by
      intro c hc
      unfold Runtime.finPop at hc
      split at hc
      · split at hc <;> cases hc
        rename_i hl
        exact ⟨⟨fun v hv => upd_ne _ _ hv, rfl, fun g => by simp only [Runtime.report, upd_apply]; split <;> simp_all⟩, hl.2⟩
      · split at hc <;> cases hc
        rename_i hl
        exact ⟨⟨fun v hv => upd_ne _ _ hv, rfl, fun _ => rfl⟩, hl.1⟩
    split at h
    · exact eff_plain h fun c hc => (pop hc).1
    · unfold Res.bind at h
      split at h
      · rename_i ha
        cases hr : Runtime.finPop x.c w p c1 with
        | ok c =>
          rw [hr] at ha; cases ha
          obtain ⟨⟨a1, a2, a3⟩, a4⟩ := pop hr
          exact eff_wake h a1 a2 a3 a4
        | no => rw [hr] at ha; cases ha
        | ub => rw [hr] at ha; cases ha
      · cases h
      · cases h
  · refine eff_plain h fun c hc => ?_
    unfold Runtime.finDec at hc
    simp only at hc
    split at hc
    · split at hc <;> cases hc <;>
        exact ⟨fun v hv => upd_ne _ _ hv, rfl, fun g => by simp only [Runtime.report, upd_apply]; split <;> simp_all⟩
    · cases hc
  · unfold finWin at h
    simp only at h
    split at h
    · split at h
      · exact eff_passJoin h (fun _ _ => rfl) rfl (fun g => by simp only [upd_apply]; split <;> simp_all [reset]) rfl rfl
      · split at h
        · exact eff_passJoin h (fun _ _ => rfl) rfl (fun g => by simp only [upd_apply]; split <;> simp_all [reset]) rfl rfl
        · cases h
    · cases h
  · refine eff_plain h fun c hc => ?_
    unfold Runtime.finLose at hc
    simp only at hc
    split at hc <;> (split at hc <;> first | (cases hc; exact ⟨fun v hv => upd_ne _ _ hv, rfl, fun _ => rfl⟩) | cases hc)
  · refine eff_plain h fun c hc => ?_
    unfold Runtime.selfSteal at hc
    split at hc
    · cases hc; exact ⟨fun v hv => upd_ne _ _ hv, rfl, fun _ => rfl⟩
    · split at hc <;> cases hc; exact ⟨fun v hv => upd_ne _ _ hv, rfl, fun _ => rfl⟩
  · rename_i p _
    unfold Res.bind at h
    split at h
    · rename_i ha
      have st : ∀ {c : State σ (Except E V)}, Runtime.stole x.c w p = .ok c →
          ((∀ v, v ≠ w → c.pc v = x.c.pc v) ∧ c.nf = x.c.nf ∧ ∀ f, (c.fr f).st = (x.c.fr f).st) ∧ x.c.live p = true := by
        intro c hc
        unfold Runtime.stole at hc
        split at hc <;> cases hc
        rename_i hl
        exact ⟨⟨fun v hv => upd_ne _ _ hv, rfl, fun g => by simp only [upd_apply]; split <;> simp_all⟩, hl⟩
      cases hr : Runtime.stole x.c w p with
      | ok c =>
        rw [hr] at ha; cases ha
        obtain ⟨⟨a1, a2, a3⟩, a4⟩ := st hr
        exact eff_wake h a1 a2 a3 a4
      | no => rw [hr] at ha; cases ha
      | ub => rw [hr] at ha; cases ha
    · cases h
    · cases h
  · refine eff_plain h fun c hc => ?_
    unfold Runtime.switchRel at hc
    simp only at hc
    split at hc <;> (split at hc <;> first | (cases hc; exact ⟨fun v hv => upd_ne _ _ hv, rfl, fun _ => rfl⟩) | cases hc)

end Verif.Exn
