import Verif.Space.Spec
import Verif.WholeM.Log
import Verif.Busy.Step

/-! Where the tasks come from. -/
namespace Verif.Space
open Verif.Runtime (State Res Ev Link upd upd_apply upd_same upd_ne destroy_ok reset newFrame linkPar)
open Verif.Exn

variable {σ V E : Type} {body : σ → Act σ V E}

/-- What a step does to the tasks: each goes on by itself or not at all; a new one is made by another. -/
structure Gen (body : σ → Act σ V E) (x x' : XS σ V E) : Prop where
  nf : x.c.nf ≤ x'.c.nf
  old : ∀ f, f < x.c.nf → x'.c.init f = x.c.init f ∧ x'.c.link f = x.c.link f ∧ ((x'.c.fr f).st = (x.c.fr f).st ∨ Own body (x.c.fr f).st (x'.c.fr f).st)
  new : ∀ f, x.c.nf ≤ f → f < x'.c.nf → (x'.c.fr f).st = x'.c.init f ∧ ∃ p, p < x.c.nf ∧ linkPar (x'.c.link f) = some p ∧
    ((∃ k h, body (x.c.fr p).st = .fork (x'.c.init f) k h) ∨ ∃ k h, body (x.c.fr p).st = .call (x'.c.init f) k h)

/-- The same tasks. -/
structure Kept (c c' : State σ (Except E V)) : Prop where
  nf : c'.nf = c.nf
  init : c'.init = c.init
  link : c'.link = c.link
  st : ∀ f, (c'.fr f).st = (c.fr f).st

theorem Gen.quiet {x x' : XS σ V E} (h : Kept x.c x'.c) : Gen body x x' :=
  ⟨by rw [h.nf]; exact Nat.le_refl _, fun f _ => ⟨by rw [h.init], by rw [h.link], .inl (h.st f)⟩, fun f h1 h2 => by rw [h.nf] at h2; omega⟩

theorem Gen.one {p : Nat} {k : σ} {x x' : XS σ V E} (h2 : x'.c.nf = x.c.nf) (hi : x'.c.init = x.c.init) (hl : x'.c.link = x.c.link)
    (h3 : ∀ f, (x'.c.fr f).st = if f = p then k else (x.c.fr f).st) (h5 : Own body (x.c.fr p).st k) : Gen body x x' := by
  refine ⟨by omega, fun f _ => ⟨by rw [hi], by rw [hl], ?_⟩, fun f h4 h5 => by omega⟩
  rw [h3 f]
  by_cases e : f = p
  · subst e; rw [if_pos rfl]; exact .inr h5
  · rw [if_neg e]; exact .inl rfl

theorem gen_passJoin {x0 x x' : XS σ V E} {w f : Nat} (h : passJoin body x w f = .ok x') (hk : Kept x0.c x.c) : Gen body x0 x' := by
  unfold passJoin at h
  simp only at h
  split at h
  · rename_i hc
    split at h
    · rename_i kk xx e hb he
      cases h
      refine Gen.one hk.nf hk.init hk.link (p := f) (fun g => ?_) (.joinX e ((x.c.fr f).slots.map held) (by rw [← hk.st]; assumption))
      simp only [upd_apply]; split
      · rfl
      · exact hk.st g
    · rename_i kk xx vs hb he hv
      cases h
      refine Gen.one hk.nf hk.init hk.link (p := f) (fun g => ?_) (.join vs (by rw [← hk.st]; assumption))
      simp only [upd_apply]; split
      · rfl
      · exact hk.st g
    · cases h
  · cases h

theorem gen_end {x x' : XS σ V E} {w f : Nat} {r : Except E V} (h : doEnd body x w f r = .ok x') : Gen body x x' := by
  unfold doEnd at h
  simp only at h
  split at h
  rotate_left
  · cases h
  split at h
  · split at h
    · rename_i hd
      obtain ⟨rfl, _⟩ := destroy_ok hd
      split at h <;> cases h
      exact Gen.quiet ⟨rfl, rfl, rfl, fun _ => rfl⟩
    · cases h
  · split at h
    · rename_i hl
      split at h
      · rename_i hb hd
        obtain ⟨rfl, _⟩ := destroy_ok hd
        cases h
        refine Gen.one rfl rfl rfl (fun g => ?_) (.call r.toOption hb)
        simp only [upd_apply]; split <;> rfl
      · cases h
    · cases h
  · split at h
    · split at h
      · rename_i hd
        obtain ⟨rfl, _⟩ := destroy_ok hd
        cases h
        refine Gen.quiet ⟨rfl, rfl, rfl, fun g => ?_⟩
        simp only [upd_apply]; split
        · subst_vars; rfl
        · rfl
      · cases h
    · cases h

theorem gen_failed {x x' : XS σ V E} {w f : Nat} {c k : σ} {late : Bool} (h : failed x w f c k late = .ok x') (hn : Own body (x.c.fr f).st k) : Gen body x x' := by
  unfold failed at h
  split at h
  · split at h <;> cases h
    exact Gen.one rfl rfl rfl (goOn_st _ _ _) hn
  · cases h
    exact Gen.one rfl rfl rfl (goOn_st _ _ _) hn

theorem gen_run {x x' : XS σ V E} {w f : Nat} {ch : Choice E} (h : run body x w f ch = .ok x') (hf : f < x.c.nf) : Gen body x x' := by
  unfold run at h
  cases ch with
  | go ch =>
    simp only at h
    split at h
    · exact gen_end h
    · exact gen_end h
    · rename_i hb
      cases h
      refine ⟨Nat.le_succ _, fun g hg => ?_, fun g h1 h2 => ?_⟩
      · simp only [Exn.fork, Runtime.doFork, newFrame, upd_apply, if_neg (Nat.ne_of_lt hg)]
        refine ⟨trivial, trivial, .inl ?_⟩
        split
        · subst_vars; rfl
        · rfl
      · simp only [Exn.fork, Runtime.doFork, newFrame, upd_apply] at h2 ⊢
        have e : g = x.c.nf := by omega
        subst e
        rw [if_neg (by omega)]
        simp only [if_pos]
        exact ⟨trivial, f, hf, rfl, .inl ⟨_, _, hb⟩⟩
    · rename_i hb
      cases h
      refine ⟨Nat.le_succ _, fun g hg => ?_, fun g h1 h2 => ?_⟩
      · simp only [Exn.call, Runtime.doCall, newFrame, upd_apply, if_neg (Nat.ne_of_lt hg)]
        exact ⟨trivial, trivial, .inl trivial⟩
      · simp only [Exn.call, Runtime.doCall, newFrame, upd_apply] at h2 ⊢
        have e : g = x.c.nf := by omega
        subst e
        simp only [if_pos]
        exact ⟨trivial, f, hf, rfl, .inr ⟨_, _, hb⟩⟩
    · unfold doJoin at h
      simp only at h
      split at h
      · exact gen_passJoin h ⟨rfl, rfl, rfl, fun _ => rfl⟩
      · cases h; exact Gen.quiet ⟨rfl, rfl, rfl, fun _ => rfl⟩
    · rename_i hb
      unfold Verif.Runtime.doSwitch at h
      simp only at h
      split at h
      · cases h
        refine Gen.one rfl rfl rfl (fun g => ?_) (.switch hb)
        simp only [upd_apply]; split <;> rfl
      · cases h
  | fail e late =>
    simp only at h
    split at h
    · exact gen_failed h (.forkX _ ‹_›)
    · exact gen_failed h (.callX _ ‹_›)
    · cases h; exact Gen.one rfl rfl rfl (goOn_st _ _ _) (.switchX _ ‹_›)
    · cases h
  | ready =>
    simp only at h
    split at h
    · cases h; exact Gen.one rfl rfl rfl (goOn_st _ _ _) (.switch ‹_›)
    · cases h

theorem gen_plain {x x' : XS σ V E} {r : Res (State σ (Except E V))} (h : plain x r = .ok x') (hr : ∀ c, r = .ok c → Kept x.c c) : Gen body x x' := by
  cases r with
  | ok c => cases h; exact Gen.quiet (hr c rfl)
  | _ => cases h

theorem gen_wake {x x1 x' : XS σ V E} {p : Nat} (h : wake body x1 p = .ok x') (hk : Kept x.c x1.c) : Gen body x x' := by
  unfold wake at h
  split at h
  · rename_i pre c k xx ha hb
    cases h
    refine Gen.one hk.nf hk.init hk.link (fun g => ?_) (.fork (decide ((x1.c.fr p).steal = pre)) (by rw [← hk.st]; exact hb))
    rw [goOn_st]; split
    · rfl
    · exact hk.st g
  · cases h

theorem gen_step {x x' : XS σ V E} {w : Nat} {ch : Choice E} (h : step body w ch x = .ok x') (hf : ∀ f, x.c.pc w = .run f → f < x.c.nf) :
    Gen body x x' := by
  unfold step at h
  split at h
  · split at h
    · refine gen_plain h fun c hc => ?_
      unfold Runtime.take at hc
      split at hc
      · split at hc <;> cases hc
        exact ⟨rfl, rfl, rfl, fun _ => rfl⟩
      · cases hc
    · refine gen_plain h fun c hc => ?_
      unfold Runtime.steal at hc
      split at hc
      · split at hc
        · cases hc; exact ⟨rfl, rfl, rfl, fun _ => rfl⟩
        · split at hc <;> cases hc
      · cases hc
    · cases h
  · exact gen_run h (hf _ ‹_›)
  · refine gen_plain h fun c hc => ?_
    unfold Runtime.joinLoad at hc
    simp only at hc
    split at hc <;> cases hc <;> exact ⟨rfl, rfl, rfl, fun _ => rfl⟩
  · refine gen_plain h fun c hc => ?_
    unfold Runtime.joinSub at hc
    simp only at hc
    split at hc <;> cases hc <;> exact ⟨rfl, rfl, rfl, fun g => by simp only [upd_apply]; split <;> simp_all⟩
  · unfold joinTake at h
    split at h
    · exact gen_passJoin h ⟨rfl, rfl, rfl, fun g => by simp only [upd_apply]; split <;> simp_all [reset]⟩
    · cases h
  · rename_i p c1 _
    have pop : ∀ {c : State σ (Except E V)}, Runtime.finPop x.c w p c1 = .ok c →
        Kept x.c c := by
      intro c hc
      unfold Runtime.finPop at hc
      split at hc
      · split at hc <;> cases hc
        rename_i hl
        exact ⟨rfl, rfl, rfl, fun g => by simp only [Runtime.report, upd_apply]; split <;> simp_all⟩
      · split at hc <;> cases hc
        rename_i hl
        exact ⟨rfl, rfl, rfl, fun _ => rfl⟩
    split at h
    · exact gen_plain h fun c hc => pop hc
    · unfold Res.bind at h
      split at h
      · rename_i ha
        cases hr : Runtime.finPop x.c w p c1 with
        | ok c =>
          rw [hr] at ha; cases ha
          exact gen_wake h (pop hr)
        | no => rw [hr] at ha; cases ha
        | ub => rw [hr] at ha; cases ha
      · cases h
      · cases h
  · refine gen_plain h fun c hc => ?_
    unfold Runtime.finDec at hc
    simp only at hc
    split at hc
    · split at hc <;> cases hc <;>
        exact ⟨rfl, rfl, rfl, fun g => by simp only [Runtime.report, upd_apply]; split <;> simp_all⟩
    · cases hc
  · unfold finWin at h
    simp only at h
    split at h
    · split at h
      · exact gen_passJoin h ⟨rfl, rfl, rfl, fun g => by simp only [upd_apply]; split <;> simp_all [reset]⟩
      · split at h
        · exact gen_passJoin h ⟨rfl, rfl, rfl, fun g => by simp only [upd_apply]; split <;> simp_all [reset]⟩
        · cases h
    · cases h
  · refine gen_plain h fun c hc => ?_
    unfold Runtime.finLose at hc
    simp only at hc
    split at hc <;> (split at hc <;> first | (cases hc; exact ⟨rfl, rfl, rfl, fun _ => rfl⟩) | cases hc)
  · refine gen_plain h fun c hc => ?_
    unfold Runtime.selfSteal at hc
    split at hc
    · cases hc; exact ⟨rfl, rfl, rfl, fun _ => rfl⟩
    · split at hc <;> cases hc; exact ⟨rfl, rfl, rfl, fun _ => rfl⟩
  · rename_i p _
    unfold Res.bind at h
    split at h
    · rename_i ha
      have st : ∀ {c : State σ (Except E V)}, Runtime.stole x.c w p = .ok c →
          Kept x.c c := by
        intro c hc
        unfold Runtime.stole at hc
        split at hc <;> cases hc
        rename_i hl
        exact ⟨rfl, rfl, rfl, fun g => by simp only [upd_apply]; split <;> simp_all⟩
      cases hr : Runtime.stole x.c w p with
      | ok c =>
        rw [hr] at ha; cases ha
        exact gen_wake h (st hr)
      | no => rw [hr] at ha; cases ha
      | ub => rw [hr] at ha; cases ha
    · cases h
    · cases h
  · refine gen_plain h fun c hc => ?_
    unfold Runtime.switchRel at hc
    simp only at hc
    split at hc <;> (split at hc <;> first | (cases hc; exact ⟨rfl, rfl, rfl, fun _ => rfl⟩) | cases hc)

/-- Where the tasks are from. -/
structure From (body : σ → Act σ V E) (x : XS σ V E) : Prop where
  st : ∀ f, f < x.c.nf → Later body (x.c.init f) (x.c.fr f).st
  par : ∀ f, f < x.c.nf → ∀ p, linkPar (x.c.link f) = some p → p < x.c.nf ∧ Makes body (x.c.init p) (x.c.init f)
  root : ∀ f, f < x.c.nf → linkPar (x.c.link f) = none → ∃ w, Ev.submit f (x.c.init f) w ∈ x.c.log

theorem from_gen {x x' : XS σ V E} (g : Gen body x x') (hl : ∀ e, e ∈ x.c.log → e ∈ x'.c.log) (h : From body x) : From body x' := by
  refine ⟨fun f hf => ?_, fun f hf p hp => ?_, fun f hf hp => ?_⟩
  · by_cases e : f < x.c.nf
    · obtain ⟨h1, _, h3⟩ := g.old f e
      rw [h1]
      rcases h3 with h3 | h3
      · rw [h3]; exact h.st f e
      · exact .next (h.st f e) h3
    · rw [(g.new f (by omega) hf).1]; exact .refl _
  · by_cases e : f < x.c.nf
    · obtain ⟨h1, h2, _⟩ := g.old f e
      rw [h2] at hp
      obtain ⟨h4, h5⟩ := h.par f e p hp
      rw [h1, (g.old p h4).1]
      exact ⟨Nat.lt_of_lt_of_le h4 g.nf, h5⟩
    · obtain ⟨_, q, h2, h3, h4⟩ := g.new f (by omega) hf
      rw [hp] at h3; cases h3
      refine ⟨Nat.lt_of_lt_of_le h2 g.nf, ?_⟩
      rw [(g.old p h2).1]
      exact ⟨_, h.st p h2, h4⟩
  · by_cases e : f < x.c.nf
    · obtain ⟨h1, h2, _⟩ := g.old f e
      rw [h2] at hp
      obtain ⟨w, h3⟩ := h.root f e hp
      rw [h1]; exact ⟨w, hl _ h3⟩
    · obtain ⟨_, q, _, h3, _⟩ := g.new f (by omega) hf
      rw [hp] at h3; cases h3

theorem from_submit {x : XS σ V E} {c : σ} {w : Nat} (h : From body x) : From body (submit x c w) := by
  have e1 : ∀ f, f < x.c.nf → (submit x c w).c.init f = x.c.init f := fun f hf => by
    simp [submit, Runtime.submit, newFrame, upd_ne _ _ (Nat.ne_of_lt hf)]
  have e2 : ∀ f, f < x.c.nf → (submit x c w).c.link f = x.c.link f := fun f hf => by
    simp [submit, Runtime.submit, newFrame, upd_ne _ _ (Nat.ne_of_lt hf)]
  have e3 : ∀ f, f < x.c.nf → ((submit x c w).c.fr f) = x.c.fr f := fun f hf => by
    simp [submit, Runtime.submit, newFrame, upd_ne _ _ (Nat.ne_of_lt hf)]
  have e4 : (submit x c w).c.nf = x.c.nf + 1 := rfl
  have e5 : (submit x c w).c.init x.c.nf = c := upd_same _ _ _
  have e6 : (submit x c w).c.link x.c.nf = .root := upd_same _ _ _
  refine ⟨fun f hf => ?_, fun f hf p hp => ?_, fun f hf hp => ?_⟩
  · by_cases e : f < x.c.nf
    · rw [e1 f e, e3 f e]; exact h.st f e
    · have : f = x.c.nf := by omega
      subst this
      rw [e5]
      have : ((submit x c w).c.fr x.c.nf).st = c := by simp [submit, Runtime.submit, newFrame, upd_same]
      rw [this]; exact .refl _
  · by_cases e : f < x.c.nf
    · rw [e2 f e] at hp
      obtain ⟨h4, h5⟩ := h.par f e p hp
      rw [e1 f e, e1 p h4]; exact ⟨by omega, h5⟩
    · have : f = x.c.nf := by omega
      subst this
      rw [e6] at hp; cases hp
  · by_cases e : f < x.c.nf
    · rw [e2 f e] at hp
      obtain ⟨w', h3⟩ := h.root f e hp
      rw [e1 f e]; exact ⟨w', List.mem_cons_of_mem _ h3⟩
    · have : f = x.c.nf := by omega
      subst this
      rw [e5]; exact ⟨w, List.mem_cons_self ..⟩

variable {pend : σ → Nat} {dirty : σ → Prop} {may : E → Prop}

theorem reach_from (hd : Disc body pend dirty) {x : XS σ V E} (h : Reach body pend may x) : From body x := by
  induction h with
  | start y => exact ⟨fun f hf => absurd hf (Nat.not_lt_zero f), fun f hf => absurd hf (Nat.not_lt_zero f), fun f hf => absurd hf (Nat.not_lt_zero f)⟩
  | submit w _ _ _ ih => exact from_submit ih
  | @step s s' w ch h0 hf hc hs ih =>
    refine from_gen (gen_step hs fun f hp => ?_) (fun e he => ?_) ih
    · obtain ⟨es, r, hr, hrel⟩ := reach_rel hd h0 fun _ => .nil
      have hi := Verif.Runtime.reach_inv (disc_tgt hd) hr
      have h1 : r.loc f = .running w := (hi.loc.run w f).2 (.inl (by rw [hrel.base.pc]; exact hp))
      exact alive_lt hi hrel (by rw [← hrel.base.loc, h1]; trivial)
    · obtain ⟨d, e1, _⟩ := Mem.grown_step hs
      rw [e1]; exact List.mem_append_right _ he

end Verif.Space
