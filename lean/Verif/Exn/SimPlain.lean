import Verif.Exn.Rel

/-! Every step of the runtime with exceptions is one of the runtime without, or none: steps that neither end a task nor pass a join. -/
namespace Verif.Exn
open Verif.Runtime (State Res Fr Pc Loc Link Ev Why upd maxU16 U16 newFrame reset destroy release joinLoad joinSub finPop finDec finLose
  selfSteal stole switchRel steal take doFork doCall report upd_apply upd_same upd_ne results Alive Few Inv)

variable {σ V E : Type} {body : σ → Act σ V E} {pend : σ → Nat} {dirty : σ → Prop} {may : E → Prop}

/-- The outcome of a step corresponds to the one of the step `q` of `r`, or, without `q`, to `r`. -/
def Out (q : Option Verif.Runtime.Choice) (body : σ → Act σ V E) (may : E → Prop) (dirty : σ → Prop) (F : Nat → Orc E)
    (r : State (T σ E) (Except E V)) (w : Nat) : Res (XS σ V E) → Prop
  | .ok s' => ∃ es' r', (match q with | none => r' = r | some ch => Verif.Runtime.step (tgt body may) w ch r = .ok r') ∧
      Rel body may dirty F es' s' r'
  | .ub => False
  | .no => True

theorem Out.ok {F : Nat → Orc E} {r r' : State (T σ E) (Except E V)} {w : Nat} {s' : XS σ V E} {ch : Verif.Runtime.Choice}
    {es' : Nat → List E} (h1 : Verif.Runtime.step (tgt body may) w ch r = .ok r') (h2 : Rel body may dirty F es' s' r') :
    Out (some ch) body may dirty F r w (.ok s') := ⟨es', r', h1, h2⟩

theorem Out.stay {F : Nat → Orc E} {r : State (T σ E) (Except E V)} {w : Nat} {s' : XS σ V E} {es' : Nat → List E}
    (h2 : Rel body may dirty F es' s' r) : Out none body may dirty F r w (.ok s') := ⟨es', r, rfl, h2⟩

theorem plain_sim {F : Nat → Orc E} {es : Nat → List E} {s : XS σ V E} {r : State (T σ E) (Except E V)} {w : Nat}
    {ch : Verif.Runtime.Choice} {x : Res (State σ (Except E V))} {x' : Res (State (T σ E) (Except E V))}
    (hx : Verif.Runtime.step (tgt body may) w ch r = x') (hu : x' ≠ .ub)
    (hr : ResRel (Base (Orig body may) (fun f => Sh body may dirty (s.aw f) (es f) (F f)) (fun f => Sl (s.exc f) (es f))) x x')
    (ha : ∀ c', x = .ok c' → ∀ f, AwOk (c'.loc f) (s.aw f) (c'.fr f).steal) : Out (some ch) body may dirty F r w (plain s x) := by
  cases x with
  | ok c' =>
    cases x' with
    | ok r' => exact .ok (s' := ⟨c', s.exc, s.aw⟩) hx ⟨hr, ha c' rfl⟩
    | ub => exact hr.elim
    | no => exact hr.elim
  | ub =>
    cases x' with
    | ok r' => exact hr
    | ub => exact hu rfl
    | no => exact hr
  | no => trivial

/-- One task moved, no steal counter changed. -/
theorem awOk_move {loc : Nat → Loc} {aw : Nat → Option Aw} {t t' : Nat → Nat} (h : ∀ f, AwOk (loc f) (aw f) (t f)) (ht : ∀ f, t' f = t f)
    {p : Nat} {l : Loc} (hp : AwOk l (aw p) (t p)) : ∀ f, AwOk (upd loc p l f) (aw f) (t' f) := by
  intro f
  rw [ht, upd_apply]
  split
  · rename_i e; subst e; exact hp
  · exact h f

theorem steal_upd {α β : Type} (fr : Nat → Fr α β) (p : Nat) (g : Fr α β) (h : g.steal = (fr p).steal) (f : Nat) :
    (upd fr p g f).steal = (fr f).steal := by
  rw [upd_apply]
  split
  · rename_i e; subst e; exact h
  · rfl

section
variable {F : Nat → Orc E} {es : Nat → List E} {s : XS σ V E} {r : State (T σ E) (Except E V)} {w : Nat}

theorem sim_joinLoad {f : Nat} (hi : Inv (tgt body may) (fun y => pend y.1) r) (hu : ∀ ch, Verif.Runtime.step (tgt body may) w ch r ≠ .ub)
    (h : Rel body may dirty F es s r) (hp : s.c.pc w = .joinLoad f) : Out (some .take) body may dirty F r w (plain s (joinLoad s.c w f)) := by
  have hpr : r.pc w = .joinLoad f := by rw [h.base.pc]; exact hp
  have hst : Verif.Runtime.step (tgt body may) w .take r = joinLoad r w f := by simp only [Verif.Runtime.step, hpr]
  refine plain_sim hst (hst ▸ hu _) (base_joinLoad h.base w f) fun c' hc' => ?_
  have hl : s.c.loc f = .running w := by rw [← h.base.loc]; exact (hi.loc.run w f).2 (Or.inr (Or.inl hpr))
  have ha := h.aw f
  rw [hl] at ha
  unfold joinLoad at hc'
  dsimp only at hc'
  split at hc' <;> cases hc'
  · exact awOk_move h.aw (fun _ => rfl) (by exact ha)
  · exact h.aw

theorem sim_joinSub {f : Nat} (hi : Inv (tgt body may) (fun y => pend y.1) r) (hu : ∀ ch, Verif.Runtime.step (tgt body may) w ch r ≠ .ub)
    (h : Rel body may dirty F es s r) (hp : s.c.pc w = .joinSub f) : Out (some .take) body may dirty F r w (plain s (joinSub s.c w f)) := by
  have hpr : r.pc w = .joinSub f := by rw [h.base.pc]; exact hp
  have hst : Verif.Runtime.step (tgt body may) w .take r = joinSub r w f := by simp only [Verif.Runtime.step, hpr]
  refine plain_sim hst (hst ▸ hu _) (base_joinSub h.base w f) fun c' hc' => ?_
  have hl : s.c.loc f = .running w := by rw [← h.base.loc]; exact (hi.loc.run w f).2 (Or.inr (Or.inr hpr))
  have ha := h.aw f
  rw [hl] at ha
  unfold joinSub at hc'
  dsimp only at hc'
  split at hc' <;> cases hc'
  · exact awOk_move (l := _) h.aw (fun g => steal_upd s.c.fr f _ (by rfl) g) (by exact ha)
  · exact awOk_move (l := _) h.aw (fun g => steal_upd s.c.fr f _ (by rfl) g) (by exact ha)

theorem sim_finPopNil {p k : Nat} (hu : ∀ ch, Verif.Runtime.step (tgt body may) w ch r ≠ .ub)
    (h : Rel body may dirty F es s r) (hp : s.c.pc w = .finPop p k) (hq : s.c.q w = []) :
    Out (some .take) body may dirty F r w (plain s (finPop s.c w p k)) := by
  have hpr : r.pc w = .finPop p k := by rw [h.base.pc]; exact hp
  have hst : Verif.Runtime.step (tgt body may) w .take r = finPop r w p k := by simp only [Verif.Runtime.step, hpr]
  refine plain_sim hst (hst ▸ hu _) (base_finPop h.base w p k) fun c' hc' => ?_
  unfold finPop at hc'
  rw [hq] at hc'
  dsimp only at hc'
  split at hc' <;> cases hc'
  exact h.aw

theorem sim_finDec {p k : Nat} {b : Bool} (hi : Inv (tgt body may) (fun y => pend y.1) r) (hf : Few r)
    (hu : ∀ ch, Verif.Runtime.step (tgt body may) w ch r ≠ .ub)
    (h : Rel body may dirty F es s r) (hp : s.c.pc w = .finDec p k b) : Out (some .take) body may dirty F r w (plain s (finDec s.c w p k b)) := by
  have hpr : r.pc w = .finDec p k b := by rw [h.base.pc]; exact hp
  have hst : Verif.Runtime.step (tgt body may) w .take r = finDec r w p k b := by simp only [Verif.Runtime.step, hpr]
  refine plain_sim hst (hst ▸ hu _) (base_finDec h.base w p k b) fun c' hc' => ?_
  have hl : s.c.loc k = .finishing w := by rw [← h.base.loc]; exact (hi.loc.fin w k).2 ⟨p, Or.inr ⟨b, hpr⟩⟩
  have ha := h.aw k
  rw [hl] at ha
  have h1 : ∀ f, AwOk (upd s.c.loc k .gone f) (s.aw f) (s.c.fr f).steal := awOk_move h.aw (fun _ => rfl) (by exact ha)
  have ht : ∀ f, ((upd (report s.c p k).fr p { (report s.c p k).fr p with join := (((report s.c p k).fr p).join + U16 - 1) % U16, joined := ((report s.c p k).fr p).joined + 1 }) f).steal = (s.c.fr f).steal := by
    intro f
    refine (steal_upd (report s.c p k).fr p _ (by rfl) f).trans ?_
    exact steal_upd s.c.fr p _ (by rfl) f
  unfold finDec at hc'
  dsimp only at hc'
  split at hc'
  · split at hc' <;> cases hc'
    · rename_i hj
      have hl' : s.c.loc p = .parked := by
        rw [← h.base.loc]; exact Verif.Runtime.hw_of hi.loc hi.link hi.count hf w p k b hpr (by rw [h.base.join]; exact hj)
      have hap := h.aw p
      rw [hl'] at hap
      exact awOk_move h1 ht (by exact hap)
    · intro f
      show AwOk _ _ ((upd (report s.c p k).fr p _ f).steal)
      rw [ht]; exact h1 f
  · cases hc'

theorem sim_finLose {b : Bool} (hu : ∀ ch, Verif.Runtime.step (tgt body may) w ch r ≠ .ub)
    (h : Rel body may dirty F es s r) (hp : s.c.pc w = .finLose b) : Out (some .take) body may dirty F r w (plain s (finLose s.c w b)) := by
  have hpr : r.pc w = .finLose b := by rw [h.base.pc]; exact hp
  have hst : Verif.Runtime.step (tgt body may) w .take r = finLose r w b := by simp only [Verif.Runtime.step, hpr]
  refine plain_sim hst (hst ▸ hu _) (base_finLose h.base w b) fun c' hc' => ?_
  unfold finLose at hc'
  cases b <;> simp only [Bool.false_eq_true, if_false, if_true] at hc' <;> split at hc' <;> cases hc' <;> exact h.aw

theorem sim_switchRel {b : Bool} (hu : ∀ ch, Verif.Runtime.step (tgt body may) w ch r ≠ .ub)
    (h : Rel body may dirty F es s r) (hp : s.c.pc w = .switchRel b) : Out (some .take) body may dirty F r w (plain s (switchRel s.c w b)) := by
  have hpr : r.pc w = .switchRel b := by rw [h.base.pc]; exact hp
  have hst : Verif.Runtime.step (tgt body may) w .take r = switchRel r w b := by simp only [Verif.Runtime.step, hpr]
  refine plain_sim hst (hst ▸ hu _) (base_switchRel h.base w b) fun c' hc' => ?_
  unfold switchRel at hc'
  cases b <;> simp only [Bool.false_eq_true, if_false, if_true] at hc' <;> split at hc' <;> cases hc' <;> exact h.aw

theorem sim_selfSteal (hi : Inv (tgt body may) (fun y => pend y.1) r) (hu : ∀ ch, Verif.Runtime.step (tgt body may) w ch r ≠ .ub)
    (h : Rel body may dirty F es s r) (hp : s.c.pc w = .selfSteal) : Out (some .take) body may dirty F r w (plain s (selfSteal s.c w)) := by
  have hpr : r.pc w = .selfSteal := by rw [h.base.pc]; exact hp
  have hst : Verif.Runtime.step (tgt body may) w .take r = selfSteal r w := by simp only [Verif.Runtime.step, hpr]
  refine plain_sim hst (hst ▸ hu _) (base_selfSteal h.base w) fun c' hc' => ?_
  unfold selfSteal at hc'
  cases hq : s.c.q w with
  | nil =>
    rw [hq] at hc'
    dsimp only at hc'
    split at hc' <;> cases hc'
    exact h.aw
  | cons x l =>
    rw [hq] at hc'
    cases hc'
    have hl : s.c.loc x.1 = .queued w x.2 := by
      rw [← h.base.loc]; exact (hi.loc.queue w x.1 x.2).2 (by rw [h.base.q, hq]; exact List.mem_cons_self ..)
    have ha := h.aw x.1
    rw [hl] at ha
    exact awOk_move h.aw (fun _ => rfl) (by exact ha)

theorem sim_steal {v : Nat} (hi : Inv (tgt body may) (fun y => pend y.1) r) (hu : ∀ ch, Verif.Runtime.step (tgt body may) w ch r ≠ .ub)
    (h : Rel body may dirty F es s r) (hp : s.c.pc w = .idle) : Out (some (.steal v)) body may dirty F r w (plain s (steal s.c w v)) := by
  have hpr : r.pc w = .idle := by rw [h.base.pc]; exact hp
  have hst : Verif.Runtime.step (tgt body may) w (.steal v) r = steal r w v := by simp only [Verif.Runtime.step, hpr]
  refine plain_sim hst (hst ▸ hu _) (base_steal h.base w v) fun c' hc' => ?_
  unfold steal at hc'
  cases hq : (s.c.q v).getLast? with
  | none => rw [hq] at hc'; cases hc'
  | some x =>
    rw [hq] at hc'
    dsimp only at hc'
    split at hc'
    · cases hc'
      have hl : s.c.loc x.1 = .queued v x.2 := by
        rw [← h.base.loc]; exact (hi.loc.queue v x.1 x.2).2 (by rw [h.base.q]; exact List.mem_of_getLast? hq)
      have ha := h.aw x.1
      rw [hl] at ha
      exact awOk_move h.aw (fun _ => rfl) (by exact ha)
    · split at hc' <;> cases hc'

theorem sim_take (hi : Inv (tgt body may) (fun y => pend y.1) r) (hu : ∀ ch, Verif.Runtime.step (tgt body may) w ch r ≠ .ub)
    (h : Rel body may dirty F es s r) (hp : s.c.pc w = .idle) : Out (some .take) body may dirty F r w (plain s (take s.c w)) := by
  have hpr : r.pc w = .idle := by rw [h.base.pc]; exact hp
  have hst : Verif.Runtime.step (tgt body may) w .take r = take r w := by simp only [Verif.Runtime.step, hpr]
  refine plain_sim hst (hst ▸ hu _) (base_take h.base w) fun c' hc' => ?_
  unfold take at hc'
  cases hq : s.c.inbox w with
  | nil => rw [hq] at hc'; cases hc'
  | cons x l =>
    rw [hq] at hc'
    dsimp only at hc'
    split at hc' <;> cases hc'
    have hl : s.c.loc x = .inbox w := by
      rw [← h.base.loc]; exact (hi.loc.inb w x).2 (by rw [h.base.inbox, hq]; exact List.mem_cons_self ..)
    have ha := h.aw x
    rw [hl] at ha
    exact awOk_move h.aw (fun _ => rfl) (by exact ha)

/-- A forked task goes on: the answer of the fork is the one foreseen. -/
theorem wake_sim {p : Nat} {b : Bool} {c0 : State σ (Except E V)} {r' : State (T σ E) (Except E V)} {ch : Verif.Runtime.Choice} {pre : Nat}
    (hd : Disc body pend dirty) (hx : Verif.Runtime.step (tgt body may) w ch r = .ok r')
    (hb : Base (Orig body may) (fun f => Sh body may dirty (s.aw f) (es f) ((upd F p (.fork .nil b (F p))) f)) (fun f => Sl (s.exc f) (es f)) c0 r')
    (hp : p < c0.nf) (ha : s.aw p = some (.fork pre)) (hbit : decide ((c0.fr p).steal = pre) = b)
    (haw : ∀ f, f ≠ p → AwOk (c0.loc f) (s.aw f) (c0.fr f).steal) (hl : c0.loc p = .running w) :
    Out (some ch) body may dirty F r w (wake body { s with c := c0 } p) := by
  have h1 := hb.st p hp
  simp only [upd_same, ha] at h1
  obtain ⟨hdirty, c, k, x, hbd, hy⟩ := h1
  simp only [Orc.rest, Orc.bit] at hy
  unfold wake
  simp only [ha, hbd]
  rw [hbit]
  refine .ok (es' := es) hx ⟨?_, fun f => ?_⟩
  · refine ⟨hb.nf, hb.link, hb.stk, hb.al, hb.ns, hb.pc, hb.q, hb.wk, hb.inbox, hb.loc, fun f => ?_, fun f => ?_, fun f => ?_,
      fun f hf => ?_, fun f hf => ?_, hb.log⟩
    · simp only [goOn, upd_apply]; split
      · rename_i e; subst e; exact hb.steal f
      · exact hb.steal f
    · simp only [goOn, upd_apply]; split
      · rename_i e; subst e; exact hb.join f
      · exact hb.join f
    · simp only [goOn, upd_apply]; split
      · rename_i e; subst e; exact hb.stolen f
      · exact hb.stolen f
    · simp only [goOn, upd_apply]
      by_cases e : f = p
      · subst e
        simp only [if_true]
        exact ⟨fun hne => ((hd.fork _ _ _ _ hbd).2.1 b).2 (hdirty hne), hy⟩
      · simp only [e, if_false]
        have := hb.st f hf
        simpa only [upd_ne _ _ e] using this
    · simp only [goOn, upd_apply]
      by_cases e : f = p
      · subst e; simp only [if_true]; exact hb.sl f hf
      · simp only [e, if_false]; exact hb.sl f hf
  · show AwOk (c0.loc f) (upd s.aw p none f) (upd c0.fr p _ f).steal
    by_cases e : f = p
    · subst e; rw [hl, upd_same]; trivial
    · rw [upd_ne _ _ e, upd_ne _ _ e]; exact haw f e

theorem alive_lt (hi : Inv (tgt body may) (fun y => pend y.1) r) (h : Rel body may dirty F es s r) {f : Nat} (ha : Alive (s.c.loc f)) :
    f < s.c.nf := by
  by_cases hx : s.c.nf ≤ f
  · rw [← h.base.loc, (hi.loc.fresh f).2 (by rw [h.base.nf]; exact hx)] at ha; exact absurd ha id
  · omega

theorem ResRel.of_ok {α β : Type} {P : α → β → Prop} {x : Res α} {b : β} (h : ResRel P x (.ok b)) : ∃ a, x = .ok a ∧ P a b := by
  cases x with
  | ok a => exact ⟨a, rfl, h⟩
  | ub => exact h.elim
  | no => exact h.elim

theorem sim_finPop {p k : Nat} {e : Nat × Nat} {l : List (Nat × Nat)} (hd : Disc body pend dirty)
    (hi : Inv (tgt body may) (fun y => pend y.1) r) (hs : ∀ ch, r.pc w ≠ .idle → ∃ r', Verif.Runtime.step (tgt body may) w ch r = .ok r')
    (h : Rel body may dirty (upd F p (.fork .nil true (F p))) es s r) (hp : s.c.pc w = .finPop p k) (hq : s.c.q w = e :: l) :
    Out (some .take) body may dirty F r w (Res.bind (plain s (finPop s.c w p k)) (wake body · p)) := by
  have hpr : r.pc w = .finPop p k := by rw [h.base.pc]; exact hp
  obtain ⟨r', hst⟩ := hs .take (by rw [hpr]; simp)
  have hst' := hst
  simp only [Verif.Runtime.step, hpr] at hst'
  have hrel := base_finPop h.base w p k
  rw [hst'] at hrel
  obtain ⟨c0, hc0, hb⟩ := hrel.of_ok
  have hlk : s.c.loc k = .finishing w := by rw [← h.base.loc]; exact (hi.loc.fin w k).2 ⟨p, Or.inl hpr⟩
  have hle : s.c.loc e.1 = .queued w e.2 := by
    rw [← h.base.loc]; exact (hi.loc.queue w e.1 e.2).2 (by rw [h.base.q, hq]; exact List.mem_cons_self ..)
  have hae := h.aw e.1
  have hak := h.aw k
  rw [hle] at hae
  rw [hlk] at hak
  have hlt := alive_lt hi h (f := e.1) (by rw [hle]; trivial)
  rw [hc0]
  unfold finPop at hc0
  rw [hq] at hc0
  dsimp only at hc0
  split at hc0
  · rename_i hc
    obtain ⟨rfl, -⟩ := hc
    cases hc0
    refine wake_sim (s := s) (b := true) hd hst hb hlt hae ?_ ?_ (by simp [upd_same])
    · simp [report, upd_same]
    · intro f hf
      have h1 := awOk_move (p := k) (l := .gone) h.aw (t' := fun f => (upd s.c.fr e.1 { s.c.fr e.1 with kids := (s.c.fr e.1).kids.erase k } f).steal)
        (fun g => steal_upd s.c.fr e.1 _ (by rfl) g) hak f
      simpa only [report, upd_ne _ _ hf] using h1
  · cases hc0

theorem sim_stole {p : Nat} (hd : Disc body pend dirty)
    (hi : Inv (tgt body may) (fun y => pend y.1) r) (hs : ∀ ch, r.pc w ≠ .idle → ∃ r', Verif.Runtime.step (tgt body may) w ch r = .ok r')
    (h : Rel body may dirty (upd F p (.fork .nil false (F p))) es s r) (hp : s.c.pc w = .stole p) :
    Out (some .take) body may dirty F r w (Res.bind (plain s (stole s.c w p)) (wake body · p)) := by
  have hpr : r.pc w = .stole p := by rw [h.base.pc]; exact hp
  obtain ⟨r', hst⟩ := hs .take (by rw [hpr]; simp)
  have hst' := hst
  simp only [Verif.Runtime.step, hpr] at hst'
  have hrel := base_stole h.base w p
  rw [hst'] at hrel
  obtain ⟨c0, hc0, hb⟩ := hrel.of_ok
  have hle : s.c.loc p = .stolenBy w := by rw [← h.base.loc]; exact (hi.loc.sto w p).2 hpr
  have hae := h.aw p
  rw [hle] at hae
  have hlt := alive_lt hi h (f := p) (by rw [hle]; trivial)
  rw [hc0]
  unfold stole at hc0
  split at hc0
  · cases hc0
    refine wake_sim (s := s) (b := false) hd hst hb hlt hae ?_ ?_ (by simp [upd_same])
    · simp only [upd_same, decide_eq_false_iff_not, U16]; omega
    · intro f hf
      simp only [upd_ne _ _ hf]
      exact h.aw f
  · cases hc0

end

end Verif.Exn
