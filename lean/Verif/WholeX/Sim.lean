import Verif.WholeX.Model
import Verif.Whole.Props
import Verif.Exn.TermProps

/-!
The whole program with exceptions refines the one without (Verif.Whole), for every program and every schedule: step by step, if the future of the
tasks (which forks fail, …) is known. Proof device only; the theorems do not mention it.
-/
namespace Verif.WholeX
open Verif.Runtime (State Res Ev)
open Verif.LazyPool (Cfg St)
open Verif.EventCount (upd upd_same upd_ne upd_apply)
open Verif.Exn (XS Act Choice Allowed T Orc tgt norm Rel orcBefore seen Disc disc_tgt)
open Verif.Whole (Caller Actor Res.map W early map_ok map_ub)

variable {σ V E : Type}

/-- The same with another runtime. -/
def lower (s : X σ V E) (r : State (T σ E) (Except E V)) : W (T σ E) (Except E V) := ⟨s.l, r, s.task, s.nj, s.out, s.caller⟩

def Busy (c : Cfg) (body : σ → Act σ V E) (may : E → Prop) (K : Nat) (root : Nat → σ) (a : Actor) (s s' : X σ V E) : Prop :=
  (∃ i d j, i < K ∧ d < c.N ∧ s.caller i = .picking ∧ s'.caller = upd s.caller i (.calling j s.x.c.nf) ∧ s'.xt = Exn.submit s.xt (root i) d) ∨
  ∃ w ch, w < c.N ∧ Allowed may ch ∧ Exn.step body w ch s.xt = .ok s'.xt ∧ s'.caller = s.caller ∧ a = .worker w ∧
    ∀ f, s.x.c.pc w = .run f → s.l.pc w = .work ∧ s.out w = none

def Evo (c : Cfg) (body : σ → Act σ V E) (may : E → Prop) (K : Nat) (root : Nat → σ) (a : Actor) (s s' : X σ V E) : Prop :=
  Busy c body may K root a s s' ∨ (s'.xt = s.xt ∧ ∀ i, early (s'.caller i) = early (s.caller i))

theorem xt_eq {s : X σ V E} {x : XS σ V E} (h1 : s.x = x) (h2 : ∀ w, (s.l.hand w ++ s.l.inbox w).map s.task = x.c.inbox w) : s.xt = x := by
  unfold X.xt
  rw [h1]
  have : (fun w => (s.l.hand w ++ s.l.inbox w).map s.task) = x.c.inbox := funext h2
  rw [this]

variable {c : Cfg} {body : σ → Act σ V E} {pend : σ → Nat} {dirty : σ → Prop} {may : E → Prop} {K : Nat} {root : Nat → σ}

theorem close {s : X σ V E} {x : XS σ V E} {r : State (T σ E) (Except E V)} {F : Nat → Orc E} {es : Nat → List E}
    (hrt : (lower s r).rt = r) (hx : s.x = x) (h : Rel body may dirty F es x r) :
    s.xt = x ∧ Rel body may dirty F es s.xt (lower s r).rt := by
  have e : s.xt = x := by
    refine xt_eq hx fun w => ?_
    have h1 : (lower s r).rt.inbox w = r.inbox w := by rw [hrt]
    rw [← congrFun h.base.inbox w, ← h1]; rfl
  exact ⟨e, by rw [e, hrt]; exact h⟩

theorem keep {s s2 : X σ V E} {r : State (T σ E) (Except E V)} {F : Nat → Orc E} {es : Nat → List E}
    (h1 : s2.x = s.x) (h2 : ∀ w, s2.l.hand w ++ s2.l.inbox w = s.l.hand w ++ s.l.inbox w) (h3 : s2.task = s.task)
    (h : Rel body may dirty F es s.xt (lower s r).rt) : s2.xt = s.xt ∧ Rel body may dirty F es s2.xt (lower s2 r).rt := by
  have e : s2.xt = s.xt := by unfold X.xt; simp only [h1, h2, h3]
  have e' : (lower s2 r).rt = (lower s r).rt := Whole.rt_congr rfl h2 h3
  exact ⟨e, by rw [e, e']; exact h⟩

section
variable (hc : c.Ok) (hd : Disc body pend dirty) (hp : ∀ x, pend x ≤ 65534)
include hd hp

/-- A step of the runtime. -/
theorem rt_step {root' : Nat → T σ E} {s : X σ V E} {r : State (T σ E) (Except E V)} {F : Nat → Orc E} {es : Nat → List E}
    (hi : Whole.Inv c (tgt body may) (fun y => pend y.1) K root' (lower s r)) {w : Nat} {ch : Choice E} (hch : Allowed may ch)
    (hrel : Rel body may dirty (orcBefore body F s.xt w ch) es s.xt (lower s r).rt) :
    Exn.Out (seen s.xt w ch) body may dirty F (lower s r).rt w (Exn.step body w ch s.xt) := by
  obtain ⟨_, _, e⟩ := hi.any
  obtain ⟨hr, hf⟩ := Runtime.reach_of_bounded (disc_tgt (may := may) hd) (fun y => hp y.1) e.any
  exact Exn.sim_step hd hch hr hf hrel

omit hd hp in
/-- Not at a switch in the translated program if not in the program. -/
theorem not_switch {s : X σ V E} {r : State (T σ E) (Except E V)} {F : Nat → Orc E} {es : Nat → List E} {w : Nat} {ch : Runtime.Choice}
    (hfn : ∀ f, s.x.c.pc w = .run f → f < s.x.c.nf ∧ s.x.aw f = none)
    (hrel : Rel body may dirty (orcBefore body F s.xt w (.go ch)) es s.xt (lower s r).rt) (h : ∀ f d k, ¬ AtSwitch body s w f d k)
    (f d : Nat) (k : T σ E) : ¬ Whole.AtSwitch (tgt body may) (lower s r) w f d k := by
  intro ⟨h1, h2⟩
  have hpc : s.x.c.pc w = .run f := by rw [← h1]; exact (congrFun hrel.base.pc w).symm
  have hpc' : s.xt.c.pc w = .run f := hpc
  obtain ⟨a1, a2⟩ := hfn f hpc
  have h3 := (hrel.base.st f a1).2
  have a2' : s.xt.aw f = none := a2
  rw [a2'] at h3
  simp only [orcBefore, hpc'] at h3
  have h2 : tgt body may ((lower s r).rt.fr f).st = .switch d k := h2
  rw [h3] at h2
  have hst : (s.xt.c.fr f).st = (s.x.c.fr f).st := rfl
  rw [hst] at h2
  cases hb : body (s.x.c.fr f).st with
  | ret v => rw [Exn.norm_ret hb] at h2; simp only [tgt, hb] at h2; cases h2
  | throw e => rw [Exn.norm_throw hb] at h2; simp only [tgt, hb] at h2; cases h2
  | join k' x => rw [Exn.norm_join hb] at h2; simp only [tgt, hb] at h2; cases h2
  | switch d' k' x => exact h f d' k' ⟨hpc, x, hb⟩
  | fork c k' x =>
    simp only [hst, hb, Runtime.upd_same, norm, tgt] at h2; cases h2
  | call c k' x =>
    simp only [hst, hb, Runtime.upd_same, norm, tgt] at h2; cases h2

include hc

theorem sim {may' : E → Prop} (hm : ∀ e, may' e → may e) {a : Actor} {s s2 : X σ V E} (st : Step c body may' K root a s (.ok s2))
    (hex : ∀ F, ∃ root' es r, Whole.Inv c (tgt body may) (fun y => pend y.1) K root' (lower s r) ∧ Rel body may dirty F es s.xt (lower s r).rt)
    (F G : Nat → Orc E) : Evo c body may' K root a s s2 ∧
    ∃ F0 G0, (¬ Busy c body may' K root a s s2 → F0 = F ∧ G0 = G) ∧ ∀ root' es r,
      Whole.Inv c (tgt body may) (fun y => pend y.1) K root' (lower s r) →
      (∀ i, early (s.caller i) = true → root' i = norm body may (G0 i) (root i) []) → Rel body may dirty F0 es s.xt (lower s r).rt →
      (∀ i, early (s2.caller i) = true → root' i = norm body may (G i) (root i) []) ∧ ∃ es' r',
        ((lower s2 r' = lower s r ∧ Busy c body may' K root a s s2) ∨
          Whole.Step c (tgt body may) K root' a (lower s r) (.ok (lower s2 r'))) ∧ Rel body may dirty F es' s2.xt (lower s2 r').rt := by
  obtain ⟨root0, es0, r0, hi0, hrel0⟩ := hex F
  have hrun : ∀ w f, s.x.c.pc w = .run f → f < s.x.c.nf ∧ s.x.aw f = none := by
    intro w f hpc
    obtain ⟨_, _, e⟩ := hi0.any
    obtain ⟨hr, hf⟩ := Runtime.reach_of_bounded (disc_tgt (may := may) hd) (fun y => hp y.1) e.any
    have hi := Runtime.reach_inv (disc_tgt hd) hr
    have hloc : s.xt.c.loc f = .running w := by
      rw [← hrel0.base.loc]
      exact (hi.loc.run w f).2 (.inl (by rw [hrel0.base.pc]; exact hpc))
    refine ⟨?_, ?_⟩
    · apply Classical.byContradiction
      intro hn
      have := (hi.loc.fresh f).2 (by rw [hrel0.base.nf]; exact Nat.le_of_not_lt hn)
      rw [hrel0.base.loc, hloc] at this; cases this
    · have := hrel0.aw f
      rw [hloc] at this
      exact this
  have hu := LazyPool.reach_sub hc hi0.pool
  have hs0 := hi0.sync
  generalize hres : Res.ok s2 = res at st
  cases st with
  | pool _ w l h1 h2 st =>
    cases hres
    obtain ⟨e1, -⟩ := LazyPool.worker_lists (s := s.l) hu (LazyPool.worker_lt st) st h2
    have k := fun r F es => keep (body := body) (may := may) (dirty := dirty) (r := r) (F := F) (es := es) (s := s) (s2 := { s with l := l }) rfl e1 rfl
    refine ⟨.inr ⟨(k _ _ _ hrel0).1, fun _ => rfl⟩, F, G, fun _ => ⟨rfl, rfl⟩, fun root' es r hi he hrel => ?_⟩
    exact ⟨he, es, r, .inr (.pool (lower s r) w l h1 h2 st), (k _ _ _ hrel).2⟩
  | noSteal _ w h1 h2 =>
    cases hres
    have k := fun r F es => keep (body := body) (may := may) (dirty := dirty) (r := r) (F := F) (es := es) (s := s) (s2 := { s with l := s.l.go w .prep }) rfl
      (fun _ => rfl) rfl
    refine ⟨.inr ⟨(k _ _ _ hrel0).1, fun _ => rfl⟩, F, G, fun _ => ⟨rfl, rfl⟩, fun root' es r hi he hrel => ?_⟩
    exact ⟨he, es, r, .inr (.noSteal (lower s r) w h1 h2), (k _ _ _ hrel).2⟩
  | stole _ w v h1 h2 h3 =>
    obtain ⟨x', e, rfl⟩ := map_ok hres.symm
    have goal : ∀ root' es r, Whole.Inv c (tgt body may) (fun y => pend y.1) K root' (lower s r) →
        Rel body may dirty (orcBefore body F s.xt w (.go (.steal v))) es s.xt (lower s r).rt →
        Busy c body may' K root (.worker w) s { s with l := s.l.go w .tws1, x := x' } ∧ ∃ es' r',
          Whole.Step c (tgt body may) K root' (.worker w) (lower s r) (.ok (lower { s with l := s.l.go w .tws1, x := x' } r')) ∧
          Rel body may dirty F es' (X.xt { s with l := s.l.go w .tws1, x := x' }) (lower { s with l := s.l.go w .tws1, x := x' } r').rt := by
      intro root' es r hi hrel
      have hs := hi.sync
      have hidle : r.pc w = .idle := by
        rcases hs.stole w (show s.l.pc w ≠ _ by rw [h3]; simp) with e' | ⟨p, e'⟩
        · exact e'
        · have := hs.busy w (by rw [e']; simp)
          have this : LazyPool.busy (s.l.pc w) = true := this
          rw [h3] at this; cases this
      have hidle' : s.xt.c.pc w = .idle := by rw [← hrel.base.pc]; exact hidle
      have ho := rt_step hd hp hi (ch := .go (.steal v)) trivial hrel
      rw [e] at ho
      simp only [seen, hidle'] at ho
      obtain ⟨es', r', q1, q2⟩ := ho
      have hin := ((Runtime.inbox_step q1).2.1 v hidle rfl).1
      obtain ⟨k1, k2⟩ := close (s := { s with l := s.l.go w .tws1, x := x' }) (r := r')
        (Whole.rt_eq rfl fun u => by rw [hin]; rfl) rfl q2
      have hst := Whole.Step.stole (c := c) (body := tgt body may) (K := K) (root := root') (lower s r) w v h1 h2 h3 (by rw [q1]; simp)
      rw [q1] at hst
      exact ⟨.inr ⟨w, .go (.steal v), h1, trivial, by rw [k1]; exact e, rfl, rfl, fun f hf => by have hf : s.xt.c.pc w = .run f := hf; rw [hidle'] at hf; cases hf⟩, es', r', hst, k2⟩
    obtain ⟨root1, es1, r1, hi1, hrel1⟩ := hex (orcBefore body F s.xt w (.go (.steal v)))
    have hb := (goal _ _ _ hi1 hrel1).1
    refine ⟨.inl hb, orcBefore body F s.xt w (.go (.steal v)), G, fun h => absurd hb h, fun root' es r hi he hrel => ?_⟩
    obtain ⟨_, es', r', g1, g2⟩ := goal root' es r hi hrel
    exact ⟨he, es', r', .inr g1, g2⟩
  | work _ w ch h1 h2 h3 h4 h5 h6 =>
    obtain ⟨x', e, rfl⟩ := map_ok hres.symm
    have goal : ∀ root' es r, Whole.Inv c (tgt body may) (fun y => pend y.1) K root' (lower s r) →
        Rel body may dirty (orcBefore body F s.xt w ch) es s.xt (lower s r).rt →
        Busy c body may' K root (.worker w) s { s with x := x' } ∧ ∃ es' r',
          (lower { s with x := x' } r' = lower s r ∨
          Whole.Step c (tgt body may) K root' (.worker w) (lower s r) (.ok (lower { s with x := x' } r'))) ∧
          Rel body may dirty F es' (X.xt { s with x := x' }) (lower { s with x := x' } r').rt := by
      intro root' es r hi hrel
      have ho := rt_step hd hp hi (by cases ch <;> first | exact hm _ h5 | trivial) hrel
      rw [e] at ho
      have hpc : r.pc w = s.x.c.pc w := congrFun hrel.base.pc w
      obtain ⟨es', r', q1, q2⟩ := ho
      cases hq : seen s.xt w ch with
      | none =>
        rw [hq] at q1
        simp only at q1
        subst q1
        have e0 : (lower s (lower s r).rt).rt = (lower s r).rt := rfl
        obtain ⟨k1, k2⟩ := close (s := { s with x := x' }) (r := (lower s r).rt) e0 rfl q2
        exact ⟨.inr ⟨w, ch, h1, h5, by rw [k1]; exact e, rfl, rfl, fun _ _ => ⟨h2, h4⟩⟩, es', r, .inl rfl, k2⟩
      | some ch' =>
        rw [hq] at q1
        simp only at q1
        have hgo : ∀ f, s.x.c.pc w = .run f → ∃ ch0, ch = .go ch0 := by
          intro f hf
          have hf : s.xt.c.pc w = .run f := hf
          cases ch with
          | go ch0 => exact ⟨ch0, rfl⟩
          | fail e l => simp [seen, hf] at hq
          | ready => simp [seen, hf] at hq
        have hch : ch' = .take := by
          have h3' : s.xt.c.pc w ≠ .idle := h3
          unfold seen at hq
          cases hx : s.xt.c.pc w <;> rw [hx] at hq <;> first | exact absurd hx h3' | (cases ch <;> simp at hq <;> exact hq.symm)
        subst hch
        have hns : ∀ f d k, ¬ Whole.AtSwitch (tgt body may) (lower s r) w f d k := by
          intro f d k hat
          have hf : s.x.c.pc w = .run f := by rw [← hpc]; exact hat.1
          obtain ⟨ch0, rfl⟩ := hgo f hf
          exact not_switch (hrun w) hrel (fun f d k => h6 f d k ch0 rfl) f d k hat
        have hin := (Runtime.inbox_step q1).2.2.1 (by show r.pc w ≠ _; rw [hpc]; exact h3) fun f d k hf hb => hns f d k ⟨hf, hb⟩
        obtain ⟨k1, k2⟩ := close (s := { s with x := x' }) (r := r') (Whole.rt_eq rfl fun u => by rw [hin]; rfl) rfl q2
        have hst := Whole.Step.work (c := c) (body := tgt body may) (K := K) (root := root') (lower s r) w h1 h2
          (by show r.pc w ≠ _; rw [hpc]; exact h3) h4 hns
        rw [q1] at hst
        exact ⟨.inr ⟨w, ch, h1, h5, by rw [k1]; exact e, rfl, rfl, fun _ _ => ⟨h2, h4⟩⟩, es', r', .inr hst, k2⟩
    obtain ⟨root1, es1, r1, hi1, hrel1⟩ := hex (orcBefore body F s.xt w ch)
    have hb := (goal _ _ _ hi1 hrel1).1
    refine ⟨.inl hb, orcBefore body F s.xt w ch, G, fun h => absurd hb h, fun root' es r hi he hrel => ?_⟩
    obtain ⟨_, es', r', g1, g2⟩ := goal root' es r hi hrel
    exact ⟨he, es', r', g1.imp (fun h => ⟨h, hb⟩) id, g2⟩
  | switch _ w f d k h1 h2 h3 h4 =>
    split at hres
    rotate_left
    · cases hres
    rename_i hdN
    obtain ⟨x', e, rfl⟩ := map_ok hres.symm
    have goal : ∀ root' es r, Whole.Inv c (tgt body may) (fun y => pend y.1) K root' (lower s r) →
        Rel body may dirty (orcBefore body F s.xt w (.go .take)) es s.xt (lower s r).rt →
        Busy c body may' K root (.worker w) s { push { s with x := x' } d f with out := upd s.out w (some s.nj) } ∧ ∃ es' r',
          Whole.Step c (tgt body may) K root' (.worker w) (lower s r)
            (.ok (lower { push { s with x := x' } d f with out := upd s.out w (some s.nj) } r')) ∧
          Rel body may dirty F es' (X.xt { push { s with x := x' } d f with out := upd s.out w (some s.nj) })
            (lower { push { s with x := x' } d f with out := upd s.out w (some s.nj) } r').rt := by
      intro root' es r hi hrel
      obtain ⟨hpc, h, hb⟩ := h4
      have hpc' : s.xt.c.pc w = .run f := hpc
      have hpr : (lower s r).rt.pc w = .run f := by rw [hrel.base.pc]; exact hpc
      obtain ⟨a1, a2⟩ := hrun w f hpc
      have ho := rt_step hd hp hi (ch := .go .take) trivial hrel
      rw [e] at ho
      simp only [seen, hpc'] at ho
      obtain ⟨es', r', q1, q2⟩ := ho
      have hat : ∃ k', tgt body may ((lower s r).rt.fr f).st = .switch d k' := by
        have h3 := (hrel.base.st f a1).2
        have a2' : s.xt.aw f = none := a2
        rw [a2'] at h3
        have hb' : body (s.xt.c.fr f).st = .switch d k h := hb
        simp only [orcBefore, hpc', hb', Runtime.upd_same, norm] at h3
        rw [h3]
        simp only [tgt, hb']
        exact ⟨_, rfl⟩
      obtain ⟨k', hat⟩ := hat
      have hin := ((Runtime.inbox_step q1).2.2.2 f d k' hpr hat).1
      obtain ⟨k1, k2⟩ := close (s := { push { s with x := x' } d f with out := upd s.out w (some s.nj) }) (r := r')
        (Whole.rt_eq rfl fun u => by rw [hin]; exact Whole.push_lists hi.sync hu d f u) rfl q2
      have hst := Whole.Step.switch (c := c) (body := tgt body may) (K := K) (root := root') (lower s r) w f d k' h1 h2 h3 ⟨hpr, hat⟩
      rw [if_pos hdN, q1] at hst
      exact ⟨.inr ⟨w, .go .take, h1, trivial, by rw [k1]; exact e, rfl, rfl, fun _ _ => ⟨h2, h3⟩⟩, es', r', hst, k2⟩
    obtain ⟨root1, es1, r1, hi1, hrel1⟩ := hex (orcBefore body F s.xt w (.go .take))
    have hb := (goal _ _ _ hi1 hrel1).1
    refine ⟨.inl hb, orcBefore body F s.xt w (.go .take), G, fun h => absurd hb h, fun root' es r hi he hrel => ?_⟩
    obtain ⟨_, es', r', g1, g2⟩ := goal root' es r hi hrel
    exact ⟨he, es', r', .inr g1, g2⟩
  | notify _ w j l h1 h2 st =>
    cases hres
    obtain ⟨_, e1, e2, _⟩ := LazyPool.call_self (s := s.l) st (hs0.out w j h2).2.2.ne.1
    have k := fun r F es => keep (body := body) (may := may) (dirty := dirty) (r := r) (F := F) (es := es) (s := s)
      (s2 := { s with l := l, out := if l.call j = .returned then upd s.out w none else s.out }) rfl (fun u => by simp only; rw [e1, e2]) rfl
    refine ⟨.inr ⟨(k _ _ _ hrel0).1, fun _ => rfl⟩, F, G, fun _ => ⟨rfl, rfl⟩, fun root' es r hi he hrel => ?_⟩
    exact ⟨he, es, r, .inr (.notify (lower s r) w j l h1 h2 st), (k _ _ _ hrel).2⟩
  | take _ w j js h1 h2 h3 h4 =>
    obtain ⟨x', e, rfl⟩ := map_ok hres.symm
    have goal : ∀ root' es r, Whole.Inv c (tgt body may) (fun y => pend y.1) K root' (lower s r) →
        Rel body may dirty (orcBefore body F s.xt w (.go .take)) es s.xt (lower s r).rt →
        Busy c body may' K root (.worker w) s { s with l := started s w j js, x := x' } ∧ ∃ es' r',
          Whole.Step c (tgt body may) K root' (.worker w) (lower s r) (.ok (lower { s with l := started s w j js, x := x' } r')) ∧
          Rel body may dirty F es' (X.xt { s with l := started s w j js, x := x' }) (lower { s with l := started s w j js, x := x' } r').rt := by
      intro root' es r hi hrel
      have hidle' : s.xt.c.pc w = .idle := h3
      have hidle : (lower s r).rt.pc w = .idle := by rw [hrel.base.pc]; exact h3
      have ho := rt_step hd hp hi (ch := .go .take) trivial hrel
      rw [e] at ho
      simp only [seen, hidle'] at ho
      obtain ⟨es', r', q1, q2⟩ := ho
      obtain ⟨f, t, p1, p2⟩ := (Runtime.inbox_step q1).1 hidle rfl
      obtain ⟨k1, k2⟩ := close (s := { s with l := started s w j js, x := x' }) (r := r')
        (Whole.rt_eq rfl fun u => by
          have p1' : (s.l.hand w ++ s.l.inbox w).map s.task = f :: t := p1
          rw [h4] at p1'
          rw [p2]
          simp only [lower, started, upd_apply, Runtime.upd]
          by_cases e : u = w
          · subst e
            simp only [if_true]
            simp only [List.cons_append, List.map_cons] at p1'
            exact (List.cons.inj p1').2
          · simp only [if_neg e]; rfl) rfl q2
      have hst := Whole.Step.take (c := c) (body := tgt body may) (K := K) (root := root') (lower s r) w j js h1 h2 hidle h4
      rw [q1] at hst
      exact ⟨.inr ⟨w, .go .take, h1, trivial, by rw [k1]; exact e, rfl, rfl, fun f hf => by rw [h3] at hf; cases hf⟩, es', r', hst, k2⟩
    obtain ⟨root1, es1, r1, hi1, hrel1⟩ := hex (orcBefore body F s.xt w (.go .take))
    have hb := (goal _ _ _ hi1 hrel1).1
    refine ⟨.inl hb, orcBefore body F s.xt w (.go .take), G, fun h => absurd hb h, fun root' es r hi he hrel => ?_⟩
    obtain ⟨_, es', r', g1, g2⟩ := goal root' es r hi hrel
    exact ⟨he, es', r', .inr g1, g2⟩
  | worked _ w h1 h2 h3 h4 =>
    cases hres
    have k := fun r F es => keep (body := body) (may := may) (dirty := dirty) (r := r) (F := F) (es := es) (s := s) (s2 := { s with l := s.l.go w .deact }) rfl
      (fun _ => rfl) rfl
    refine ⟨.inr ⟨(k _ _ _ hrel0).1, fun _ => rfl⟩, F, G, fun _ => ⟨rfl, rfl⟩, fun root' es r hi he hrel => ?_⟩
    exact ⟨he, es, r, .inr (.worked (lower s r) w h1 h2 (by rw [← h3]; exact congrFun hrel.base.pc w) h4), (k _ _ _ hrel).2⟩
  | begin _ i h1 h2 h3 =>
    cases hres
    have he : ∀ k, early (upd s.caller i .picking k) = early (s.caller k) := by
      intro k; rw [upd_apply]; split
      · subst_vars; rw [h2]; rfl
      · rfl
    refine ⟨.inr ⟨rfl, he⟩, F, G, fun _ => ⟨rfl, rfl⟩, fun root' es r hi he' hrel => ?_⟩
    exact ⟨fun k hk => he' k (by rw [← he]; exact hk), es, r, .inr (.begin (lower s r) i h1 h2 h3), hrel⟩
  | race => cases hres
  | submit _ i d h1 h2 h3 =>
    cases hres
    have goal : ∀ root' es r, Whole.Inv c (tgt body may) (fun y => pend y.1) K root' (lower s r) →
        Rel body may dirty F es s.xt (lower s r).rt →
        Busy c body may' K root (.caller i) s { push { s with x := Exn.submit s.xt (root i) d } d s.x.c.nf with caller := upd s.caller i (.calling s.nj s.x.c.nf) } ∧
        (root' i = norm body may (F s.x.c.nf) (root i) [] → ∃ es' r',
          Whole.Step c (tgt body may) K root' (.caller i) (lower s r)
            (.ok (lower { push { s with x := Exn.submit s.xt (root i) d } d s.x.c.nf with caller := upd s.caller i (.calling s.nj s.x.c.nf) } r')) ∧
          Rel body may dirty F es' (X.xt { push { s with x := Exn.submit s.xt (root i) d } d s.x.c.nf with caller := upd s.caller i (.calling s.nj s.x.c.nf) })
            (lower { push { s with x := Exn.submit s.xt (root i) d } d s.x.c.nf with caller := upd s.caller i (.calling s.nj s.x.c.nf) } r').rt) := by
      intro root' es r hi hrel
      have hsub := Exn.sim_submit d (root i) hrel
      obtain ⟨k1, k2⟩ := close (s := { push { s with x := Exn.submit s.xt (root i) d } d s.x.c.nf with caller := upd s.caller i (.calling s.nj s.x.c.nf) })
        (r := Runtime.submit (lower s r).rt (norm body may (F s.x.c.nf) (root i) []) d)
        (Whole.rt_eq rfl fun u => by
          have h := Whole.push_lists hi.sync hu d s.x.c.nf u
          have e : (Runtime.submit (lower s r).rt (norm body may (F s.x.c.nf) (root i) []) d).inbox u =
            Runtime.upd (lower s r).rt.inbox d ((lower s r).rt.inbox d ++ [(lower s r).rt.nf]) u := rfl
          rw [e, hrel.base.nf]
          exact h) rfl hsub
      refine ⟨.inl ⟨i, d, _, h1, h3, h2, rfl, k1⟩, fun hroot => ⟨_, _, ?_, k2⟩⟩
      have hnf : r.nf = s.x.c.nf := hrel.base.nf
      have hst := Whole.Step.submit (c := c) (body := tgt body may) (K := K) (root := root') (lower s r) i d h1 h2 h3
      rw [hroot, show (lower s r).r.nf = s.x.c.nf from hnf] at hst
      exact hst
    have hb := (goal _ _ _ hi0 hrel0).1
    refine ⟨.inl hb, F, upd G i (F s.x.c.nf), fun h => absurd hb h, fun root' es r hi he hrel => ?_⟩
    have hr := he i (by rw [h2]; rfl)
    rw [upd_same] at hr
    obtain ⟨es', r', g1, g2⟩ := (goal root' es r hi hrel).2 hr
    refine ⟨fun k hk => ?_, es', r', .inr g1, g2⟩
    have hk : early (upd s.caller i (.calling s.nj s.x.c.nf) k) = true := hk
    by_cases e : k = i
    · subst e; rw [upd_same] at hk; cases hk
    · rw [upd_ne _ _ e] at hk
      have := he k hk
      rw [upd_ne _ _ e] at this; exact this
  | call _ i j f l h1 h2 st =>
    cases hres
    obtain ⟨_, e1, e2, _⟩ := LazyPool.call_self (s := s.l) st (hs0.calling i j f h2).ne.1
    have he : ∀ k, early ((if l.call j = .returned then upd s.caller i (.waiting f) else s.caller) k) = early (s.caller k) := by
      intro k; split
      · rw [upd_apply]; split
        · subst_vars; rw [h2]; rfl
        · rfl
      · rfl
    have k := fun r F es => keep (body := body) (may := may) (dirty := dirty) (r := r) (F := F) (es := es) (s := s)
      (s2 := { s with l := l, caller := if l.call j = .returned then upd s.caller i (.waiting f) else s.caller }) rfl
      (fun u => by simp only; rw [e1, e2]) rfl
    refine ⟨.inr ⟨(k _ _ _ hrel0).1, he⟩, F, G, fun _ => ⟨rfl, rfl⟩, fun root' es r hi he' hrel => ?_⟩
    exact ⟨fun k hk => he' k (by rw [← he]; exact hk), es, r, .inr (.call (lower s r) i j f l h1 h2 st), (k _ _ _ hrel).2⟩
  | get _ i f v h1 h2 h3 =>
    cases hres
    have he : ∀ k, early (upd s.caller i (.back v) k) = early (s.caller k) := by
      intro k; rw [upd_apply]; split
      · subst_vars; rw [h2]; rfl
      · rfl
    refine ⟨.inr ⟨rfl, he⟩, F, G, fun _ => ⟨rfl, rfl⟩, fun root' es r hi he' hrel => ?_⟩
    exact ⟨fun k hk => he' k (by rw [← he]; exact hk), es, r,
      .inr (.get (lower s r) i f v h1 h2 ((hrel.base.log.doneIff f v).1 h3)), hrel⟩
  | dtor _ l h1 st =>
    cases hres
    obtain ⟨e1, e2, _⟩ := LazyPool.dtor_lists st
    have k := fun r F es => keep (body := body) (may := may) (dirty := dirty) (r := r) (F := F) (es := es) (s := s) (s2 := { s with l := l }) rfl
      (fun u => by simp only; rw [e1, e2]) rfl
    refine ⟨.inr ⟨(k _ _ _ hrel0).1, fun _ => rfl⟩, F, G, fun _ => ⟨rfl, rfl⟩, fun root' es r hi he hrel => ?_⟩
    exact ⟨he, es, r, .inr (.dtor (lower s r) l h1 st), (k _ _ _ hrel).2⟩
end

end Verif.WholeX
