import Verif.Exn.SimJoin

/-! Every step of the runtime with exceptions is one of the runtime without, or none: forks, calls, switches and ends of tasks. -/
namespace Verif.Exn
open Verif.Runtime (State Res Fr Pc Loc Link Ev Why upd maxU16 U16 newFrame reset destroy release joinLoad joinSub finPop finDec finLose
  selfSteal stole switchRel steal take doFork doCall report upd_apply upd_same upd_ne results Alive Few Inv InvSlot)

variable {σ V E : Type} {body : σ → Act σ V E} {pend : σ → Nat} {dirty : σ → Prop} {may : E → Prop}
variable {F : Nat → Orc E} {es : Nat → List E} {s : XS σ V E} {r : State (T σ E) (Except E V)} {w : Nat}

/-- What is known about a running task. -/
theorem running {F0 : Nat → Orc E} {f : Nat} (hi : Inv (tgt body may) (fun y => pend y.1) r) (h : Rel body may dirty F0 es s r)
    (hp : s.c.pc w = .run f) : r.pc w = .run f ∧ s.c.loc f = .running w ∧ s.aw f = none ∧ f < s.c.nf ∧
      (r.fr f).st = norm body may (F0 f) (s.c.fr f).st (es f) := by
  have hpr : r.pc w = .run f := by rw [h.base.pc]; exact hp
  have hl : s.c.loc f = .running w := by rw [← h.base.loc]; exact (hi.loc.run w f).2 (Or.inl hpr)
  have ha : s.aw f = none := by have := h.aw f; rwa [hl] at this
  have hlt := alive_lt hi h (f := f) (by rw [hl]; trivial)
  have hy := (h.base.st f hlt).2
  simp only [ha] at hy
  exact ⟨hpr, hl, ha, hlt, hy⟩

theorem sim_fork {f : Nat} {c k x} (hi : Inv (tgt body may) (fun y => pend y.1) r)
    (h : Rel body may dirty (upd F f (.fork (F s.c.nf) (F f).bit (F f).rest)) es s r) (hp : s.c.pc w = .run f)
    (hbd : body (s.c.fr f).st = .fork c k x) : Out (some .take) body may dirty F r w (.ok (fork s w f c)) := by
  obtain ⟨hpr, hl, ha, hlt, hy⟩ := running hi h hp
  rw [upd_same] at hy
  simp only [norm] at hy
  have hst : Verif.Runtime.step (tgt body may) w .take r =
      .ok (doFork r w f (norm body may (F s.c.nf) c []) (norm body may (F f).rest (k (F f).bit) (es f))) := by
    simp only [Verif.Runtime.step, hpr]
    rw [hy]
    simp only [tgt, hbd, Orc.kid, Orc.rest, Orc.bit]
  have hne : f ≠ s.c.nf := by omega
  refine .ok (es' := upd es s.c.nf []) hst ⟨?_, fun g => ?_⟩
  · obtain ⟨hdirty, -⟩ := h.base.st f hlt
    have hslf := h.base.sl f hlt
    have h1 := h.base.newFrame (S' := fun g => Sh body may dirty (upd (upd s.aw s.c.nf none) f none g) (upd es s.c.nf [] g)
          (upd F f (.fork (F s.c.nf) (F f).bit (F f).rest) g)) (L' := fun g => Sl (upd s.exc s.c.nf none g) (upd es s.c.nf [] g))
      (s.c.wk w) (.fork f (s.c.fr f).slots.length) s.c.nf s.c.nf c (norm body may (F s.c.nf) c [])
      (fun g hg a b hab => by
        have e : g ≠ s.c.nf := by omega
        simp only [upd_ne _ _ e]
        by_cases e2 : g = f
        · subst e2; rw [ha] at hab; simpa only [upd_same] using hab
        · simpa only [upd_ne _ _ e2, upd_ne _ _ e] using hab)
      (fun g hg a b hab => by
        have e : g ≠ s.c.nf := by omega
        simpa only [upd_ne _ _ e] using hab)
      (by
        simp only [upd_same, upd_ne _ _ hne.symm]
        exact ⟨fun h => absurd rfl h, rfl⟩)
      (by simp only [upd_same]; exact ⟨rfl, rfl⟩)
    have h2 := h1.frame' (S' := fun g => Sh body may dirty (upd (upd s.aw s.c.nf none) f (some (.fork (s.c.fr f).steal)) g) (upd es s.c.nf [] g) (F g))
      (L' := fun g => Sl (upd s.exc s.c.nf none g) (upd es s.c.nf [] g)) f
      { s.c.fr f with slots := (s.c.fr f).slots ++ [none], kids := s.c.nf :: (s.c.fr f).kids, inits := (s.c.fr f).inits ++ [c] }
      { r.fr f with st := norm body may (F f).rest (k (F f).bit) (es f), slots := (r.fr f).slots ++ [none], kids := s.c.nf :: (r.fr f).kids,
                    inits := (r.fr f).inits ++ [norm body may (F s.c.nf) c []] }
      (fun g hg a b hab => by simpa only [upd_ne _ _ hg] using hab)
      (fun g hg a b hab => hab)
      (by
        simp only [upd_same, upd_ne _ _ hne]
        exact ⟨hdirty, c, k, x, hbd, rfl⟩)
      (by
        simp only [upd_ne _ _ hne]
        obtain ⟨e1, e2⟩ := hslf
        refine ⟨by rw [List.map_append, ← e1]; rfl, ?_⟩
        rw [errsO_append]
        simpa only [errsO, List.append_nil] using e2)
      (h.base.steal f) (h.base.join f) (h.base.stolen f)
    have h3 := ((((h2.setQ w ((f, s.c.nf) :: s.c.q w)).setPc w (.run s.c.nf)).setLoc f (.queued w s.c.nf)).setLoc s.c.nf (.running w))
      |>.setLog (.suspend f (.fork s.c.nf)) (.suspend f (.fork s.c.nf)) ⟨rfl, rfl⟩ |>.setLog (.resume s.c.nf w) (.resume s.c.nf w) ⟨rfl, rfl⟩
    obtain ⟨rfr, rnf, rlink, rstk, ral, rns, rpc, rq, rwk, rinbox, rloc, rbase, rinit, rlog⟩ := r
    obtain ⟨e1, e2, e3, e4, e5, e6, e7, e8, e9, e10, -, -, -, -, -, -⟩ := h.base
    dsimp only at e1 e2 e3 e4 e5 e6 e7 e8 e9 e10
    subst e1 e2 e3 e4 e5 e6 e7 e8 e9 e10
    have el : (rfr f).slots.length = (s.c.fr f).slots.length := by
      have := congrArg List.length hslf.1
      simpa using this.symm
    simp only [fork, doFork, el]
    exact h3
  · show AwOk (upd (upd s.c.loc f (.queued w s.c.nf)) s.c.nf (.running w) g) (upd (upd s.aw s.c.nf none) f (some (.fork (s.c.fr f).steal)) g)
      (upd (upd s.c.fr s.c.nf _) f _ g).steal
    by_cases e1 : g = f
    · subst e1
      rw [upd_ne _ _ hne, upd_same, upd_same, upd_same]; rfl
    · rw [upd_ne _ _ e1, upd_ne (upd s.c.fr s.c.nf _) _ e1]
      by_cases e2 : g = s.c.nf
      · subst e2; rw [upd_same, upd_same]; trivial
      · rw [upd_ne _ _ e2, upd_ne _ _ e2, upd_ne _ _ e2, upd_ne _ _ e1]; exact h.aw g

theorem sim_call {f : Nat} {c k x} (hi : Inv (tgt body may) (fun y => pend y.1) r)
    (h : Rel body may dirty (upd F f (.fork (F s.c.nf) true (F f))) es s r) (hp : s.c.pc w = .run f)
    (hbd : body (s.c.fr f).st = .call c k x) : Out (some .take) body may dirty F r w (.ok (call s w f c)) := by
  obtain ⟨hpr, hl, ha, hlt, hy⟩ := running hi h hp
  rw [upd_same] at hy
  simp only [norm] at hy
  have hst : Verif.Runtime.step (tgt body may) w .take r = .ok (doCall r w f (norm body may (F s.c.nf) c [])) := by
    simp only [Verif.Runtime.step, hpr]
    rw [hy]
    simp only [tgt, hbd, Orc.kid]
  have hne : f ≠ s.c.nf := by omega
  refine .ok (es' := upd es s.c.nf []) hst ⟨?_, fun g => ?_⟩
  · obtain ⟨hdirty, -⟩ := h.base.st f hlt
    have h0 := h.base.weaken (S' := fun g => Sh body may dirty (upd s.aw f (some .call) g) (es g) (F g)) (L' := fun g => Sl (s.exc g) (es g))
      (fun g hg hab => by
        by_cases e2 : g = f
        · subst e2; simp only [upd_same]; exact ⟨hdirty, _, _, _, _, _, hbd, hy⟩
        · simpa only [upd_ne _ _ e2] using hab) (fun g hg hab => hab)
    have h1 := h0.newFrame (S' := fun g => Sh body may dirty (upd (upd s.aw s.c.nf none) f (some .call) g) (upd es s.c.nf [] g) (F g))
      (L' := fun g => Sl (upd s.exc s.c.nf none g) (upd es s.c.nf [] g))
      (s.c.wk w) (.call f) (s.c.base f) (r.base f) c (norm body may (F s.c.nf) c [])
      (fun g hg a b hab => by
        have e : g ≠ s.c.nf := by omega
        simp only [upd_ne _ _ e]
        by_cases e2 : g = f
        · subst e2; simpa only [upd_same] using hab
        · simpa only [upd_ne _ _ e2, upd_ne _ _ e] using hab)
      (fun g hg a b hab => by
        have e : g ≠ s.c.nf := by omega
        simpa only [upd_ne _ _ e] using hab)
      (by
        simp only [upd_same, upd_ne _ _ hne.symm]
        exact ⟨fun h => absurd rfl h, rfl⟩)
      (by simp only [upd_same]; exact ⟨rfl, rfl⟩)
    have h3 := (((h1.setPc w (.run s.c.nf)).setLoc f (.callwait s.c.nf)).setLoc s.c.nf (.running w))
      |>.setLog (.suspend f (.call s.c.nf)) (.suspend f (.call s.c.nf)) ⟨rfl, rfl⟩ |>.setLog (.resume s.c.nf w) (.resume s.c.nf w) ⟨rfl, rfl⟩
    obtain ⟨rfr, rnf, rlink, rstk, ral, rns, rpc, rq, rwk, rinbox, rloc, rbase, rinit, rlog⟩ := r
    obtain ⟨e1, e2, e3, e4, e5, e6, e7, e8, e9, e10, -, -, -, -, -, -⟩ := h.base
    dsimp only at e1 e2 e3 e4 e5 e6 e7 e8 e9 e10
    subst e1 e2 e3 e4 e5 e6 e7 e8 e9 e10
    exact h3
  · show AwOk (upd (upd s.c.loc f (.callwait s.c.nf)) s.c.nf (.running w) g) (upd (upd s.aw s.c.nf none) f (some .call) g)
      (upd s.c.fr s.c.nf _ g).steal
    by_cases e1 : g = f
    · subst e1
      rw [upd_ne _ _ hne, upd_same, upd_same]; rfl
    · rw [upd_ne _ _ e1]
      by_cases e2 : g = s.c.nf
      · subst e2; rw [upd_same, upd_same]; trivial
      · rw [upd_ne _ _ e2, upd_ne _ _ e2, upd_ne _ _ e2, upd_ne _ _ e1]; exact h.aw g

theorem sim_switch {f d : Nat} {k x} (hd : Disc body pend dirty) (hi : Inv (tgt body may) (fun y => pend y.1) r)
    (hs : ∀ ch, r.pc w ≠ .idle → ∃ r', Verif.Runtime.step (tgt body may) w ch r = .ok r')
    (h : Rel body may dirty (upd F f (.go (F f))) es s r) (hp : s.c.pc w = .run f)
    (hbd : body (s.c.fr f).st = .switch d k x) :
    Out (some .take) body may dirty F r w (Res.bind (Verif.Runtime.doSwitch s.c w f d k) fun c' => .ok { s with c := c' }) := by
  obtain ⟨hpr, hl, ha, hlt, hy⟩ := running hi h hp
  rw [upd_same] at hy
  simp only [norm] at hy
  obtain ⟨r', hst⟩ := hs .take (by rw [hpr]; simp)
  have hst' := hst
  simp only [Verif.Runtime.step, hpr] at hst'
  rw [hy] at hst'
  simp only [tgt, hbd, Orc.rest] at hst'
  unfold Verif.Runtime.doSwitch at hst' ⊢
  dsimp only at hst' ⊢
  split at hst'
  · rename_i hc
    cases hst'
    rw [if_pos (by rw [← h.base.steal, ← h.base.wk, ← h.base.stk, ← h.base.isTop]; exact hc)]
    obtain ⟨hdirty, -⟩ := h.base.st f hlt
    have hsw := hd.switch _ _ _ _ hbd
    have h1 := h.base.frame' (S' := fun g => Sh body may dirty (s.aw g) (es g) (F g)) (L' := fun g => Sl (s.exc g) (es g)) f
      { s.c.fr f with st := k } { r.fr f with st := norm body may (F f) k (es f) }
      (fun g hg a b hab => by simpa only [upd_ne _ _ hg] using hab) (fun g hg a b hab => hab)
      (by rw [ha]; exact ⟨fun hn => hsw.2.1 (hdirty hn), rfl⟩) (h.base.sl f hlt) (h.base.steal f) (h.base.join f) (h.base.stolen f)
    have h2 := (((h1.setPc w (.switchRel (decide ((s.c.fr f).steal = 0)))).setInbox d (s.c.inbox d ++ [f])).setLoc f (.inbox d)).setLog
      (.suspend f (.switch d)) (.suspend f (.switch d)) ⟨rfl, rfl⟩
    refine .ok (es' := es) hst ⟨?_, fun g => ?_⟩
    · have e1 : decide ((r.fr f).steal = 0) = decide ((s.c.fr f).steal = 0) := by rw [h.base.steal f]
      have e2 : r.inbox d = s.c.inbox d := by rw [h.base.inbox]
      rw [e1, e2]
      exact h2
    · exact awOk_move (l := .inbox d) h.aw (fun g => steal_upd s.c.fr f _ (by rfl) g) (by exact ha) g
  · cases hst'

/-- The task goes on without a step of the runtime without exceptions. -/
theorem sim_skip {f : Nat} {x : σ} {o : Orc E} (hi : Inv (tgt body may) (fun y => pend y.1) r)
    (h : Rel body may dirty (upd F f o) es s r) (hp : s.c.pc w = .run f)
    (hn : ∀ l, norm body may o (s.c.fr f).st l = norm body may (F f) x l) (hdx : dirty (s.c.fr f).st → dirty x) :
    Out none body may dirty F r w (.ok { s with c := goOn s.c f x }) := by
  obtain ⟨hpr, hl, ha, hlt, hy⟩ := running hi h hp
  rw [upd_same, hn] at hy
  obtain ⟨hdirty, -⟩ := h.base.st f hlt
  have h1 := h.base.frame' (S' := fun g => Sh body may dirty (s.aw g) (es g) (F g)) (L' := fun g => Sl (s.exc g) (es g)) f
      { s.c.fr f with st := x } (r.fr f)
      (fun g hg a b hab => by simpa only [upd_ne _ _ hg] using hab) (fun g hg a b hab => hab)
      (by rw [ha]; exact ⟨fun hn => hdx (hdirty hn), hy⟩) (h.base.sl f hlt) (h.base.steal f) (h.base.join f) (h.base.stolen f)
  have e : upd r.fr f (r.fr f) = r.fr := by
    funext g; rw [upd_apply]; split
    · rename_i e; rw [e]
    · rfl
  rw [e] at h1
  refine .stay (es' := es) ⟨h1, fun g => ?_⟩
  show AwOk (s.c.loc g) (s.aw g) (upd s.c.fr f _ g).steal
  rw [steal_upd s.c.fr f _ (by rfl)]; exact h.aw g

/-- The frame of a child whose fork or call failed is gone. -/
theorem failed_eq (s : XS σ V E) (w f : Nat) (c x : σ) (late : Bool) : failed s w f c x late = .ok { s with c := goOn s.c f x } := by
  unfold failed
  cases late with
  | false => rfl
  | true =>
    simp only [if_true]
    have h1 : destroy (newFrame s.c (s.c.wk w) (.call f) (s.c.base f) c) w s.c.nf =
        .ok { newFrame s.c (s.c.wk w) (.call f) (s.c.base f) c with al := s.c.al } := by
      unfold destroy
      rw [if_pos]
      · congr 1
        simp only [newFrame, upd_same, List.tail_cons]
        congr 1
        funext g
        simp only [upd_apply]
        split
        · rename_i e; rw [e]
        · rfl
      · simp [newFrame, upd_same, State.isTop]
    rw [h1]

theorem sim_fail {f : Nat} {e : E} {late : Bool} (hd : Disc body pend dirty) (hm : may e) (hi : Inv (tgt body may) (fun y => pend y.1) r)
    (h : Rel body may dirty (upd F f (.fail e (F f))) es s r) (hp : s.c.pc w = .run f) :
    Out none body may dirty F r w (run body s w f (.fail e late)) := by
  unfold run
  dsimp only
  cases hbd : body (s.c.fr f).st with
  | fork c k x =>
    dsimp only
    rw [failed_eq]
    exact sim_skip hi h hp (fun l => by simp only [norm, hm, if_true, hbd]) ((hd.fork _ _ _ _ hbd).2.2 e).2
  | call c k x =>
    dsimp only
    rw [failed_eq]
    exact sim_skip hi h hp (fun l => by simp only [norm, hm, if_true, hbd]) ((hd.call _ _ _ _ hbd).2.2 e).2
  | switch d k x => exact sim_skip hi h hp (fun l => by simp only [norm, hm, if_true, hbd]) ((hd.switch _ _ _ _ hbd).2.2 e).2
  | _ => trivial

theorem sim_ready {f : Nat} (hd : Disc body pend dirty) (hi : Inv (tgt body may) (fun y => pend y.1) r)
    (h : Rel body may dirty (upd F f (.ready (F f))) es s r) (hp : s.c.pc w = .run f) :
    Out none body may dirty F r w (run body s w f .ready) := by
  unfold run
  dsimp only
  cases hbd : body (s.c.fr f).st with
  | switch d k x => exact sim_skip hi h hp (fun l => by simp only [norm, hbd]) (hd.switch _ _ _ _ hbd).2.1
  | _ => trivial

theorem exOk_capture {x : Option E} {l : List E} (e : E) {l' : List E} (h : ExOk x l) (hs : ∀ a, a ∈ l' ↔ a ∈ l ∨ a = e) :
    ExOk (match x with | none => some e | some e0 => some e0) l' := by
  cases x with
  | none => exact (hs e).2 (Or.inr rfl)
  | some e0 => exact (hs e0).2 (Or.inl h)

theorem sim_end {f : Nat} {v : Except E V} (hd : Disc body pend dirty) (hi : Inv (tgt body may) (fun y => pend y.1) r) (hsl : InvSlot r)
    (hs : ∀ ch, r.pc w ≠ .idle → ∃ r', Verif.Runtime.step (tgt body may) w ch r = .ok r')
    (h : Rel body may dirty F es s r) (hp : s.c.pc w = .run f) (hv : tgt body may ((s.c.fr f).st, es f, F f) = .ret v)
    (hpd : pend (s.c.fr f).st = 0) (hnd : ¬ dirty (s.c.fr f).st) (hn : norm body may (F f) (s.c.fr f).st (es f) = ((s.c.fr f).st, es f, F f)) :
    Out (some .take) body may dirty F r w (doEnd body s w f v) := by
  obtain ⟨hpr, hl, ha, hlt, hy⟩ := running hi h hp
  rw [hn] at hy
  have hrl : r.loc f = .running w := by rw [h.base.loc]; exact hl
  have hexc : s.exc f = none := by
    obtain ⟨hdirty, -⟩ := h.base.st f hlt
    have hes : es f = [] := by
      by_cases e : es f = []
      · exact e
      · exact absurd (hdirty e) hnd
    have h0 := hi.st.pd f (by rw [hrl]; trivial)
    rw [hy] at h0
    dsimp only at h0
    rw [hpd] at h0
    have h2 := List.length_eq_zero_iff.1 h0.symm
    have h3 := (h.base.sl f hlt).2
    rw [h2, hes] at h3
    cases hx : s.exc f with
    | none => rfl
    | some e => rw [hx] at h3; cases h3
  obtain ⟨r', hst⟩ := hs .take (by rw [hpr]; simp)
  have hst' := hst
  simp only [Verif.Runtime.step, hpr] at hst'
  rw [hy, hv] at hst'
  dsimp only at hst'
  unfold Verif.Runtime.doRet at hst'
  unfold doEnd
  split at hst'
  · rename_i hc
    rw [if_pos ⟨by rw [← h.base.steal]; exact hc.1, by rw [← h.base.join]; exact hc.2, hexc⟩]
    dsimp only
    have hdes := base_destroy h.base w f
    cases hlk : r.link f with
    | root =>
      rw [hlk] at hst'
      have hlk' : s.c.link f = .root := by rw [← h.base.link]; exact hlk
      rw [hlk']
      dsimp only at hst' ⊢
      cases hdr : destroy r w f with
      | ok r1 =>
        rw [hdr] at hst' hdes
        obtain ⟨c1, hc1, hb1⟩ := hdes.of_ok
        rw [hc1]
        dsimp only at hst' ⊢
        split at hst'
        · rename_i hq
          cases hst'
          rw [if_pos (by rw [← hb1.wkEmpty, ← hb1.q]; exact hq)]
          have hb2 := ((hb1.setPc w .idle).setLoc f .gone).setLog (.done f v) (.done f v) ⟨rfl, rfl⟩
          refine .ok (es' := es) hst ⟨?_, ?_⟩
          · have e1 : c1.pc = s.c.pc ∧ c1.loc = s.c.loc ∧ c1.log = s.c.log ∧ c1.fr = s.c.fr := by
              obtain ⟨rfl, -⟩ := Verif.Runtime.destroy_ok hc1; exact ⟨rfl, rfl, rfl, rfl⟩
            have e2 : r1.pc = r.pc ∧ r1.loc = r.loc ∧ r1.log = r.log := by
              obtain ⟨rfl, -⟩ := Verif.Runtime.destroy_ok hdr; exact ⟨rfl, rfl, rfl⟩
            rw [e1.1, e1.2.1, e1.2.2.1, e2.1, e2.2.1, e2.2.2] at hb2
            exact hb2
          · obtain ⟨rfl, -⟩ := Verif.Runtime.destroy_ok hc1
            exact awOk_move (l := .gone) h.aw (fun _ => rfl) (by exact ha)
        · cases hst'
      | ub => rw [hdr] at hst'; cases hst'
      | no => rw [hdr] at hst'; cases hst'
    | call p =>
      rw [hlk] at hst'
      have hlk' : s.c.link f = .call p := by rw [← h.base.link]; exact hlk
      rw [hlk']
      dsimp only at hst' ⊢
      split at hst'
      · rename_i hlv
        rw [if_pos (by rw [← h.base.live]; exact hlv)]
        have hcw : s.c.loc p = .callwait f := by
          rw [← h.base.loc]; exact (hi.link.callw p f).2 ⟨hlk, by rw [hrl]; trivial⟩
        have hap : s.aw p = some .call := by have := h.aw p; rwa [hcw] at this
        have hltp := alive_lt hi h (f := p) (by rw [hcw]; trivial)
        have hnp : p ≠ f := by rintro rfl; rw [hl] at hcw; cases hcw
        have hyp := h.base.st p hltp
        simp only [hap] at hyp
        obtain ⟨hdp, kid, b, c, k, x, hbp, hyp⟩ := hyp
        rw [hyp] at hst'
        simp only [tgt, hbp] at hst'
        cases hdr : destroy r w f with
        | ok r1 =>
          rw [hdr] at hst' hdes
          obtain ⟨c1, hc1, hb1⟩ := hdes.of_ok
          rw [hc1, hap]
          simp only [hbp]
          dsimp only at hst' ⊢
          cases hst'
          obtain ⟨rfl, -⟩ := Verif.Runtime.destroy_ok hc1
          obtain ⟨rfl, -⟩ := Verif.Runtime.destroy_ok hdr
          have hcl := hd.call _ _ _ _ hbp
          have hslp := h.base.sl p hltp
          refine .ok (es' := match v with | .ok _ => es | .error e => upd es p (e :: es p)) hst ⟨?_, fun g => ?_⟩
          · have hb2 := hb1.frame' (S' := fun g => Sh body may dirty (upd s.aw p none g)
                ((match v with | .ok _ => es | .error e => upd es p (e :: es p)) g) (F g))
              (L' := fun g => Sl ((match v with | .ok _ => s.exc | .error e => capture s.exc p e) g)
                ((match v with | .ok _ => es | .error e => upd es p (e :: es p)) g)) p
              { s.c.fr p with st := k v.toOption }
              { r.fr p with st := match (motive := Except E V → T σ E) v with
                                  | .ok v => norm body may (F p) (k (some v)) (es p)
                                  | .error e => norm body may (F p) (k none) (e :: es p) }
              (fun g hg a b hab => by
                cases v <;> simpa only [upd_ne _ _ hg] using hab)
              (fun g hg a b hab => by
                cases v <;> simpa only [capture, upd_ne _ _ hg] using hab)
              (by
                cases v with
                | ok v =>
                  simp only [upd_same]
                  exact ⟨fun hn => (hcl.2.1 (some v)).2 (Or.inr (hdp hn)), rfl⟩
                | error e =>
                  simp only [upd_same]
                  exact ⟨fun hn => (hcl.2.1 none).2 (Or.inl rfl), rfl⟩)
              (by
                cases v with
                | ok v => exact hslp
                | error e =>
                  simp only [capture, upd_same]
                  refine ⟨hslp.1, exOk_capture e hslp.2 fun a => ?_⟩
                  simp only [List.mem_append, List.mem_cons]
                  constructor
                  · rintro (h | h | h)
                    · exact Or.inl (Or.inl h)
                    · exact Or.inr h
                    · exact Or.inl (Or.inr h)
                  · rintro ((h | h) | h)
                    · exact Or.inl h
                    · exact Or.inr (Or.inr h)
                    · exact Or.inr (Or.inl h))
              (h.base.steal p) (h.base.join p) (h.base.stolen p)
            have hb3 := ((((hb2.setPc w (.run p)).setLoc f .gone).setLoc p (.running w)).setLog (.done f v) (.done f v) ⟨rfl, rfl⟩).setLog
              (.resume p w) (.resume p w) ⟨rfl, rfl⟩
            cases v <;> exact hb3
          · show AwOk (upd (upd s.c.loc f .gone) p (.running w) g) (upd s.aw p none g) (upd s.c.fr p _ g).steal
            rw [steal_upd s.c.fr p _ (by rfl)]
            by_cases e1 : g = p
            · subst e1; rw [upd_same, upd_same]; trivial
            · rw [upd_ne _ _ e1, upd_ne _ _ e1]
              by_cases e2 : g = f
              · subst e2; rw [upd_same]; exact ha
              · rw [upd_ne _ _ e2]; exact h.aw g
        | ub => rw [hdr] at hst'; cases hst'
        | no => rw [hdr] at hst'; cases hst'
      · cases hst'
    | fork p i =>
      rw [hlk] at hst'
      have hlk' : s.c.link f = .fork p i := by rw [← h.base.link]; exact hlk
      rw [hlk']
      dsimp only at hst' ⊢
      split at hst'
      · rename_i hlv
        rw [if_pos (by rw [← h.base.live]; exact hlv)]
        have hun := hsl.un f p i hlk (by rw [hrl]; trivial)
        have hap : Alive (r.loc p) := hi.link.kid f p (by rw [hlk]; rfl) (by rw [hrl]; simp) (by rw [hrl]; simp)
        have hltp : p < s.c.nf := alive_lt hi h (f := p) (by rw [← h.base.loc]; exact hap)
        cases hdr : destroy r w f with
        | ok r1 =>
          rw [hdr] at hst' hdes
          obtain ⟨c1, hc1, hb1⟩ := hdes.of_ok
          rw [hc1]
          dsimp only at hst' ⊢
          cases hst'
          obtain ⟨rfl, -⟩ := Verif.Runtime.destroy_ok hc1
          obtain ⟨rfl, -⟩ := Verif.Runtime.destroy_ok hdr
          have hslp := h.base.sl p hltp
          refine .ok (es' := es) hst ⟨?_, fun g => ?_⟩
          · have hb2 := hb1.frame' (S' := fun g => Sh body may dirty (s.aw g) (es g) (F g))
              (L' := fun g => Sl ((match v with | .ok _ => s.exc | .error e => capture s.exc p e) g) (es g)) p
              { s.c.fr p with slots := match v with | .ok v => (s.c.fr p).slots.set i (some (.ok v)) | .error _ => (s.c.fr p).slots }
              { r.fr p with slots := (r.fr p).slots.set i (some v) }
              (fun g hg a b hab => hab)
              (fun g hg a b hab => by
                cases v <;> simpa only [capture, upd_ne _ _ hg] using hab)
              (h.base.st p hltp)
              (by
                cases v with
                | ok v =>
                  refine ⟨by rw [strip_set_ok, ← hslp.1], ?_⟩
                  have h2 := hslp.2
                  have hm : ∀ a, a ∈ errsO ((r.fr p).slots.set i (some (Except.ok v))) ++ es p ↔ a ∈ errsO (r.fr p).slots ++ es p := by
                    intro a
                    rw [List.mem_append, List.mem_append, errsO_set hun]
                    simp
                  dsimp only
                  cases hx : s.exc p with
                  | none =>
                    rw [hx] at h2
                    have h2 : errsO (r.fr p).slots ++ es p = [] := h2
                    show _ = []
                    rw [List.eq_nil_iff_forall_not_mem]
                    intro a hma
                    have := (hm a).1 hma
                    rw [h2] at this; cases this
                  | some e => rw [hx] at h2; exact (hm e).2 h2
                | error e =>
                  simp only [capture, upd_same]
                  refine ⟨by rw [strip_set_error hun]; exact hslp.1, exOk_capture e hslp.2 fun a => ?_⟩
                  rw [List.mem_append, List.mem_append, errsO_set hun]
                  simp only [Except.error.injEq]
                  constructor
                  · rintro ((h | h) | h)
                    · exact Or.inl (Or.inl h)
                    · exact Or.inr h.symm
                    · exact Or.inl (Or.inr h)
                  · rintro ((h | h) | h)
                    · exact Or.inl (Or.inl h)
                    · exact Or.inr h
                    · exact Or.inl (Or.inr h.symm))
              (h.base.steal p) (h.base.join p) (h.base.stolen p)
            have hb3 := ((hb2.setPc w (.finPop p f)).setLoc f (.finishing w)).setLog (.done f v) (.done f v) ⟨rfl, rfl⟩
            cases v <;> exact hb3
          · show AwOk (upd s.c.loc f (.finishing w) g) (s.aw g) (upd s.c.fr p _ g).steal
            rw [steal_upd s.c.fr p _ (by rfl)]
            exact awOk_move (l := .finishing w) h.aw (fun _ => rfl) (by exact ha) g
        | ub => rw [hdr] at hst'; cases hst'
        | no => rw [hdr] at hst'; cases hst'
      · cases hst'
  · cases hst'

end Verif.Exn
