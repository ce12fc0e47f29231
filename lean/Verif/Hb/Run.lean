import Verif.Hb.Step

/-!
Every step of a task keeps the invariant, and what the program puts before the step happens before it.
-/
namespace Verif.Hb
open Verif.Runtime (State Res Fr Pc Loc Link Alive Few forkPar upd upd_apply upd_same upd_ne maxU16)
open Verif.Exn (XS Choice)
open Verif.Mem (MS Act)

variable {σ V E L : Type}
variable {x x' : XS σ V E} {h : Clk} {g : Ord} {B : Nat → List Nat} {w : Nat} {ch : Choice E} {body : σ → Act σ V E L}

theorem run_np {f : Nat} (hp : x.c.pc w = .run f) : ∀ p c, ¬ Pend p c (x.c.pc w) := not_pend (by rw [hp]; simp) (by rw [hp]; simp)

/-- The task goes on, and nothing else happens. -/
theorem good_stay (i : I x.c.nf x.c.loc x.c.pc (fun f => (x.c.fr f).stolen) x.c.link h g B) (F : Fx x) {f : Nat} (hp : x.c.pc w = .run f)
    (hsy : sync body w ch x h = h.tick w) (hm : merge body w ch x x' g = g) (hpo : ∀ g', post body w ch x g' = g')
    (h1 : x'.c.nf = x.c.nf) (h2 : x'.c.loc = x.c.loc) (h3 : x'.c.pc = x.c.pc) (h4 : (fun p => (x'.c.fr p).stolen) = fun p => (x.c.fr p).stolen) (h5 : x'.c.link = x.c.link) :
    Good x x' body w ch h g := by
  have hl : x.c.loc f = .running w := (F.loc.run w f).2 (.inl hp)
  obtain ⟨i1, hL⟩ := i.begin F (f := f) (w := w) (by rw [hl]; rfl)
  have i2 := i1.cong h1 h2 h3 h4 h5
  have hw : who w ch x = some f := by simp only [who, hp]
  refine ⟨?_, fun f' hf' => ?_⟩
  · rw [hsy, hpo, hw, hm]
    exact ⟨_, i2⟩
  · rw [hw] at hf'; cases hf'
    rw [hsy, hm]; exact hL

theorem goOn_stolen (c : State σ (Except E V)) (f : Nat) (k : σ) : (fun p => ((Exn.goOn c f k).fr p).stolen) = fun p => (c.fr p).stolen := stolen_upd _ _ rfl

/-- The facts about the next task number. -/
theorem Fx.next (F : Fx x) : x.c.loc x.c.nf = .unborn ∧ (∀ p, x.c.loc p ≠ .callwait x.c.nf) ∧ ∀ v p, ¬ Pend p x.c.nf (x.c.pc v) := by
  have un := (F.loc.fresh x.c.nf).2 (Nat.le_refl _)
  refine ⟨un, fun p hp => ?_, fun v p hp => ?_⟩
  · have := ((F.callw p x.c.nf).1 hp).2
    rw [un] at this; exact this
  · have := F.pend hp
    rw [un] at this; cases this

theorem kj_run (i : I x.c.nf x.c.loc x.c.pc (fun f => (x.c.fr f).stolen) x.c.link h g B) {f : Nat} (hl : x.c.loc f = .running w) (hj : h.kj f ≠ []) : (x.c.fr f).stolen ≠ 0 := by
  rcases i.kj f (by rw [hl]; trivial) hj with h1 | ⟨v, h1⟩ | ⟨v, c, h1, _⟩
  · exact h1
  · rw [hl] at h1; cases h1
  · rw [hl] at h1; cases h1

theorem good_fork (i : I x.c.nf x.c.loc x.c.pc (fun f => (x.c.fr f).stolen) x.c.link h g B) (F : Fx x) {f : Nat} (hp : x.c.pc w = .run f) {k : Bool → σ} {z : E → σ} {c : σ} {o : Runtime.Choice}
    (hb : body (x.c.fr f).st = .fork c k z) : Good x (Exn.fork x w f c) body w (.go o) h g := by
  have hl : x.c.loc f = .running w := (F.loc.run w f).2 (.inl hp)
  have hs : Has w (x.c.loc f) := by rw [hl]; rfl
  obtain ⟨i1, hL⟩ := i.begin F hs
  obtain ⟨un, cw, pd⟩ := F.next
  have hne : f ≠ x.c.nf := by rintro e; rw [e] at hl; rw [un] at hl; cases hl
  have hLL := i1.lb f hs.alive
  rw [upd_same] at hLL
  have i2 := i1.new (l := .running w) (L := (g.act h.n f).L f) (b := (h.tick w).kn w) (kb := (h.tick w).kb x.c.nf) (par := .fork f) (lk := .fork f (x.c.fr f).slots.length)
    (stolen' := fun p => ((Exn.fork x w f c).c.fr p).stolen) un cw pd rfl hLL
    (fun p hpn => by
      simp only [Exn.fork, Runtime.doFork, Runtime.newFrame, upd_apply]
      split
      · next e => rw [e]
      · simp [hpn]) (.inl ⟨w, rfl, fun _ h => h⟩)
  have nq : ∀ v c, upd x.c.loc x.c.nf (.running w) f ≠ .queued v c := fun v c => by rw [upd_ne _ _ hne, hl]; simp
  have i3 := i2.setKid (f := f) (c := x.c.nf) nq
  have i4 := i3.setq (f := f) ((h.tick w).kn w) nq
  have i5 := i4.move (f := f) (l := .queued w x.c.nf) (by rw [upd_ne _ _ hne, hl]; simp) (by simp) (by rw [upd_ne _ _ hne, hl]; trivial)
    (by simp only [HK, upd_ne _ _ hne, upd_same]; exact ⟨fun _ h => h, fun _ h => h⟩)
    (fun hj => .inl (by
      simp only [upd_ne _ _ hne] at hj
      have := kj_run i hl hj
      simp only [Exn.fork, Runtime.doFork, Runtime.newFrame, upd_same]
      exact this))
    (fun v c' hc => by cases hc; simp only [upd_same])
  have i6 := i5.goto (w := w) (q := .run x.c.nf) (run_np hp) (not_pend (by simp) (by simp))
  have i7 := i6.ext_clk (h' := ((h.tick w).store x.c.nf).push w f) rfl rfl rfl (upd_self _ _).symm rfl rfl
  have i8 := i7.cong (loc' := (Exn.fork x w f c).c.loc) rfl (upd_comm _ _ _ hne) rfl rfl rfl
  refine ⟨?_, fun f' hf' => ?_⟩
  · simp only [sync, who, merge, post, hp, hb]
    exact ⟨_, i8⟩
  · simp only [who, hp, Option.some.injEq] at hf'
    subst hf'
    simp only [sync, merge, hp, hb]
    exact hL

theorem good_call (i : I x.c.nf x.c.loc x.c.pc (fun f => (x.c.fr f).stolen) x.c.link h g B) (F : Fx x) {f : Nat} (hp : x.c.pc w = .run f) {k : Option V → σ} {z : E → σ} {c : σ} {o : Runtime.Choice}
    (hb : body (x.c.fr f).st = .call c k z) : Good x (Exn.call x w f c) body w (.go o) h g := by
  have hl : x.c.loc f = .running w := (F.loc.run w f).2 (.inl hp)
  have hs : Has w (x.c.loc f) := by rw [hl]; rfl
  obtain ⟨i1, hL⟩ := i.begin F hs
  obtain ⟨un, cw, pd⟩ := F.next
  have hne : f ≠ x.c.nf := by rintro e; rw [e] at hl; rw [un] at hl; cases hl
  have hLL := i1.lb f hs.alive
  rw [upd_same] at hLL
  have i2 := i1.new (l := .running w) (L := (g.act h.n f).L f) (b := (h.tick w).kn w) (kb := (h.tick w).kb x.c.nf) (par := .call f) (lk := .call f)
    (stolen' := fun p => ((Exn.call x w f c).c.fr p).stolen) un cw pd rfl hLL
    (fun p hpn => by
      simp only [Exn.call, Runtime.doCall, Runtime.newFrame, upd_ne _ _ hpn]) (.inl ⟨w, rfl, fun _ h => h⟩)
  have i5 := i2.move (f := f) (l := .callwait x.c.nf) (by rw [upd_ne _ _ hne, hl]; simp) (by simp) (by rw [upd_ne _ _ hne, hl]; trivial)
    (by simp only [HK, upd_ne _ _ hne, upd_same]; exact fun _ h => h)
    (fun hj => .inl (by
      simp only [upd_ne _ _ hne] at hj
      have := kj_run i hl hj
      simp only [Exn.call, Runtime.doCall, Runtime.newFrame, upd_ne _ _ hne]
      exact this))
    (fun v c' hc => by cases hc)
  have i6 := i5.goto (w := w) (q := .run x.c.nf) (run_np hp) (not_pend (by simp) (by simp))
  have i7 := i6.ext_clk (h' := (h.tick w).store x.c.nf) rfl rfl rfl (upd_self _ _).symm rfl rfl
  have i8 := i7.cong (loc' := (Exn.call x w f c).c.loc) rfl (upd_comm _ _ _ hne) rfl rfl rfl
  refine ⟨?_, fun f' hf' => ?_⟩
  · simp only [sync, who, merge, post, hp, hb]
    exact ⟨_, i8⟩
  · simp only [who, hp, Option.some.injEq] at hf'
    subst hf'
    simp only [sync, merge, hp, hb]
    exact hL

theorem good_switch (i : I x.c.nf x.c.loc x.c.pc (fun f => (x.c.fr f).stolen) x.c.link h g B) (F : Fx x) {f d : Nat} (hp : x.c.pc w = .run f) {k : σ} {z : E → σ} {o : Runtime.Choice}
    (hb : body (x.c.fr f).st = .switch d k z) (e : Exn.plain x (Runtime.doSwitch x.c w f d k) = .ok x') : Good x x' body w (.go o) h g := by
  obtain ⟨c1, e1, rfl⟩ := plain_ok e
  have hl : x.c.loc f = .running w := (F.loc.run w f).2 (.inl hp)
  have hs : Has w (x.c.loc f) := by rw [hl]; rfl
  obtain ⟨i1, hL⟩ := i.begin F hs
  unfold Runtime.doSwitch at e1
  simp only at e1
  split at e1 <;> cases e1
  have i2 := i1.setb (f := f) ((h.tick w).kn w) (by rw [hl]; simp)
  have i3 := i2.move (f := f) (l := .inbox d) (by rw [hl]; simp) (by simp) (by rw [hl]; trivial)
    (by simp only [HK, upd_same]; exact fun _ h => h) (fun hj => .inl (kj_run i hl hj)) (fun _ _ hc => by cases hc)
  have i4 := i3.goto (w := w) (q := .switchRel (decide ((x.c.fr f).steal = 0))) (run_np hp) (not_pend (by simp) (by simp))
  have i5 := i4.cong (stolen' := fun p => (upd x.c.fr f { x.c.fr f with st := k } p).stolen) rfl rfl rfl (stolen_upd _ _ rfl) rfl
  refine ⟨?_, fun f' hf' => ?_⟩
  · simp only [sync, who, merge, post, hp, hb]
    exact ⟨_, i5⟩
  · simp only [who, hp, Option.some.injEq] at hf'
    subst hf'
    simp only [sync, merge, hp, hb]
    exact hL

theorem good_join {bd : σ → Exn.Act σ V E} (i : I x.c.nf x.c.loc x.c.pc (fun f => (x.c.fr f).stolen) x.c.link h g B) (F : Fx x) {f : Nat} (hp : x.c.pc w = .run f) {k : List V → σ}
    {z : E → List (Option V) → σ} {o : Runtime.Choice} (hb : body (x.c.fr f).st = .join k z) (e : Exn.doJoin bd x w f = .ok x') : Good x x' body w (.go o) h g := by
  have hl : x.c.loc f = .running w := (F.loc.run w f).2 (.inl hp)
  have hs : Has w (x.c.loc f) := by rw [hl]; rfl
  unfold Exn.doJoin at e
  simp only at e
  split at e
  · rename_i h0
    obtain ⟨h1, h2, h3, h4, h5⟩ := passJoin_eq e
    have i1 := (i.tick w).hold (f := f) hs
    have hst : (x.c.fr f).stolen = 0 := by rw [← F.steal f hs.alive]; exact h0
    have hD : g.D f ⊆ (h.tick w).kn w := by
      intro y hy
      rcases (i.tick w).dd f hs.alive y hy with h6 | h6 | ⟨v, c, h6, _⟩
      · exact absurd hst (kj_run i hl (List.ne_nil_of_mem h6))
      · have := (i.tick w).hk f
        rw [hl] at this
        exact this h6
      · exfalso
        have h7 := F.pend h6
        rcases F.run0 w f c hp hst (F.flink v f c h6) with h8 | h8 <;> rw [h7] at h8 <;> cases h8
    have i2 := i1.join hs (upd_same ..) (F.quiet hs.alive) hD
    have hL := i2.lb f hs.alive
    rw [upd_same] at hL
    have i3 := i2.act hs (upd_same ..) (F.quiet hs.alive) (tick_mem h w)
    have i4 := i3.goto (w := w) (q := .run f) (run_np hp) (not_pend (by simp) (by simp))
    have i5 := i4.cong h1 (h2.trans (by rw [← hl]; exact upd_self _ _)) h3 h4 h5
    refine ⟨?_, fun f' hf' => ?_⟩
    · simp only [sync, who, merge, post, hp, hb, if_pos h0]
      exact ⟨_, i5⟩
    · simp only [who, hp, Option.some.injEq] at hf'
      subst hf'
      simp only [sync, merge, hp, hb, if_pos h0]
      exact hL
  · rename_i h0
    cases e
    obtain ⟨i1, hL⟩ := i.begin F hs
    have i4 := i1.goto (w := w) (q := .joinLoad f) (run_np hp) (not_pend (by simp) (by simp))
    refine ⟨?_, fun f' hf' => ?_⟩
    · simp only [sync, who, merge, post, hp, hb, if_neg h0]
      exact ⟨_, i4⟩
    · simp only [who, hp, Option.some.injEq] at hf'
      subst hf'
      simp only [sync, merge, hp, hb, if_neg h0]
      exact hL

theorem destroy_eq {s s' : State σ (Except E V)} {f : Nat} (e : Runtime.destroy s w f = .ok s') :
    s'.nf = s.nf ∧ s'.link = s.link ∧ s'.fr = s.fr := by
  unfold Runtime.destroy at e
  split at e <;> cases e
  exact ⟨rfl, rfl, rfl⟩

theorem good_end {bd : σ → Exn.Act σ V E} (i : I x.c.nf x.c.loc x.c.pc (fun f => (x.c.fr f).stolen) x.c.link h g B) (F : Fx x) {f : Nat} (hp : x.c.pc w = .run f) {r : Except E V}
    (hsy : sync body w ch x h = if x.c.link f = .root then (h.tick w).signal w f else h.tick w) (hm : merge body w ch x x' g = g) (hpo : ∀ g', post body w ch x g' = g'.ended f)
    (e : Exn.doEnd bd x w f r = .ok x') : Good x x' body w ch h g := by
  have hl : x.c.loc f = .running w := (F.loc.run w f).2 (.inl hp)
  have hs : Has w (x.c.loc f) := by rw [hl]; rfl
  obtain ⟨i1, hL⟩ := i.begin F hs
  have hLL := i1.lb f hs.alive
  rw [upd_same] at hLL
  have hw : who w ch x = some f := by simp only [who, hp]
  have hfn : f < x.c.nf := by
    rcases Nat.lt_or_ge f x.c.nf with h1 | h1
    · exact h1
    · have := (F.loc.fresh f).2 h1; rw [hl] at this; cases this
  have hpar := i.par f hfn
  unfold Exn.doEnd at e
  simp only at e
  split at e
  case isFalse => cases e
  split at e
  · rename_i hlk
    split at e
    case h_2 => cases e
    rename_i s1 hd
    obtain ⟨d1, d2, d3⟩ := destroy_eq hd
    split at e <;> cases e
    have hpr : (g.act h.n f).par f = .root := by
      rw [hlk] at hpar
      show g.par f = .root
      cases h1 : g.par f <;> rw [h1] at hpar <;> first | rfl | exact hpar.elim
    have i2 := i1.leave (c := f) (l := .gone) (by rw [hl]; simp) (fun h => h)
    have i3 := i2.signal (f := f) (k := (h.tick w).kn w) (upd_same ..) hLL
    have i4 := i3.goto (w := w) (q := .idle) (run_np hp) (not_pend (by simp) (by simp))
    have i5 := i4.cong (nf' := s1.nf) (link' := s1.link) (stolen' := fun p => (s1.fr p).stolen) d1 rfl rfl (by rw [d3]) d2
    refine ⟨?_, fun f' hf' => ?_⟩
    · rw [hsy, hpo, hw, hm, if_pos hlk]
      simp only [Ord.ended, hpr]
      exact ⟨_, i5⟩
    · rw [hw] at hf'; cases hf'
      rw [hsy, hm, if_pos hlk]; exact hL
  · rename_i p hlk
    split at e
    case isFalse => cases e
    split at e
    case h_2 => cases e
    rename_i s1 _ _ hd
    obtain ⟨d1, d2, d3⟩ := destroy_eq hd
    cases e
    have hpr : (g.act h.n f).par f = .call p := by
      rw [hlk] at hpar
      show g.par f = .call p
      cases h1 : g.par f <;> rw [h1] at hpar <;> first | exact hpar.elim | (cases hpar; rfl)
    have hlp : x.c.loc p = .callwait f := (F.callw p f).2 ⟨hlk, hs.alive⟩
    have hne : p ≠ f := by rintro rfl; rw [hlp] at hl; cases hl
    have hk := i1.hk p
    rw [hlp] at hk
    simp only [HK, upd_same] at hk
    have i2 := i1.move (f := p) (l := .running w) (by rw [hlp]; simp) (by simp) (by rw [hlp]; trivial) hk
      (fun hj => by
        rcases i1.kj p (by rw [hlp]; trivial) hj with h1 | ⟨v, h1⟩ | ⟨v, c, h1, _⟩
        · exact .inl h1
        · rw [hlp] at h1; cases h1
        · rw [hlp] at h1; cases h1) (fun _ _ hc => by cases hc)
    have hs' : Has w (upd x.c.loc p (.running w) p) := by rw [upd_same]; rfl
    have i3 := i2.hold (w := w) (f := p) hs'
    have hLp := i3.lb p hs'.alive
    rw [upd_same] at hLp
    have i4 := i3.setL (w := w) (f := p) (l := (g.act h.n f).L f ++ (g.act h.n f).L p) (d := (g.act h.n f).D p) hs' (upd_same ..) (F.quiet (by rw [hlp]; trivial))
      (fun y hy => (List.mem_append.1 hy).elim (fun h => hLL h) fun h => hLp h) (fun _ h => h)
    rw [upd_self] at i4
    have i5 := i4.leave (c := f) (l := .gone) (by rw [upd_ne _ _ (Ne.symm hne), hl]; simp) (fun h => h)
    have i6 := i5.goto (w := w) (q := .run p) (run_np hp) (not_pend (by simp) (by simp))
    have i7 := fun st => i6.cong (nf' := s1.nf) (loc' := upd (upd x.c.loc f .gone) p (.running w)) (link' := s1.link)
      (stolen' := fun q => (upd x.c.fr p { x.c.fr p with st := st } q).stolen) d1 (upd_comm _ _ _ (Ne.symm hne)) rfl (stolen_upd _ _ rfl) d2
    have hnr : x.c.link f ≠ .root := by rw [hlk]; simp
    refine ⟨?_, fun f' hf' => ?_⟩
    · rw [hsy, hpo, hw, hm, if_neg hnr]
      simp only [Ord.ended, hpr]
      exact ⟨_, i7 _⟩
    · rw [hw] at hf'; cases hf'
      rw [hsy, hm, if_neg hnr]; exact hL
  · rename_i p n hlk
    split at e
    case isFalse => cases e
    split at e
    case h_2 => cases e
    rename_i s1 hd
    obtain ⟨d1, d2, d3⟩ := destroy_eq hd
    cases e
    have hpr : (g.act h.n f).par f = .fork p := by
      rw [hlk] at hpar
      show g.par f = .fork p
      cases h1 : g.par f <;> rw [h1] at hpar <;> first | exact hpar.elim | (cases hpar; rfl)
    have i2 := i1.leave (c := f) (l := .finishing w) (by rw [hl]; simp) (fun h => h)
    have i3 := i2.gotoP (w := w) (p := p) (c := f) (q := .finPop p f) (.inl rfl) hLL (fun p' c' hq => absurd hq (run_np hp p' c'))
    have i4 := i3.setD (w := w) (p := p) (c := f) (l := (g.act h.n f).L f) (by rw [upd_same]; exact .inl rfl) hLL
    have i5 := fun sl => i4.cong (nf' := s1.nf) (link' := s1.link)
      (stolen' := fun q => (upd x.c.fr p { x.c.fr p with slots := sl } q).stolen) d1 rfl rfl (stolen_upd _ _ rfl) d2
    have hnr : x.c.link f ≠ .root := by rw [hlk]; simp
    refine ⟨?_, fun f' hf' => ?_⟩
    · rw [hsy, hpo, hw, hm, if_neg hnr]
      simp only [Ord.ended, hpr]
      exact ⟨_, i5 _⟩
    · rw [hw] at hf'; cases hf'
      rw [hsy, hm, if_neg hnr]; exact hL

theorem failed_eq {f : Nat} {c z : σ} {b : Bool} (e : Exn.failed x w f c z b = .ok x') :
    x'.c.nf = x.c.nf ∧ x'.c.loc = x.c.loc ∧ x'.c.pc = x.c.pc ∧ (fun p => (x'.c.fr p).stolen) = (fun p => (x.c.fr p).stolen) ∧ x'.c.link = x.c.link := by
  unfold Exn.failed at e
  cases b <;> simp only [if_true, if_false, Bool.false_eq_true] at e
  · cases e; exact ⟨rfl, rfl, rfl, goOn_stolen _ _ _, rfl⟩
  · split at e <;> cases e
    exact ⟨rfl, rfl, rfl, goOn_stolen _ _ _, rfl⟩

/-- Every step of a task. -/
theorem good_run [Inhabited E] (i : I x.c.nf x.c.loc x.c.pc (fun f => (x.c.fr f).stolen) x.c.link h g B) (F : Fx x) {f : Nat} (hp : x.c.pc w = .run f) (hn : Mem.NoAcc body (x.c.fr f).st)
    (e : Exn.run (Mem.ctl body) x w f ch = .ok x') : Good x x' body w ch h g := by
  unfold Exn.run at e
  cases ch with
  | go o =>
    cases hb : body (x.c.fr f).st with
    | ret v =>
      simp only [Mem.ctl, hb] at e
      exact good_end i F hp (by simp only [sync, hp, hb]) (by simp only [merge, hp, hb]) (fun g' => by simp only [post, hp, hb]) e
    | throw v =>
      simp only [Mem.ctl, hb] at e
      exact good_end i F hp (by simp only [sync, hp, hb]) (by simp only [merge, hp, hb]) (fun g' => by simp only [post, hp, hb]) e
    | fork c k z =>
      simp only [Mem.ctl, hb] at e
      cases e
      exact good_fork i F hp hb
    | call c k z =>
      simp only [Mem.ctl, hb] at e
      cases e
      exact good_call i F hp hb
    | join k z =>
      simp only [Mem.ctl, hb] at e
      exact good_join i F hp hb e
    | switch d k z =>
      simp only [Mem.ctl, hb] at e
      exact good_switch i F hp hb e
    | load l k => exact absurd hb (hn.1 l k)
    | store l d k => exact absurd hb (hn.2 l d k)
  | fail y b =>
    cases hb : body (x.c.fr f).st with
    | fork c k z =>
      simp only [Mem.ctl, hb] at e
      obtain ⟨h1, h2, h3, h4, h5⟩ := failed_eq e
      exact good_stay i F hp (by simp only [sync, hp]) (by simp only [merge, hp]) (fun g' => by simp only [post, hp]) h1 h2 h3 h4 h5
    | call c k z =>
      simp only [Mem.ctl, hb] at e
      obtain ⟨h1, h2, h3, h4, h5⟩ := failed_eq e
      exact good_stay i F hp (by simp only [sync, hp]) (by simp only [merge, hp]) (fun g' => by simp only [post, hp]) h1 h2 h3 h4 h5
    | switch d k z =>
      simp only [Mem.ctl, hb] at e
      cases e
      exact good_stay i F hp (by simp only [sync, hp]) (by simp only [merge, hp]) (fun g' => by simp only [post, hp]) rfl rfl rfl (goOn_stolen _ _ _) rfl
    | load l k => exact absurd hb (hn.1 l k)
    | store l d k => exact absurd hb (hn.2 l d k)
    | _ => simp only [Mem.ctl, hb] at e; cases e
  | ready =>
    cases hb : body (x.c.fr f).st with
    | switch d k z =>
      simp only [Mem.ctl, hb] at e
      cases e
      exact good_stay i F hp (by simp only [sync, hp]) (by simp only [merge, hp]) (fun g' => by simp only [post, hp]) rfl rfl rfl (goOn_stolen _ _ _) rfl
    | load l k => exact absurd hb (hn.1 l k)
    | store l d k => exact absurd hb (hn.2 l d k)
    | _ => simp only [Mem.ctl, hb] at e; cases e

/-- Every step of the runtime. -/
theorem good_control [Inhabited E] (i : I x.c.nf x.c.loc x.c.pc (fun f => (x.c.fr f).stolen) x.c.link h g B) (F : Fx x) (hf : Few x.c)
    (hn : ∀ f, x.c.pc w = .run f → Mem.NoAcc body (x.c.fr f).st) (e : Exn.step (Mem.ctl body) w ch x = .ok x') : Good x x' body w ch h g := by
  unfold Exn.step at e
  split at e
  · rename_i hp
    split at e
    · exact good_take i F hp e
    · exact good_steal i F hp e
    · cases e
  · rename_i hp; exact good_run i F hp (hn _ hp) e
  · rename_i hp; exact good_joinLoad i F hp e
  · rename_i hp; exact good_joinSub i F hp e
  · rename_i hp; exact good_joinTake i F hp e
  · rename_i hp
    split at e
    · rename_i hq; exact good_finPop0 i F hp hq e
    · rename_i hq; exact good_finPop i F hp hq e
  · rename_i hp; exact good_finDec i F hf hp e
  · rename_i hp; exact good_finWin i F hp e
  · rename_i hp; exact good_finLose i hp e
  · rename_i hp; exact good_selfSteal i F hp e
  · rename_i hp; exact good_stole i F hp e
  · rename_i hp; exact good_switchRel i hp e

/-- Every step of a worker. -/
theorem good_step [Inhabited E] [DecidableEq L] {s s' : MS σ V E L} (i : I s.x.c.nf s.x.c.loc s.x.c.pc (fun f => (s.x.c.fr f).stolen) s.x.c.link h g B) (F : Fx s.x) (hf : Few s.x.c)
    (e : Mem.step body w ch s = .ok s') : Good s.x s'.x body w ch h g := by
  have hc : (∀ f, s.x.c.pc w = .run f → Mem.NoAcc body (s.x.c.fr f).st) → Mem.control body w ch s = .ok s' → Good s.x s'.x body w ch h g := by
    intro hn e
    unfold Mem.control at e
    cases hx : Exn.step (Mem.ctl body) w ch s.x with
    | ok x => rw [hx] at e; cases e; exact good_control i F hf hn hx
    | no => rw [hx] at e; cases e
    | ub => rw [hx] at e; cases e
  unfold Mem.step at e
  split at e
  · rename_i f hp
    split at e
    · rename_i l k hb
      cases e
      exact good_stay i F hp (by cases ch <;> simp only [sync, hp, hb]) (by cases ch <;> simp only [merge, hp, hb]) (fun g' => by cases ch <;> simp only [post, hp, hb]) rfl rfl rfl (goOn_stolen _ _ _) rfl
    · rename_i l d k hb
      cases e
      exact good_stay i F hp (by cases ch <;> simp only [sync, hp, hb]) (by cases ch <;> simp only [merge, hp, hb]) (fun g' => by cases ch <;> simp only [post, hp, hb]) rfl rfl rfl (goOn_stolen _ _ _) rfl
    · rename_i hn1 hn2
      exact hc (fun f' hf' => by rw [hp] at hf'; cases hf'; exact ⟨fun l k h => hn1 l k h, fun l d k h => hn2 l d k h⟩) e
  · rename_i hnr
    exact hc (fun f' hf' => absurd hf' (hnr f')) e

end Verif.Hb
