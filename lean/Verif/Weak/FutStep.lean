import Verif.Weak.FutInv

/-! C53: every step keeps the invariant. -/
namespace Verif.Weak.Fut

/-- There is a first message everywhere, and the one of `sub` is not the submission. -/
def Z (m : Mem Loc) : Prop := (∀ l, 0 < m.len l) ∧ m.val .sub 0 = 0

theorem Z.append {m : Mem Loc} (h : Z m) (l : Loc) (v : Int) (w : Loc → Nat) : Z (m.append l v w) := by
  constructor
  · intro x
    rw [Mem.len_append]
    have := h.1 x
    split <;> omega
  · rw [Mem.val_append, if_neg, h.2]
    intro e
    have := h.1 .sub
    have := e.2
    grind

/-- The values. -/
structure V (s : St) : Prop where
  w0 : tph s.tpc ≤ 1 → s.wrote = []
  w1 : 2 ≤ tph s.tpc → s.wrote = [s.val .res]
  o0 : s.status ≠ .retrieved → s.out = []
  o1 : s.status = .retrieved → ∃ n, s.out = s.wrote.map some ++ List.replicate n none
  z : Z s.mem

structure G (late : Bool) (s : St) : Prop where
  inv : Inv late s
  vals : V s

theorem ab_wr (s : St) (t : Th) (l : Loc) (v : Int) (h : l ≠ .sem ∧ l ≠ .refs ∧ l ≠ .sub) : ab (s.write t l v) = (ab s).wr t l v :=
  ab_write s t l v h

theorem ab_touch (s : St) (t : Th) : ab (s.touch t) = (ab s).wr t (match t with | .U => .ua | .T => .ta) 0 := by
  cases t
  · exact ab_wr s .U .ua 0 (by decide)
  · exact ab_wr s .T .ta 0 (by decide)

theorem ab_un (s : St) (t : Th) : ab (s.unref t) = (ab s).un t := by
  have := ab_rmw s t (s.val .refs - 1)
  unfold St.unref
  dsimp only
  split
  · exact this
  · exact this

theorem val_write (s : St) (t : Th) (l : Loc) (v : Int) (h : l ≠ .sem ∧ l ≠ .refs ∧ l ≠ .sub) (x : Loc) : (s.write t l v).val x = if x = l then v else s.val x := by
  have := congrArg Ab.vl (ab_wr s t l v h)
  have := congrFun this x
  cases t <;> exact this

variable {late ub : Bool} {u t w st fr : Nat}

theorem touchU {s : St} (h : I late (ab s) u t w st s.freed s.ub) (hd : u ≠ 6) :
    I late (ab (s.touch .U)) u t w st s.freed (s.touch .U).ub := by
  have e : (s.touch .U).ub = s.ub := by
    have := h.hfr
    rw [if_neg (by omega)] at this
    simp [St.touch, this]
  rw [ab_touch, e]
  exact h.touchU hd

theorem touchT {s : St} (h : I late (ab s) u t w st s.freed s.ub) (hd : t < 5) :
    I late (ab (s.touch .T)) u t w st s.freed (s.touch .T).ub := by
  have e : (s.touch .T).ub = s.ub := by
    have := h.hfr
    rw [if_neg (by omega)] at this
    simp [St.touch, this]
  rw [ab_touch, e]
  exact h.touchT hd

theorem knows_iff {s : St} {t : Th} {l : Loc} (hp : 0 < (ab s).n l) : s.knows t l ↔ (ab s).c t l + 1 = (ab s).n l := by
  unfold St.knows Mem.last
  change 0 < s.mem.len l at hp
  cases t
  · show _ ↔ (s.tv .U).cur l + 1 = s.mem.len l
    omega
  · show _ ↔ (s.tv .T).cur l + 1 = s.mem.len l
    omega

theorem unrefU {s : St} (h : I late (ab s) 5 t w st s.freed s.ub) : I late (ab (s.unref .U)) 6 t w st (s.unref .U).freed (s.unref .U).ub := by
  have k := h.unU
  rw [ab_un]
  by_cases e : s.val .refs = 1
  · have e' : (ab s).vl .refs = 1 := e
    rw [if_pos e'] at k
    have e1 : (s.unref .U).freed = s.freed + 1 := by unfold St.unref; simp [e]
    have e2 : (s.unref .U).ub = s.ub := by
      have t5 : 5 ≤ t := by have := h.href; rw [e'] at this; grind
      have z := ab_rmw s .U (s.val .refs - 1)
      have z1 : ((s.rmw .U .refs (s.val .refs - 1)).tv .U).cur = up (fun x => max ((ab s).cu x) ((ab s).rv x)) .refs ((ab s).n .refs) := congrArg Ab.cu z
      have z2 : (s.rmw .U .refs (s.val .refs - 1)).mem.len = up (ab s).n .refs ((ab s).n .refs + 1) := congrArg Ab.n z
      have a1 := h.uua; have a2 := h.hr .ua; have a3 := h.rta t5 (by decide); have a4 := h.hu .ta; have a5 := h.rtr t5 (by decide); have a6 := h.hu .res
      unfold St.unref
      simp only [e, if_true]
      rw [e] at z1 z2
      simp only [Mem.last, z1, z2, up, reduceCtorEq, if_false]
      rw [decide_eq_true (by omega), decide_eq_true (by omega), decide_eq_true (by omega)]
      simp
    rw [e1, e2]
    exact k
  · have e' : ¬ (ab s).vl .refs = 1 := e
    rw [if_neg e'] at k
    have e1 : (s.unref .U).freed = s.freed := by unfold St.unref; simp only [e, if_false]; rfl
    have e2 : (s.unref .U).ub = s.ub := by unfold St.unref; simp only [e, if_false]; rfl
    rw [e1, e2]
    exact k

theorem unrefT {s : St} (h : I late (ab s) u 4 w st s.freed s.ub) : I late (ab (s.unref .T)) u 5 w st (s.unref .T).freed (s.unref .T).ub := by
  have k := h.unT
  rw [ab_un]
  by_cases e : s.val .refs = 1
  · have e' : (ab s).vl .refs = 1 := e
    rw [if_pos e'] at k
    have e1 : (s.unref .T).freed = s.freed + 1 := by unfold St.unref; simp [e]
    have e2 : (s.unref .T).ub = s.ub := by
      have u6 : u = 6 := by have := h.href; rw [e'] at this; grind
      have z := ab_rmw s .T (s.val .refs - 1)
      have z1 : ((s.rmw .T .refs (s.val .refs - 1)).tv .T).cur = up (fun x => max ((ab s).ct x) ((ab s).rv x)) .refs ((ab s).n .refs) := congrArg Ab.ct z
      have z2 : (s.rmw .T .refs (s.val .refs - 1)).mem.len = up (ab s).n .refs ((ab s).n .refs + 1) := congrArg Ab.n z
      have a1 := h.tta; have a2 := h.hr .ta; have a3 := h.rua u6 (by decide); have a4 := h.ht .ua; have a5 := h.tre (by decide); have a6 := h.hr .res
      unfold St.unref
      simp only [e, if_true]
      rw [e] at z1 z2
      simp only [Mem.last, z1, z2, up, reduceCtorEq, if_false]
      rw [decide_eq_true (by omega), decide_eq_true (by omega), decide_eq_true (by omega)]
      simp
    rw [e1, e2]
    exact k
  · have e' : ¬ (ab s).vl .refs = 1 := e
    rw [if_neg e'] at k
    have e1 : (s.unref .T).freed = s.freed := by unfold St.unref; simp only [e, if_false]; rfl
    have e2 : (s.unref .T).ub = s.ub := by unfold St.unref; simp only [e, if_false]; rfl
    rw [e1, e2]
    exact k

theorem sph_zero {x : Status} : sph x = 0 ↔ x = .noWait := by cases x <;> simp [sph]

theorem Inv.step {s s' : St} (h : Inv late s) (hz : s.mem.val .sub 0 = 0) (st : Step late s s') : Inv late s' := by
  unfold Inv at h
  cases st with
  | prep v hp => rw [hp] at h; unfold Inv; show I late (ab (s.write .U .cd v)) (uph s.upc) _ _ _ _ _; rw [hp, ab_wr _ _ _ _ (by decide)]; exact I.prep h v
  | construct hp =>
    rw [hp] at h
    have h1 := I.construct h
    rw [← ab_wr s .U .res 0 (by decide)] at h1
    have := touchU (s := s.write .U .res 0) h1 (by decide)
    exact this
  | submit hp =>
    rw [hp] at h
    have h1 := I.submit h
    rw [← ab_publish s 1 (by have := h.hsub; simpa [uph] using this)] at h1
    exact h1
  | wait hp =>
    rw [hp] at h
    have h1 := touchU h (by decide)
    by_cases e : s.status = .noWait
    · rw [if_pos e]; rw [e] at h1
      have := I.acq h1
      unfold Inv; show I late _ _ _ _ (sph s.status) _ _
      rw [e]; exact this
    · rw [if_neg e]; exact h1
  | get hp =>
    rw [hp] at h
    have h1 := touchU h (by decide)
    by_cases e : s.status = .noWait
    · rw [if_pos e]; rw [e] at h1
      have := I.acq h1
      unfold Inv; show I late _ _ _ _ (sph s.status) _ _
      rw [e]; exact this
    · rw [if_neg e]; exact I.getting h1 (by rwa [Ne, sph_zero])
  | destroy hp =>
    rw [hp] at h
    have h1 := touchU h (by decide)
    by_cases e : s.status = .noWait
    · rw [if_pos e]; rw [e] at h1
      have := I.acq h1
      unfold Inv; show I late _ _ _ _ (sph s.status) _ _
      rw [e]; exact this
    · rw [if_neg e]; exact I.drop h1
  | detach hp => rw [hp] at h; exact I.drop h
  | @acquire k hp hv =>
    rw [hp] at h
    obtain ⟨w, e⟩ := ab_rmwAcq s 0
    have s0 := (h.hacq rfl).2
    cases k with
    | wait =>
      have h1 := I.acquire (u' := 2) (st' := 1) (sv := w) h hv (by simp)
      rw [← e] at h1
      have := touchU (s := s.rmwAcq .U .sem 0) h1 (by decide)
      exact this
    | get =>
      have h1 := I.acquire (u' := 4) (st' := 1) (sv := w) h hv (by simp)
      rw [← e] at h1
      have := touchU (s := s.rmwAcq .U .sem 0) h1 (by decide)
      exact this
    | destroy =>
      have h1 := I.acquire (u' := 5) (st' := 0) (sv := w) h hv (by simp)
      rw [← e] at h1
      have := touchU (s := s.rmwAcq .U .sem 0) h1 (by decide)
      unfold Inv
      show I late _ _ _ _ (sph s.status) _ _
      rw [s0]
      exact this
  | empty hp hs =>
    rw [hp] at h
    exact I.got (touchU h (by decide)) (by show sph s.status ≠ 0; rw [hs]; decide)
  | take hp hs hk =>
    rw [hp] at h
    exact I.got (st' := 2) (touchU h (by decide)) (by decide)
  | takeRace hp hs hk =>
    rw [hp] at h
    exact absurd ((knows_iff (t := .U) (h.pos .res)).2 (h.wr (h.hget rfl).1)) hk
  | drop hp =>
    rw [hp] at h
    have := unrefU h
    unfold Inv
    have e1 : (s.unref .U).tpc = s.tpc := by unfold St.unref; dsimp only; split <;> rfl
    have e2 : (s.unref .U).waited = s.waited := by unfold St.unref; dsimp only; split <;> rfl
    have e3 : (s.unref .U).status = s.status := by unfold St.unref; dsimp only; split <;> rfl
    show I late (ab (s.unref .U)) 6 (tph (s.unref .U).tpc) (bn (s.unref .U).waited) (sph (s.unref .U).status) _ _
    rw [e1, e2, e3]; exact this
  | reuse v hw _ _ =>
    rw [hw] at h
    have := I.reuse h v
    rw [← ab_wr s .U .cd v (by decide)] at this
    unfold Inv
    show I late _ _ _ (bn s.waited) _ _ _
    rw [hw]; exact this
  | reuseRace hw hk =>
    rw [hw] at h
    cases late with
    | false => exact absurd ⟨(knows_iff (h.pos _)).2 h.ucd, (knows_iff (h.pos _)).2 (h.wtr rfl rfl)⟩ hk
    | true => unfold Inv; show I true _ _ _ (bn s.waited) _ _ _; rw [hw]; exact I.bad h
  | see => exact h
  | seeRace hw hk =>
    rw [hw] at h
    exact absurd ((knows_iff (t := .U) (h.pos .eff)).2 (h.we rfl)) hk
  | start k hp hc hv =>
    rw [hp] at h
    have hk : k < s.mem.len .sub := hc.2
    have hsub : s.mem.len .sub = _ := h.hsub
    have k0 : k ≠ 0 := by intro e; rw [e, hz] at hv; exact absurd hv (by decide)
    by_cases h2 : 2 ≤ uph s.upc
    · rw [if_pos h2] at hsub
      have k1 : k = 1 := by omega
      subst k1
      have := I.start h h2
      rw [← ab_look] at this
      exact this
    · rw [if_neg h2] at hsub
      omega
  | use hp hk => 
    have := I.use h (by rw [hp]; exact .inl rfl)
    rw [← ab_wr s .T .tr 0 (by decide)] at this
    exact this
  | useRace hp hk =>
    rw [hp] at h
    have h0 : bn s.waited = 0 := by
      have a := h.hw; have b := h.w3
      have : bn s.waited ≠ 1 := fun e => absurd (b e) (by decide)
      omega
    exact absurd ((knows_iff (t := .T) (h.pos .cd)).2 (h.tcd (by decide) h0)) hk
  | work v hp =>
    rw [hp] at h
    have := I.work h v
    rw [← ab_wr s .T .eff v (by decide)] at this
    unfold Inv; show I late _ _ (tph s.tpc) _ _ _ _
    rw [hp]; exact this
  | ret v hp hk =>
    rw [hp] at h
    have h1 := I.ret h v
    rw [← ab_wr s .T .res v (by decide)] at h1
    have := touchT (s := s.write .T .res v) h1 (by decide)
    exact this
  | retRace hp hk =>
    rw [hp] at h
    exact absurd ((knows_iff (t := .T) (h.pos .res)).2 (h.tre (by decide))) hk
  | release hp =>
    rw [hp] at h
    have h1 := I.release h
    rw [← ab_rmwRel s] at h1
    have := touchT (s := s.rmwRel .T .sem (s.val .sem + 1)) h1 (by decide)
    exact this
  | notify hp =>
    rw [hp] at h
    exact I.notify (touchT h (by decide))
  | unref hp =>
    rw [hp] at h
    have := unrefT h
    unfold Inv
    have e1 : (s.unref .T).upc = s.upc := by unfold St.unref; dsimp only; split <;> rfl
    have e2 : (s.unref .T).waited = s.waited := by unfold St.unref; dsimp only; split <;> rfl
    have e3 : (s.unref .T).status = s.status := by unfold St.unref; dsimp only; split <;> rfl
    show I late (ab (s.unref .T)) (uph (s.unref .T).upc) 5 (bn (s.unref .T).waited) (sph (s.unref .T).status) _ _
    rw [e1, e2, e3]; exact this
  | useLate hl hp hk =>
    have := I.use h (.inr hl)
    rw [← ab_wr s .T .tr 0 (by decide)] at this
    exact this
  | useLateRace hl hp hk => subst hl; exact I.bad h
  | params hp => rw [hp] at h; exact I.params h

/-! ### Values -/

theorem val_unref (s : St) (t : Th) (x : Loc) (h : x ≠ .refs) : (s.unref t).val x = s.val x := by
  have := congrFun (congrArg Ab.vl (ab_un s t)) x
  cases t <;> simpa [ab, Ab.un, Ab.setc, upv, h] using this

theorem val_touch (s : St) (t : Th) : (s.touch t).val .res = s.val .res := by
  have := congrFun (congrArg Ab.vl (ab_touch s t)) .res
  cases t <;> simpa [ab, Ab.wr, Ab.setc, upv] using this

theorem Z.touch {s : St} (h : Z s.mem) (t : Th) : Z (s.touch t).mem := h.append _ _ _

theorem Z.unref {s : St} (h : Z s.mem) (t : Th) : Z (s.unref t).mem := by
  unfold St.unref
  dsimp only
  split <;> exact h.append _ _ _

theorem V.init : V .init := by
  refine ⟨fun _ => rfl, fun h => absurd h (by decide), fun _ => rfl, fun h => absurd h (by decide), fun l => ?_, rfl⟩
  cases l <;> decide

/-- Nothing that matters changes. -/
theorem V.same {s s' : St} (h : V s) (e1 : tph s'.tpc ≤ 1 ↔ tph s.tpc ≤ 1) (e2 : s'.wrote = s.wrote) (e3 : s'.val .res = s.val .res)
    (e4 : s'.status = .retrieved ↔ s.status = .retrieved) (e5 : s'.out = s.out) (z : Z s'.mem) : V s' := by
  refine ⟨?_, ?_, ?_, ?_, z⟩
  · rw [e1, e2]; exact h.w0
  · intro h2; rw [e2, e3]; exact h.w1 (by omega)
  · intro h2; rw [e5]; exact h.o0 (by rwa [Ne, ← e4])
  · intro h2; rw [e5, e2]; exact h.o1 (by rwa [← e4])

theorem V.step {s s' : St} (h : V s) (hi : Inv late s) (st : Step late s s') : V s' := by
  have wr : ∀ (t : Th) (l : Loc) (v : Int), (l ≠ .sem ∧ l ≠ .refs ∧ l ≠ .sub) → l ≠ .res → (s.write t l v).val .res = s.val .res := by
    intro t l v h1 h2; rw [val_write s t l v h1, if_neg (Ne.symm h2)]
  have ur : ∀ t, (s.unref t).wrote = s.wrote ∧ (s.unref t).status = s.status ∧ (s.unref t).out = s.out ∧ (s.unref t).tpc = s.tpc := by
    intro t; unfold St.unref; dsimp only; split <;> exact ⟨rfl, rfl, rfl, rfl⟩
  have tu := val_touch s .U
  cases st with
  | prep v hp => exact h.same Iff.rfl rfl (wr _ _ _ (by decide) (by decide)) Iff.rfl rfl (h.z.append _ _ _)
  | construct hp =>
    have ht : tph s.tpc = 0 := by
      have := hi.born; rw [hp] at this
      exact Nat.eq_zero_of_not_pos fun h => absurd (this h) (by decide)
    refine ⟨fun _ => h.w0 (by omega), fun h2 => ?_, h.o0, h.o1, (Z.touch (s := s.write .U .res 0) (h.z.append _ _ _) .U)⟩
    change 2 ≤ tph s.tpc at h2
    omega
  | submit hp => exact h.same Iff.rfl rfl (congrFun (congrArg Ab.vl (ab_publish s 1 (by have := hi.hsub; rw [hp] at this; simpa [uph] using this))) .res) Iff.rfl rfl (h.z.append _ _ _)
  | wait hp => exact h.same Iff.rfl rfl tu Iff.rfl rfl (h.z.touch .U)
  | get hp => exact h.same Iff.rfl rfl tu Iff.rfl rfl (h.z.touch .U)
  | destroy hp => exact h.same Iff.rfl rfl tu Iff.rfl rfl (h.z.touch .U)
  | detach hp => exact h.same Iff.rfl rfl rfl Iff.rfl rfl h.z
  | @acquire k hp hv =>
    have s0 : s.status = .noWait := by
      have := hi.hacq; rw [hp] at this; exact sph_zero.1 (this rfl).2
    obtain ⟨w, e⟩ := ab_rmwAcq s 0
    refine h.same Iff.rfl rfl ?_ ?_ rfl (Z.touch (s := s.rmwAcq .U .sem 0) (h.z.append _ _ _) .U)
    · exact (val_touch (s.rmwAcq .U .sem 0) .U).trans (congrFun (congrArg Ab.vl e) .res)
    · rw [s0]
      cases k <;> simp
  | empty hp hs =>
    obtain ⟨n, e⟩ := h.o1 hs
    refine ⟨h.w0, fun h2 => ?_, fun h2 => absurd hs h2, fun _ => ⟨n + 1, ?_⟩, h.z.touch .U⟩
    · show s.wrote = [(s.touch .U).val .res]
      rw [tu]; exact h.w1 h2
    · show s.out ++ [none] = s.wrote.map some ++ _
      rw [e, List.append_assoc, ← List.replicate_succ']
  | take hp hs hk =>
    have t3 : 2 ≤ tph s.tpc := by
      have a := hi.hget; rw [hp] at a
      have := hi.w3 (a rfl).1
      omega
    refine ⟨h.w0, fun h2 => ?_, fun h2 => absurd rfl h2, fun _ => ⟨0, ?_⟩, h.z.touch .U⟩
    · show s.wrote = [(s.touch .U).val .res]
      rw [tu]; exact h.w1 t3
    · show s.out ++ [some (s.val .res)] = s.wrote.map some ++ List.replicate 0 none
      rw [h.o0 hs, h.w1 t3]; rfl
  | takeRace => exact h.same Iff.rfl rfl rfl Iff.rfl rfl h.z
  | drop hp =>
    have e := ur .U
    exact h.same (by show tph (s.unref .U).tpc ≤ 1 ↔ _; rw [e.2.2.2]) e.1 (val_unref s .U .res (by decide)) (by show (s.unref .U).status = _ ↔ _; rw [e.2.1]) (by show (s.unref .U).out = _; rw [e.2.2.1]) (h.z.unref _)
  | reuse v => exact h.same Iff.rfl rfl (wr _ _ _ (by decide) (by decide)) Iff.rfl rfl (h.z.append _ _ _)
  | reuseRace => exact h.same Iff.rfl rfl rfl Iff.rfl rfl h.z
  | see => exact h
  | seeRace => exact h.same Iff.rfl rfl rfl Iff.rfl rfl h.z
  | start k hp => exact h.same (by rw [hp]; show 1 ≤ 1 ↔ 0 ≤ 1; omega) rfl rfl Iff.rfl rfl h.z
  | use => exact h.same Iff.rfl rfl (wr _ _ _ (by decide) (by decide)) Iff.rfl rfl (h.z.append _ _ _)
  | useRace => exact h.same Iff.rfl rfl rfl Iff.rfl rfl h.z
  | work => exact h.same Iff.rfl rfl (wr _ _ _ (by decide) (by decide)) Iff.rfl rfl (h.z.append _ _ _)
  | ret v hp hk =>
    have w0 := h.w0 (by rw [hp]; decide)
    have ns : s.status ≠ .retrieved := by
      intro e
      have := hi.w3 (hi.hst (by rw [e]; decide))
      rw [hp] at this
      exact absurd this (by decide)
    refine ⟨fun h2 => absurd h2 (by show ¬ 2 ≤ 1; omega), fun _ => ?_, h.o0, fun h2 => absurd h2 ns, (Z.touch (s := s.write .T .res v) (h.z.append _ _ _) .T)⟩
    show s.wrote ++ [v] = [((s.write .T .res v).touch .T).val .res]
    rw [w0, val_touch, val_write s .T .res v (by decide), if_pos rfl]; rfl
  | retRace => exact h.same Iff.rfl rfl rfl Iff.rfl rfl h.z
  | release hp =>
    refine h.same (by rw [hp]; show 3 ≤ 1 ↔ 2 ≤ 1; omega) rfl ?_ Iff.rfl rfl (Z.touch (s := s.rmwRel .T .sem (s.val .sem + 1)) (h.z.append _ _ _) .T)
    exact (val_touch (s.rmwRel .T .sem (s.val .sem + 1)) .T).trans (congrFun (congrArg Ab.vl (ab_rmwRel s _)) .res)
  | notify hp => exact h.same (by rw [hp]; show 4 ≤ 1 ↔ 3 ≤ 1; omega) rfl (val_touch s .T) Iff.rfl rfl (h.z.touch .T)
  | unref hp =>
    have e := ur .T
    exact h.same (by rw [hp]; show 5 ≤ 1 ↔ 4 ≤ 1; omega) e.1 (val_unref s .T .res (by decide)) (by show (s.unref .T).status = _ ↔ _; rw [e.2.1]) (by show (s.unref .T).out = _; rw [e.2.2.1]) (h.z.unref _)
  | useLate => exact h.same Iff.rfl rfl (wr _ _ _ (by decide) (by decide)) Iff.rfl rfl (h.z.append _ _ _)
  | useLateRace => exact h.same Iff.rfl rfl rfl Iff.rfl rfl h.z
  | params hp => exact h.same (by rw [hp]; show 6 ≤ 1 ↔ 5 ≤ 1; omega) rfl rfl Iff.rfl rfl h.z

theorem Reach.g {s : St} (r : Reach late s) : G late s := by
  induction r with
  | init => exact ⟨Inv.init late, V.init⟩
  | step _ st ih => exact ⟨ih.inv.step ih.vals.z.2 st, ih.vals.step ih.inv st⟩

end Verif.Weak.Fut
