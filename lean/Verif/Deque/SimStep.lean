import Verif.Deque.Sim

namespace Verif.Deque
variable {ι V : Type} [DecidableEq ι]

/-- The owner is not (after the step) deciding about the last item. -/
theorem back_opc {s : St ι V} {pc : OPc V} {e : Option (Ev ι V)} {w' : Option ι}
    (hw : WOk { s with opc := pc } w') (h3 : ∀ b buf, pc ≠ .pop3 b buf) (h4 : ∀ b buf, pc ≠ .pop4 b buf)
    (hstep : ATrans (absOf s none) e { absOf s none with owner := oAbs s none pc }) :
    ∃ w, WOk s w ∧ ATrans (absOf s w) e (absOf { s with opc := pc } w') := by
  have : w' = none := wok_eq_none hw (fun h => notPopping (s := { s with opc := pc }) rfl h3 h4 _ h.1)
  subst this
  refine ⟨none, wok_none s, ?_⟩
  rw [absOf_opc s none pc none rfl]
  exact hstep

theorem back_opc_id {s : St ι V} {pc : OPc V} {w' : Option ι}
    (hw : WOk { s with opc := pc } w') (h3 : ∀ b buf, pc ≠ .pop3 b buf) (h4 : ∀ b buf, pc ≠ .pop4 b buf)
    (h : oAbs s none pc = oAbs s none s.opc) :
    ∃ w, WOk s w ∧ ATrans (absOf s w) none (absOf { s with opc := pc } w') := by
  refine back_opc hw h3 h4 (ATau.of_eq ?_)
  rw [h]; rfl

theorem back_tpc {s : St ι V} {i : ι} {pc : TPc V} {e : Option (Ev ι V)} {w' : Option ι}
    (hw : WOk { s with tpc := setT s.tpc i pc } w')
    (hpc : pc ≠ .st2 s.top ∧ (∀ b, pc ≠ .st3 s.top b) ∧ ∀ v, pc ≠ .st4 s.top v)
    (hstep : ∀ w, WOk s w → w ≠ some i →
      ATrans (absOf s w) e { absOf s w with thief := setT (absOf s w).thief i (tAbs s.top pc) }) :
    ∃ w, WOk s w ∧ ATrans (absOf s w) e (absOf { s with tpc := setT s.tpc i pc } w') := by
  have hne : w' ≠ some i := by
    intro h
    obtain ⟨_, _, h⟩ := hw i h
    simp only [setT_self] at h
    rcases h with h | ⟨_, h⟩ | ⟨_, h⟩
    · exact hpc.1 h
    · exact hpc.2.1 _ h
    · exact hpc.2.2 _ h
  have hok : WOk s w' := by
    intro j hj
    obtain ⟨h1, h2, h3⟩ := hw j hj
    have hji : j ≠ i := fun h => hne (h ▸ hj)
    simp only [setT_ne _ _ hji] at h3
    exact ⟨h1, h2, h3⟩
  refine ⟨w', hok, ?_⟩
  rw [absOf_tpc s w' i pc hne]
  exact hstep w' hok hne

theorem absOf_thief {s : St ι V} {w : Option ι} {i : ι} (h : w ≠ some i) :
    (absOf s w).thief i = tAbs s.top (s.tpc i) := by
  simp [absOf, h]

/-- The thieves whose knowledge of `top` is up to date. -/
def fresh (top : Int) : TPc V → Bool
  | .st1 t | .st2 t | .st3 t _ | .st4 t _ => decide (t = top)
  | _ => false

/-- When `top` moves on, exactly the up-to-date thieves become disturbed. -/
theorem tAbs_succ {s : St ι V} {i : ι} (h : TInv s i) :
    tAbs (s.top + 1) (s.tpc i) = if fresh s.top (s.tpc i) = true then .pend true else tAbs s.top (s.tpc i) := by
  unfold TInv at h
  generalize s.tpc i = p at h ⊢
  have key : ∀ t : Int, t ≤ s.top → (AT.pend (decide (t ≠ s.top + 1)) : AT V) =
      if decide (t = s.top) = true then .pend true else .pend (decide (t ≠ s.top)) := by
    intro t ht
    have h1 : t ≠ s.top + 1 := by omega
    by_cases hts : t = s.top
    · rw [hts]; have : ¬ s.top = s.top + 1 := by omega
      simp [this]
    · simp [hts, h1]
  cases p with
  | idle => rfl
  | ret r => rfl
  | st0 => rfl
  | st1 t => exact key t h.2
  | st2 t => exact key t h.2.1
  | st3 t b => exact key t h.2.1
  | st4 t v => exact key t h.2.1

theorem fresh_pend {top : Int} {p : TPc V} (h : fresh top p = true) : ∃ d, tAbs top p = .pend d := by
  cases p <;> simp_all [tAbs, fresh]

/-- Every step of the deque, seen backwards, is explained by steps of the specification. -/
theorem back_step {maxCap cap0 : Nat} {s s' : St ι V} {e : Option (Ev ι V)} (hi : Inv maxCap cap0 s)
    (hs : Step maxCap s e s') {w' : Option ι} (hw : WOk s' w') : ∃ w, WOk s w ∧ ATrans (absOf s w) e (absOf s' w') := by
  have ho := hi.owner
  have h0 := hi.top0
  cases hs with
  | oinvPush v h =>
    exact back_opc hw (by simp) (by simp) (AStep.oinv (op := .push v) (by simp [absOf, h, oAbs]))
  | oinvPop h =>
    exact back_opc hw (by simp) (by simp) (AStep.oinv (op := .pop) (by simp [absOf, h, oAbs]))
  | oinvSize h =>
    exact back_opc hw (by simp) (by simp) (AStep.oinv (op := .size) (by simp [absOf, h, oAbs]))
  | oret h =>
    exact back_opc hw (by simp) (by simp) (AStep.ores (by simp [absOf, h, oAbs]))
  | push0 h => exact back_opc_id hw (by simp) (by simp) (by simp [h, oAbs])
  | push1 h => exact back_opc_id hw (by simp) (by simp) (by simp [h, oAbs])
  | push2full h _ => exact back_opc_id hw (by simp) (by simp) (by simp [h, oAbs])
  | push2 h _ => exact back_opc_id hw (by simp) (by simp) (by simp [h, oAbs])
  | push3throw h =>
    exact back_opc hw (by simp) (by simp) (.one (AStep.linThrow (by simp [absOf, h, oAbs])))
  | pop0 h => exact back_opc_id hw (by simp) (by simp) (by simp [h, oAbs])
  | pop1 h => exact back_opc_id hw (by simp) (by simp) (by simp [h, oAbs])
  | size0 h => exact back_opc_id hw (by simp) (by simp) (by simp [h, oAbs])
  | @size1 b h =>
    refine back_opc hw (by simp) (by simp) ?_
    have : oAbs s none (.ret (.size (max (b - s.top) 0).toNat)) = .done (.size (absOf s none).q.length) := by
      simp only [OInv, h, St.full] at ho
      simp only [oAbs, absOf, seg, List.length_map, List.length_range]
      congr 2
      omega
    rw [this]
    exact .one (AStep.linSize (by simp [absOf, h, oAbs]))
  | @push3 v b t buf fresh h hm =>
    have : w' = none := wok_eq_none hw (fun hx => notPopping (s := { s with bufs := setB s.bufs (s.cur + 1) ((s.bufs buf).resize fresh b t), garbage := s.garbage + 1, opc := .push4 v b (s.cur + 1), bad := s.bad || !hasSingleBit (2 * (s.bufs buf).cap) || decide (t < 0) || decide (b < t) }) rfl (by simp) (by simp) _ hx.1)
    subst this
    refine ⟨none, wok_none s, ATau.of_eq ?_⟩
    have hne : setB s.bufs (s.cur + 1) ((s.bufs buf).resize fresh b t) s.cur = s.bufs s.cur := if_neg (by omega)
    unfold absOf
    have hit : ∀ i, (s.bufs s.cur).get i = (setB s.bufs (s.cur + 1) ((s.bufs buf).resize fresh b t) s.cur).get i := by
      intro i; rw [hne]
    simp only [oAbs, h]
    congr 1
    exact seg_congr (fun i _ _ => hit i)
  | @push4 v b nb h =>
    simp only [OInv, h, St.full] at ho
    have : w' = none := wok_eq_none hw (fun hx => notPopping (s := { s with cur := nb, opc := .push5 v b nb }) rfl (by simp) (by simp) _ hx.1)
    subst this
    refine ⟨none, wok_none s, ATau.of_eq ?_⟩
    simp only [absOf, oAbs, h, St.item]
    congr 1
    apply seg_congr
    intro i h1 h2
    exact (ho.2.2.2.2 i h1 (by omega)).symm
  | @push5 v b buf h =>
    simp only [OInv, h, St.full] at ho
    obtain ⟨hf, hb, rfl, hc⟩ := ho
    have : w' = none := wok_eq_none hw (fun hx => notPopping (s := { s with bufs := setB s.bufs s.cur ((s.bufs s.cur).set b v), opc := .push6 v b, bad := s.bad || decide (b < 0) }) rfl (by simp) (by simp) _ hx.1)
    subst this
    refine ⟨none, wok_none s, ATau.of_eq ?_⟩
    have hself : setB s.bufs s.cur ((s.bufs s.cur).set b v) s.cur = (s.bufs s.cur).set b v := if_pos rfl
    simp only [absOf, oAbs, h, St.item, hself]
    congr 1
    apply seg_congr
    intro i h1 h2
    simp only [St.cap] at hc
    have hk : ((s.bottom - s.top).toNat : Int) = s.bottom - s.top := by omega
    show (s.bufs s.cur).get i = (setB s.bufs s.cur ((s.bufs s.cur).set b v) s.cur).get i
    rw [hself]
    exact (Buf.get_set_ne (b := s.bufs s.cur) (i := b) (j := i) hi.pow v (by omega) (by omega) (by omega) (by omega) (by omega)).symm
  | @push6 v b h =>
    simp only [OInv, h, St.full] at ho
    obtain ⟨hf, hb, hc, hv⟩ := ho
    have : w' = none := wok_eq_none hw (fun hx => notPopping (s := { s with bottom := b + 1, opc := .ret .pushed }) rfl (by simp) (by simp) _ hx.1)
    subst this
    refine ⟨none, wok_none s, ?_⟩
    have hab : absOf { s with bottom := b + 1, opc := .ret .pushed } none =
        { absOf s none with q := (absOf s none).q ++ [v], owner := .done .pushed } := by
      unfold absOf
      congr 1
      have hk : (b + 1 - s.top).toNat = (s.bottom - s.top).toNat + 1 := by omega
      simp only [hk]
      rw [seg_succ, show s.top + ((s.bottom - s.top).toNat : Int) = b by omega]
      exact congrArg _ (by rw [← hv])
    rw [hab]
    exact .one (AStep.linPush (by simp [absOf, h, oAbs]))
  | @pop2 b buf h =>
    simp only [OInv, h, St.full] at ho
    obtain ⟨hf, hb, rfl⟩ := ho
    refine ⟨none, wok_none s, ?_⟩
    have hpend : (absOf s none).owner = .pend .pop := by simp [absOf, h, oAbs]
    by_cases hlt : b < s.top
    · -- empty
      have : w' = none := wok_eq_none hw (fun hx => by simp only at hx; omega)
      subst this
      refine ATau.of_eq ?_
      unfold absOf
      have e1 : (s.bottom - s.top).toNat = 0 := by omega
      have e2 : (b - s.top).toNat = 0 := by omega
      simp only [e1, e2, seg_zero, h, oAbs, hlt, decide_true, Bool.or_true, if_true]
    · have hq : (absOf s none).q = seg s.item s.top (b - s.top).toNat ++ [s.item b] := by
        simp only [absOf]
        rw [show (s.bottom - s.top).toNat = (b - s.top).toNat + 1 by omega, seg_succ]
        congr 3; omega
      cases w' with
      | none =>
        have hab : absOf { s with bottom := b, opc := .pop3 b s.cur } none =
            { absOf s none with q := seg s.item s.top (b - s.top).toNat, owner := .done (.got (s.item b)) } := by
          unfold absOf
          simp [oAbs, hlt]
        rw [hab]
        exact .one (AStep.linPop hpend hq)
      | some i =>
        obtain ⟨_, h2, h3⟩ := hw i rfl
        simp only at h2
        have e2 : (b - s.top).toNat = 0 := by omega
        have hti : (absOf s none).thief i = .pend false := by
          rw [absOf_thief (by simp)]
          rcases h3 with h3 | ⟨_, h3⟩ | ⟨_, h3⟩ <;> simp only at h3 <;> simp [h3, tAbs]
        have hab : absOf { s with bottom := b, opc := .pop3 b s.cur } (some i) =
            { absOf s none with q := [], thief := setT (absOf s none).thief i (.done (.got (s.item b))) } := by
          unfold absOf
          simp only [e2, seg_zero, oAbs, h, Option.isSome_some, Bool.true_or, if_true]
          congr 1
          funext j
          simp only [setT, Option.some.injEq]
          by_cases hj : j = i
          · subst hj; simp [h2]
          · simp [hj, Ne.symm hj]
        rw [hab]
        refine .one (AStep.linSteal hti ?_)
        rw [hq, e2]; rfl
  | @pop3lt b buf h hlt =>
    simp only [OInv, h] at ho
    obtain ⟨hb, rfl, _, _⟩ := ho
    refine back_opc_id hw (by simp) (by simp) ?_
    have : ¬ b < s.top := by omega
    simp [h, oAbs, this]
  | @pop3eq b buf h heq =>
    refine ⟨w', wok_opc hw (fun _ => ⟨buf, .inl (by rw [h, heq])⟩), ATau.of_eq ?_⟩
    exact astep_owner_id (by simp [h, oAbs])
  | @pop3gt b buf h hgt =>
    simp only [OInv, h] at ho
    refine back_opc hw (by simp) (by simp) (.one (AStep.linPopEmpty ?_ ?_))
    · have : b < s.top := by omega
      simp [absOf, h, oAbs, this]
    · simp only [absOf]
      rw [show (s.bottom - s.top).toNat = 0 by omega]; rfl
  | @pop4fail b buf h hne =>
    simp only [OInv, h] at ho
    refine back_opc hw (by simp) (by simp) (.one (AStep.linPopEmpty ?_ ?_))
    · have : b < s.top := by omega
      simp [absOf, h, oAbs, this]
    · simp only [absOf]
      rw [show (s.bottom - s.top).toNat = 0 by omega]; rfl
  | @pop4ok b buf h heq =>
    simp only [OInv, h] at ho
    obtain ⟨hb, rfl, _, _, _⟩ := ho
    have : w' = none := wok_eq_none hw (fun hx => notPopping (s := { s with top := b + 1, opc := .pop6 b s.cur }) rfl (by simp) (by simp) _ hx.1)
    subst this
    refine ⟨none, wok_none s, ?_⟩
    have hnlt : ¬ b < s.top := by omega
    have hown : (absOf s none).owner = .done (.got (s.item b)) := by simp [absOf, h, oAbs, hnlt]
    refine .head (AStep.noteO (fun i => fresh s.top (s.tpc i)) hown ?_) (ATau.of_eq ?_)
    · intro i hS
      rw [absOf_thief (by simp)]
      exact fresh_pend hS
    · unfold absOf
      have e1 : (s.bottom - s.top).toNat = 0 := by omega
      have e2 : (s.bottom - (b + 1)).toNat = 0 := by omega
      simp only [e1, e2, seg_zero, oAbs, h, reduceCtorEq, if_false, Option.isSome_none, Bool.false_or, hnlt, decide_false]
      congr 1
      funext i
      rw [← heq]
      exact (tAbs_succ (hi.thief i)).symm
  | @pop5 b h =>
    simp only [OInv, h] at ho
    have : w' = none := wok_eq_none hw (fun hx => notPopping (s := { s with bottom := b + 1, opc := .ret .none }) rfl (by simp) (by simp) _ hx.1)
    subst this
    refine ⟨none, wok_none s, ATau.of_eq ?_⟩
    unfold absOf
    have e1 : (s.bottom - s.top).toNat = 0 := by omega
    have e2 : (b + 1 - s.top).toNat = 0 := by omega
    simp only [e1, e2, seg_zero, oAbs, h]
  | @pop6 b buf h =>
    simp only [OInv, h] at ho
    have : w' = none := wok_eq_none hw (fun hx => notPopping (s := { s with bottom := b + 1, opc := .pop7 b buf }) rfl (by simp) (by simp) _ hx.1)
    subst this
    refine ⟨none, wok_none s, ATau.of_eq ?_⟩
    unfold absOf
    have e1 : (s.bottom - s.top).toNat = 0 := by omega
    have e2 : (b + 1 - s.top).toNat = 0 := by omega
    simp only [e1, e2, seg_zero, oAbs, h]
  | @pop7 b buf h =>
    have : w' = none := wok_eq_none hw (fun hx => notPopping (s := { s with opc := .ret (.got ((s.bufs buf).get b)), bad := s.bad || decide (b < 0) }) rfl (by simp) (by simp) _ hx.1)
    subst this
    refine ⟨none, wok_none s, ATau.of_eq ?_⟩
    unfold absOf
    simp only [oAbs, h]
  | @sinv i h =>
    refine back_tpc hw (by simp) (fun w hw hne => AStep.sinv ?_)
    rw [absOf_thief hne, h]; rfl
  | @sret i r h =>
    refine back_tpc hw (by simp) (fun w hw hne => AStep.sres ?_)
    rw [absOf_thief hne, h]; rfl
  | @st0 i h =>
    refine back_tpc hw (by simp) (fun w hw hne => ATau.of_eq ?_)
    have : tAbs s.top (.st1 s.top) = (absOf s w).thief i := by
      rw [absOf_thief hne, h]; simp [tAbs]
    rw [this]
    unfold absOf
    congr 1
    funext j
    by_cases hj : j = i
    · subst hj; simp [setT]
    · simp [setT, hj]
  | @st1 i t h hlt =>
    have ht := hi.thief i
    simp only [TInv, h] at ht
    have hok : WOk s w' := by
      intro j hj
      obtain ⟨h1, h2, h3⟩ := hw j hj
      have hji : j ≠ i := by
        rintro rfl
        simp only [setT_self] at h3
        simp only at h2
        rcases h3 with h3 | ⟨_, h3⟩ | ⟨_, h3⟩
        · injection h3 with h3; omega
        · cases h3
        · cases h3
      simp only [setT_ne _ _ hji] at h3
      exact ⟨h1, h2, h3⟩
    exact ⟨w', hok, ATau.of_eq (absOf_thief_id s w' i _ (by simp [h, tAbs]))⟩
  | @st1empty i t h hlt =>
    have ht := hi.thief i
    simp only [TInv, h] at ht
    refine back_tpc hw (by simp) (fun w hw hne => .one (AStep.linStealEmpty (d := decide (t ≠ s.top)) ?_ ?_))
    · rw [absOf_thief hne, h]; rfl
    · simp only [absOf]
      rw [show (s.bottom - s.top).toNat = 0 by omega]; rfl
  | @st2 i t h =>
    have hok : WOk s w' := by
      intro j hj
      obtain ⟨h1, h2, h3⟩ := hw j hj
      refine ⟨h1, h2, ?_⟩
      by_cases hji : j = i
      · subst hji
        simp only [setT_self] at h3
        rcases h3 with h3 | ⟨_, h3⟩ | ⟨_, h3⟩
        · cases h3
        · injection h3 with h3; left; rw [h, h3]
        · cases h3
      · simpa only [setT_ne _ _ hji] using h3
    exact ⟨w', hok, ATau.of_eq (absOf_thief_id s w' i _ (by simp [h, tAbs]))⟩
  | @st3 i t buf h =>
    have hok : WOk s w' := by
      intro j hj
      obtain ⟨h1, h2, h3⟩ := hw j hj
      refine ⟨h1, h2, ?_⟩
      by_cases hji : j = i
      · subst hji
        simp only [setT_self] at h3
        rcases h3 with h3 | ⟨_, h3⟩ | ⟨_, h3⟩
        · cases h3
        · cases h3
        · injection h3 with h3; right; left; exact ⟨buf, by rw [h, h3]⟩
      · simpa only [setT_ne _ _ hji] using h3
    have := absOf_thief_id s w' i (.st4 t ((s.bufs buf).get t)) (by simp [h, tAbs])
    exact ⟨w', hok, ATau.of_eq this⟩
  | @st4fail i t v h hne =>
    refine back_tpc hw (by simp) (fun w hw hne' => .one (AStep.linStealLost ?_))
    rw [absOf_thief hne', h]; simp [tAbs, Ne.symm hne]
  | @st4ok i t v h heq =>
    have ht := hi.thief i
    simp only [TInv, h] at ht
    obtain ⟨t0, t1, t2, t3⟩ := ht
    have hel := t2 heq.symm
    have hv := t3 heq.symm
    -- nobody can be waiting for item `t + 1`
    have hw0 : w' = none := by
      cases w' with
      | none => rfl
      | some j =>
        obtain ⟨_, _, h3⟩ := hw j rfl
        have htj := hi.thief j
        by_cases hji : j = i
        · subst hji; simp [setT_self] at h3
        · simp only [setT_ne _ _ hji] at h3
          rcases h3 with h3 | ⟨_, h3⟩ | ⟨_, h3⟩ <;> simp only [TInv, h3] at htj <;> omega
    subst hw0
    -- the thieves that learn about it
    let S : ι → Bool := fun j => if j = i then false else fresh s.top (s.tpc j)
    have hthief : ∀ j, j ≠ i → tAbs (t + 1) (s.tpc j) = if S j = true then .pend true else tAbs s.top (s.tpc j) := by
      intro j hj
      simp only [S, if_neg hj]
      rw [← heq]
      exact tAbs_succ (hi.thief j)
    have hS : ∀ j, S j = true → ∃ d, tAbs s.top (s.tpc j) = .pend d := by
      intro j hj
      simp only [S] at hj
      split at hj
      · cases hj
      · exact fresh_pend hj
    have hSi : S i = false := by simp [S]
    by_cases hpop : s.top = s.bottom
    · -- the race for the last item, won by `i`
      have hp : s.popping t := by
        rcases hel with hel | hel
        · omega
        · exact hel.2
      refine ⟨some i, fun j hj => ?_, ?_⟩
      · cases hj
        exact ⟨heq ▸ hp, hpop, .inr (.inr ⟨v, by rw [h, heq]⟩)⟩
      · have hti : (absOf s (some i)).thief i = .done (.got v) := by simp [absOf, hv, heq]
        refine .head (AStep.noteT S i hti ?_) (ATau.of_eq ?_)
        · intro j hj
          have hji : j ≠ i := by rintro rfl; rw [hSi] at hj; cases hj
          rw [absOf_thief (by simp [Ne.symm hji])]
          exact hS j hj
        · unfold absOf
          have e1 : (s.bottom - s.top).toNat = 0 := by omega
          have e2 : (s.bottom - (t + 1)).toNat = 0 := by omega
          simp only [e1, e2, seg_zero]
          obtain ⟨buf, hp | hp⟩ := hp
          all_goals
            have hlt : t < t + 1 := by omega
            simp only [hp, oAbs, Option.isSome_some, Bool.true_or, if_true, Option.isSome_none, Bool.false_or, hlt, decide_true]
            congr 1
            funext j
            by_cases hji : j = i
            · subst hji; simp [setT, hSi, tAbs, hv, heq]
            · simp only [setT, if_neg hji, hthief j hji, Option.some.injEq, reduceCtorEq, if_false, if_neg (Ne.symm hji)]
    · have hlt : t < s.bottom := by
        rcases hel with hel | hel
        · exact hel
        · omega
      refine ⟨none, wok_none s, ?_⟩
      have hti : (absOf s none).thief i = .pend false := by
        rw [absOf_thief (by simp), h]; simp [tAbs, heq]
      have hq : (absOf s none).q = v :: seg s.item (t + 1) (s.bottom - (t + 1)).toNat := by
        simp only [absOf]
        rw [show (s.bottom - s.top).toNat = (s.bottom - (t + 1)).toNat + 1 by omega, seg_cons, hv, heq]
      refine .head (AStep.linSteal hti hq) (.head (AStep.noteT S i (v := v) (by simp [setT]) ?_) (ATau.of_eq ?_))
      · intro j hj
        have hji : j ≠ i := by rintro rfl; rw [hSi] at hj; cases hj
        simp only [setT, if_neg hji]
        rw [absOf_thief (by simp)]
        exact hS j hj
      · unfold absOf
        have hown : oAbs { s with top := t + 1, tpc := setT s.tpc i (.ret (.got v)) } none s.opc = oAbs s none s.opc := by
          generalize hp : s.opc = p at ho
          cases p <;> simp only [oAbs]
          all_goals
            simp only [OInv, hp] at ho
            rename_i b buf
            have a1 : ¬ b < s.top := by omega
            have a2 : ¬ b < t + 1 := by omega
            simp [a1, a2]
        simp only [hown]
        congr 1
        funext j
        by_cases hji : j = i
        · subst hji; simp [setT, hSi, tAbs]
        · simp only [setT, if_neg hji, hthief j hji, reduceCtorEq, if_false]

/-- Every history of the deque is a history of the specification, ending in the corresponding state. -/
theorem sim_reach {maxCap cap : Nat} (hp : ∃ k, cap = 2 ^ k) {h : List (Ev ι V)} {s : St ι V}
    (hr : Reach maxCap cap h s) : ∀ w, WOk s w → AHist h (absOf s w) := by
  induction hr with
  | init b hb =>
    intro w hw
    have : w = none := wok_eq_none hw (fun hx => notPopping (s := St.init b) rfl (by simp [St.init]) (by simp [St.init]) _ hx.1)
    subst this
    have : absOf (St.init b : St ι V) none = AState.init := by
      simp [absOf, St.init, AState.init, oAbs, tAbs, seg]
    rw [this]
    exact .init
  | tau hr hs ih =>
    intro w hw
    obtain ⟨w0, h1, h2⟩ := back_step (inv_reach hp hr) hs hw
    exact (ih w0 h1).taus h2
  | vis hr hs ih =>
    intro w hw
    obtain ⟨w0, h1, h2⟩ := back_step (inv_reach hp hr) hs hw
    exact .vis (ih w0 h1) h2

end Verif.Deque
