import Verif.Deque.Inv

namespace Verif.Deque
variable {ι V : Type} [DecidableEq ι]

theorem oinv_of {s : St ι V} {p : OPc V} (h : s.opc = p) (ho : OInv s) :
    OInv { s with opc := p } := by rw [← h]; exact ho

theorem garb_eq {maxCap cap0 : Nat} {s : St ι V} (hi : Inv maxCap cap0 s) (hn : ∀ v b nb, s.opc ≠ .push4 v b nb) :
    s.garbage = s.cur := by
  have := hi.garb
  generalize s.opc = p at this hn
  cases p <;> first | exact this | exact absurd rfl (hn _ _ _)

/-- A step of the owner that changes only its program counter. -/
theorem inv_opc {maxCap cap0 : Nat} {s : St ι V} {pc : OPc V} (hi : Inv maxCap cap0 s)
    (ho : OInv { s with opc := pc }) (hn : ∀ v b nb, s.opc ≠ .push4 v b nb) (hn' : ∀ v b nb, pc ≠ .push4 v b nb)
    (hp : s.top = s.bottom → s.popping s.top → St.popping { s with opc := pc } s.top) :
    Inv maxCap cap0 { s with opc := pc } := by
  refine ⟨hi.top0, ho, fun i => ?_, hi.pow, ?_, hi.capEq, hi.capMax, ?_, hi.good⟩
  · exact tinv_same (s := s) i rfl rfl (Nat.le_refl _) rfl (fun _ => rfl) (fun _ _ _ => rfl) hp (hi.thief i)
  · have := garb_eq hi hn
    simp only [this]
    cases pc <;> first | rfl | exact absurd rfl (hn' _ _ _)
  · intro v b nb h; exact absurd h (hn' _ _ _)

theorem inv_tpc {maxCap cap0 : Nat} {s : St ι V} {i : ι} {pc : TPc V} (hi : Inv maxCap cap0 s)
    (ht : TInv { s with tpc := setT s.tpc i pc } i) :
    Inv maxCap cap0 { s with tpc := setT s.tpc i pc } := by
  refine ⟨hi.top0, hi.owner, fun j => ?_, hi.pow, hi.garb, hi.capEq, hi.capMax, hi.newMax, hi.good⟩
  by_cases hj : j = i
  · subst hj; exact ht
  · exact tinv_same (s := s) j rfl rfl (Nat.le_refl _) (setT_ne _ _ hj) (fun _ => rfl) (fun _ _ _ => rfl) (fun _ h => h) (hi.thief j)

theorem notPopping {s : St ι V} {p : OPc V} (h : s.opc = p) (h3 : ∀ b buf, p ≠ .pop3 b buf)
    (h4 : ∀ b buf, p ≠ .pop4 b buf) (x : Int) : ¬ s.popping x := by
  rintro ⟨buf, hx | hx⟩
  · exact h3 _ _ (h ▸ hx)
  · exact h4 _ _ (h ▸ hx)

theorem inv_step {maxCap cap0 : Nat} {s s' : St ι V} {e : Option (Ev ι V)} (hi : Inv maxCap cap0 s)
    (hs : Step maxCap s e s') : Inv maxCap cap0 s' := by
  have ho := hi.owner
  have h0 := hi.top0
  cases hs with
  | oinvPush v h =>
    refine inv_opc hi ?_ (by simp [h]) (by simp) (fun _ hp => absurd hp (notPopping h (by simp) (by simp) _))
    simp only [OInv, h, St.full] at ho ⊢; exact ho
  | oinvPop h =>
    refine inv_opc hi ?_ (by simp [h]) (by simp) (fun _ hp => absurd hp (notPopping h (by simp) (by simp) _))
    simp only [OInv, h, St.full] at ho ⊢; exact ho
  | oinvSize h =>
    refine inv_opc hi ?_ (by simp [h]) (by simp) (fun _ hp => absurd hp (notPopping h (by simp) (by simp) _))
    simp only [OInv, h, St.full] at ho ⊢; exact ho
  | oret h =>
    refine inv_opc hi ?_ (by simp [h]) (by simp) (fun _ hp => absurd hp (notPopping h (by simp) (by simp) _))
    simp only [OInv, h, St.full] at ho ⊢; exact ho
  | push0 h =>
    refine inv_opc hi ?_ (by simp [h]) (by simp) (fun _ hp => absurd hp (notPopping h (by simp) (by simp) _))
    simp only [OInv, h, St.full] at ho ⊢; exact ⟨ho, trivial⟩
  | push1 h =>
    refine inv_opc hi ?_ (by simp [h]) (by simp) (fun _ hp => absurd hp (notPopping h (by simp) (by simp) _))
    simp only [OInv, h, St.full] at ho ⊢; simp only [St.cap] at *; omega
  | push2full h hc =>
    refine inv_opc hi ?_ (by simp [h]) (by simp) (fun _ hp => absurd hp (notPopping h (by simp) (by simp) _))
    simp only [OInv, h, St.full] at ho ⊢; exact ⟨ho.1, ho.2.1, ho.2.2.1, ho.2.2.2.1, ho.2.2.2.2, trivial⟩
  | push2 h hc =>
    refine inv_opc hi ?_ (by simp [h]) (by simp) (fun _ hp => absurd hp (notPopping h (by simp) (by simp) _))
    simp only [OInv, h, St.full, St.cap] at ho ⊢; exact ⟨ho.1.1, ho.2.1, trivial, by omega⟩
  | push3throw h =>
    refine inv_opc hi ?_ (by simp [h]) (by simp) (fun _ hp => absurd hp (notPopping h (by simp) (by simp) _))
    simp only [OInv, h, St.full] at ho ⊢; exact ho.1
  | @push3 v b t buf fresh h hm =>
    simp only [OInv, h, St.full] at ho
    obtain ⟨hf, hb, ht0, ht, hbt, rfl⟩ := ho
    have hne : ∀ j, j ≤ s.cur → setB s.bufs (s.cur + 1) ((s.bufs s.cur).resize fresh b t) j = s.bufs j :=
      fun j hj => if_neg (by omega)
    have hself : setB s.bufs (s.cur + 1) ((s.bufs s.cur).resize fresh b t) (s.cur + 1) = (s.bufs s.cur).resize fresh b t :=
      if_pos rfl
    have hg := garb_eq hi (by simp [h])
    refine ⟨h0, ?_, fun i => ?_, ?_, ?_, ?_, ?_, ?_, ?_⟩
    · simp only [OInv, St.full, St.cap, St.item, hne _ (Nat.le_refl _), hself]
      refine ⟨hf, hb, trivial, Buf.resize_cap _ _ _ _, fun i h1 h2 => ?_⟩
      simp only [St.cap] at hbt
      exact Buf.resize_get hi.pow fresh ht0 (by omega) (by omega) (by omega) (by omega)
    · refine tinv_same (s := s) i rfl rfl (Nat.le_refl _) rfl (fun _ => ?_) (fun j hj _ => ?_)
        (fun _ hp => absurd hp (notPopping h (by simp) (by simp) _)) (hi.thief i)
      · simp only [St.item, hne _ (Nat.le_refl _)]
      · simp only [hne _ hj]
    · simpa only [St.cap, hne _ (Nat.le_refl _)] using hi.pow
    · simp [hg, inFlight]
    · simpa only [St.cap, hne _ (Nat.le_refl _)] using hi.capEq
    · simpa only [St.cap, hne _ (Nat.le_refl _)] using hi.capMax
    · intro v' b' nb' heq
      simp only [OPc.push4.injEq] at heq
      obtain ⟨-, -, rfl⟩ := heq
      simp only [hself, Buf.resize_cap]; exact hm
    · obtain ⟨k, hk⟩ := hi.pow
      have : hasSingleBit (2 * (s.bufs s.cur).cap) = true := by
        have := hasSingleBit_pow (k + 1)
        rwa [Nat.pow_succ, Nat.mul_comm, ← hk] at this
      simp only [hi.good, this, Bool.not_true, Bool.or_false, Bool.false_or, Bool.or_eq_false_iff, decide_eq_false_iff_not]
      omega
  | @push4 v b nb h =>
    simp only [OInv, h, St.full] at ho
    obtain ⟨hf, hb, rfl, hc, hit⟩ := ho
    have hm := hi.newMax _ _ _ h
    refine ⟨h0, ?_, fun i => ?_, ?_, ?_, ?_, ?_, ?_, hi.good⟩
    · simp only [OInv, St.cap, hc]
      refine ⟨hf.1, hb, trivial, ?_⟩
      obtain ⟨k, hk⟩ := hi.pow
      have := Nat.two_pow_pos k
      simp only [St.cap] at *
      omega
    · refine tinv_same (s := s) i rfl rfl (by simp) rfl (fun hx => ?_) (fun j hj _ => rfl)
        (fun _ hp => absurd hp (notPopping h (by simp) (by simp) _)) (hi.thief i)
      refine hit _ (by omega) ?_
      rcases hx with hx | hx
      · exact hx
      · exact absurd hx (notPopping h (by simp) (by simp) _)
    · obtain ⟨k, hk⟩ := hi.pow
      exact ⟨k + 1, by simp only [St.cap] at *; rw [hc, hk, Nat.pow_succ, Nat.mul_comm]⟩
    · have := hi.garb; rw [h] at this; exact this
    · have := hi.capEq
      simp only [St.cap] at *; rw [hc, this, Nat.pow_succ]; rw [Nat.mul_comm, Nat.mul_assoc]
    · simp only [St.cap]; omega
    · intro v' b' nb' heq; simp at heq
  | @push5 v b buf h =>
    simp only [OInv, h, St.full] at ho
    obtain ⟨hf, hb, rfl, hc⟩ := ho
    have hself : setB s.bufs s.cur ((s.bufs s.cur).set b v) s.cur = (s.bufs s.cur).set b v := if_pos rfl
    have hcap : ((s.bufs s.cur).set b v).cap = (s.bufs s.cur).cap := rfl
    refine ⟨h0, ?_, fun i => ?_, ?_, garb_eq (s := s) hi (by simp [h]), ?_, ?_, ?_, ?_⟩
    · simp only [OInv, St.cap, St.item, hself, hcap]
      exact ⟨hf, hb, hc, Buf.get_set_self _ _ _⟩
    · have hne : ∀ j, s.top < s.bottom ∨ s.popping s.top →
          (setB s.bufs s.cur ((s.bufs s.cur).set b v) j).get s.top = (s.bufs j).get s.top := by
        intro j hx
        have hx : s.top < s.bottom := hx.resolve_right (notPopping h (by simp) (by simp) _)
        by_cases hj : j = s.cur
        · subst hj; rw [hself]
          simp only [St.cap] at hc
          exact Buf.get_set_ne hi.pow _ (by omega) h0 (by omega) (by omega) (by omega)
        · simp only [setB, if_neg hj]
      refine tinv_same (s := s) i rfl rfl (Nat.le_refl _) rfl (fun hx => hne _ hx) (fun j hj hx => hne _ hx)
        (fun _ hp => absurd hp (notPopping h (by simp) (by simp) _)) (hi.thief i)
    · simpa only [St.cap, hself, hcap] using hi.pow
    · simpa only [St.cap, hself, hcap] using hi.capEq
    · simpa only [St.cap, hself, hcap] using hi.capMax
    · intro v' b' nb' heq; simp at heq
    · simp only [hi.good, Bool.false_or, decide_eq_false_iff_not]; omega
  | @push6 v b h =>
    simp only [OInv, h, St.full] at ho
    obtain ⟨hf, hb, hc, hv⟩ := ho
    refine ⟨h0, ?_, fun i => ?_, hi.pow, garb_eq (s := s) hi (by simp [h]), hi.capEq, hi.capMax, ?_, hi.good⟩
    · simp only [OInv, St.full, St.cap] at *; omega
    · have ht := hi.thief i
      have hel : ∀ t, Elig s t → Elig { s with bottom := b + 1, opc := .ret .pushed } t := by
        intro t h1 h2
        rcases h1 h2 with h3 | ⟨_, h3⟩
        · left; simp only; omega
        · exact absurd h3 (notPopping h (by simp) (by simp) _)
      unfold TInv at ht ⊢
      generalize hp : s.tpc i = p at ht
      simp only [hp]
      cases p <;> dsimp only at ht ⊢
      · exact ht
      · exact ⟨ht.1, ht.2.1, hel _ ht.2.2⟩
      · exact ⟨ht.1, ht.2.1, hel _ ht.2.2.1, ht.2.2.2⟩
      · exact ⟨ht.1, ht.2.1, hel _ ht.2.2.1, ht.2.2.2⟩
    · intro v' b' nb' heq; simp at heq
  | pop0 h =>
    refine inv_opc hi ?_ (by simp [h]) (by simp) (fun _ hp => absurd hp (notPopping h (by simp) (by simp) _))
    simp only [OInv, h, St.full] at ho ⊢; exact ⟨ho, trivial⟩
  | pop1 h =>
    refine inv_opc hi ?_ (by simp [h]) (by simp) (fun _ hp => absurd hp (notPopping h (by simp) (by simp) _))
    simp only [OInv, h, St.full] at ho ⊢; exact ⟨ho.1, ho.2, trivial⟩
  | @pop2 b buf h =>
    simp only [OInv, h, St.full] at ho
    obtain ⟨hf, hb, rfl⟩ := ho
    refine ⟨h0, ?_, fun i => ?_, hi.pow, garb_eq (s := s) hi (by simp [h]), hi.capEq, hi.capMax, ?_, hi.good⟩
    · simp only [OInv, St.full, St.cap, true_and] at *; omega
    · have ht := hi.thief i
      have hel : ∀ t, Elig s t → Elig { s with bottom := b, opc := .pop3 b s.cur } t := by
        intro t h1 h2
        rcases h1 h2 with h3 | ⟨_, h3⟩
        · by_cases hx : t < b
          · exact .inl hx
          · right; have : t = b := by omega
            subst this
            exact ⟨rfl, s.cur, .inl rfl⟩
        · exact absurd h3 (notPopping h (by simp) (by simp) _)
      unfold TInv at ht ⊢
      generalize hp : s.tpc i = p at ht
      simp only [hp]
      cases p <;> dsimp only at ht ⊢
      · exact ht
      · exact ⟨ht.1, ht.2.1, hel _ ht.2.2⟩
      · exact ⟨ht.1, ht.2.1, hel _ ht.2.2.1, ht.2.2.2⟩
      · exact ⟨ht.1, ht.2.1, hel _ ht.2.2.1, ht.2.2.2⟩
    · intro v' b' nb' heq; simp at heq
  | @pop3lt b buf h hlt =>
    refine inv_opc hi ?_ (by simp [h]) (by simp) (fun hx _ => ?_)
    · simp only [OInv, h, St.full, St.cap] at *; omega
    · simp only [OInv, h] at ho; omega
  | @pop3eq b buf h heq =>
    refine inv_opc hi ?_ (by simp [h]) (by simp) (fun hx _ => ⟨buf, .inr (by simp [heq])⟩)
    simp only [OInv, h, St.full, St.cap] at *; omega
  | @pop3gt b buf h hgt =>
    refine inv_opc hi ?_ (by simp [h]) (by simp) (fun hx _ => ?_)
    · simp only [OInv, h, St.full, St.cap] at *; omega
    · simp only [OInv, h] at ho; omega
  | @pop4ok b buf h heq =>
    simp only [OInv, h, St.full] at ho
    refine ⟨by simp only; omega, ?_, fun i => ?_, hi.pow, garb_eq (s := s) hi (by simp [h]), hi.capEq, hi.capMax, ?_, hi.good⟩
    · simp only [OInv, true_and]; omega
    · exact tinv_top (s := s) i (by simp only; omega) (Nat.le_refl _) rfl (hi.thief i)
    · intro v' b' nb' heq; simp at heq
  | @pop4fail b buf h hne =>
    refine inv_opc hi ?_ (by simp [h]) (by simp) (fun hx _ => ?_)
    · simp only [OInv, h, St.full, St.cap] at *; omega
    · simp only [OInv, h] at ho; omega
  | @pop5 b h =>
    simp only [OInv, h, St.full] at ho
    obtain ⟨k, hk⟩ := hi.pow
    have := Nat.two_pow_pos k
    refine ⟨h0, ?_, fun i => ?_, hi.pow, garb_eq (s := s) hi (by simp [h]), hi.capEq, hi.capMax, ?_, hi.good⟩
    · simp only [OInv, St.full, St.cap] at *; omega
    · have ht := hi.thief i
      have hel : ∀ t, Elig s t → Elig { s with bottom := b + 1, opc := .ret .none } t := by
        intro t h1 h2
        simp only at h2
        rcases h1 h2 with h3 | ⟨h3, _⟩ <;> omega
      unfold TInv at ht ⊢
      generalize hp : s.tpc i = p at ht
      simp only [hp]
      cases p <;> dsimp only at ht ⊢
      · exact ht
      · exact ⟨ht.1, ht.2.1, hel _ ht.2.2⟩
      · exact ⟨ht.1, ht.2.1, hel _ ht.2.2.1, ht.2.2.2⟩
      · exact ⟨ht.1, ht.2.1, hel _ ht.2.2.1, ht.2.2.2⟩
    · intro v' b' nb' heq; simp at heq
  | @pop6 b buf h =>
    simp only [OInv, h, St.full] at ho
    obtain ⟨k, hk⟩ := hi.pow
    have := Nat.two_pow_pos k
    refine ⟨h0, ?_, fun i => ?_, hi.pow, garb_eq (s := s) hi (by simp [h]), hi.capEq, hi.capMax, ?_, hi.good⟩
    · simp only [OInv, St.full, St.cap] at *; omega
    · have ht := hi.thief i
      have hel : ∀ t, Elig s t → Elig { s with bottom := b + 1, opc := .pop7 b buf } t := by
        intro t h1 h2
        simp only at h2
        rcases h1 h2 with h3 | ⟨h3, _⟩ <;> omega
      unfold TInv at ht ⊢
      generalize hp : s.tpc i = p at ht
      simp only [hp]
      cases p <;> dsimp only at ht ⊢
      · exact ht
      · exact ⟨ht.1, ht.2.1, hel _ ht.2.2⟩
      · exact ⟨ht.1, ht.2.1, hel _ ht.2.2.1, ht.2.2.2⟩
      · exact ⟨ht.1, ht.2.1, hel _ ht.2.2.1, ht.2.2.2⟩
    · intro v' b' nb' heq; simp at heq
  | @pop7 b buf h =>
    simp only [OInv, h, St.full] at ho
    have hbad : (s.bad || decide (b < 0)) = s.bad := by
      have : ¬ b < 0 := by omega
      simp [this]
    rw [hbad]
    refine inv_opc hi ?_ (by simp [h]) (by simp) (fun _ hp => absurd hp (notPopping h (by simp) (by simp) _))
    simp only [OInv, St.full]; exact ho.1
  | size0 h =>
    refine inv_opc hi ?_ (by simp [h]) (by simp) (fun _ hp => absurd hp (notPopping h (by simp) (by simp) _))
    simp only [OInv, h, St.full] at ho ⊢; exact ⟨ho, trivial⟩
  | size1 h =>
    refine inv_opc hi ?_ (by simp [h]) (by simp) (fun _ hp => absurd hp (notPopping h (by simp) (by simp) _))
    simp only [OInv, h, St.full] at ho ⊢; exact ho.1
  | @sinv i h => exact inv_tpc hi (by simp [TInv, setT_self])
  | @sret i r h => exact inv_tpc hi (by simp [TInv, setT_self])
  | @st0 i h => exact inv_tpc hi (by simp only [TInv, setT_self]; omega)
  | @st1 i t h hlt =>
    have ht := hi.thief i
    simp only [TInv, h] at ht
    refine inv_tpc hi ?_
    simp only [TInv, setT_self]
    exact ⟨ht.1, ht.2, fun _ => .inl hlt⟩
  | @st1empty i t h hlt => exact inv_tpc hi (by simp [TInv, setT_self])
  | @st2 i t h =>
    have ht := hi.thief i
    simp only [TInv, h] at ht
    refine inv_tpc hi ?_
    simp only [TInv, setT_self]
    exact ⟨ht.1, ht.2.1, ht.2.2, Nat.le_refl _, fun _ => trivial⟩
  | @st3 i t buf h =>
    have ht := hi.thief i
    simp only [TInv, h] at ht
    have hbad : (s.bad || decide (t < 0)) = s.bad := by
      have : ¬ t < 0 := by omega
      simp [this]
    rw [hbad]
    refine inv_tpc hi ?_
    simp only [TInv, setT_self]
    exact ⟨ht.1, ht.2.1, ht.2.2.1, ht.2.2.2.2⟩
  | @st4ok i t v h heq =>
    have ht := hi.thief i
    simp only [TInv, h] at ht
    obtain ⟨t0, t1, t2, t3⟩ := ht
    have hel := t2 heq.symm
    refine ⟨by simp only; omega, ?_, fun j => ?_, hi.pow, hi.garb, hi.capEq, hi.capMax, hi.newMax, hi.good⟩
    · generalize hp : s.opc = p at ho
      have hnp : (∀ b buf, p ≠ .pop3 b buf) → (∀ b buf, p ≠ .pop4 b buf) → t < s.bottom := by
        intro a b
        exact hel.resolve_right (fun hx => notPopping hp a b _ hx.2)
      cases p <;> simp only [OInv, hp, St.full, St.cap, St.item] at ho ⊢ <;>
        first
        | (rcases hel with hel | ⟨hel, _⟩ <;> omega)
        | (have := hnp (by simp) (by simp); omega)
        | (have := hnp (by simp) (by simp)
           refine ⟨by omega, ho.2.1, ho.2.2.1, ho.2.2.2.1, fun i h1 h2 => ho.2.2.2.2 i (by omega) h2⟩)
        | (have := hnp (by simp) (by simp)
           refine ⟨by omega, ho.2.1, by omega, ho.2.2.2⟩)
    · by_cases hj : j = i
      · subst hj; simp [TInv, setT_self]
      · exact tinv_top (s := s) j (by simp only; omega) (Nat.le_refl _) (setT_ne _ _ hj) (hi.thief j)
  | @st4fail i t v h hne => exact inv_tpc hi (by simp [TInv, setT_self])

theorem inv_reach {maxCap cap : Nat} (hp : ∃ k, cap = 2 ^ k) {h : List (Ev ι V)} {s : St ι V}
    (hr : Reach maxCap cap h s) : Inv maxCap cap s := by
  induction hr with
  | init b h => exact inv_init hp b h
  | tau _ hs ih => exact inv_step ih hs
  | vis _ hs ih => exact inv_step ih hs

end Verif.Deque
