import Verif.Weak.Inv6

/-! Preservation of the invariants of `Inv5`, continued. -/
namespace Verif.Weak
open Verif.Deque (Ev OOp ORet SRet setT)
variable {ι : Type} [DecidableEq ι]

theorem OV.step {relBuf : Bool} {cap : Nat} {s s' : St ι} {e : Option (Ev ι Int)} {ct : Int → Int}
    (ov : OV cap ct (tp s) s.mem s.otv.rel s.opc) (h : IG cap ct s) (ib : IB cap s)
    (hp5 : ∀ v b buf, s.opc ≠ .push5 v b buf ∨ s'.opc = s.opc) (st : Step relBuf cap s e s') :
    OV cap ct (tp s') s'.mem s'.otv.rel s'.opc := by
  obtain ⟨w, ow, vr, vs, ip, ic, id⟩ := ib
  have hp0 := w.m.pos .ptr
  have ht0 := w.m.pos .top
  have hct := w.o.cur .top
  have ip' := ip
  have hle := ip.le
  unfold IP at ip
  cases st
  case push5 v b buf hpc =>
    rcases hp5 v b buf with h1 | h1
    · exact absurd hpc h1
    · rw [hpc] at h1; cases h1
  case push2full v b t i hpc hc h1 =>
    rw [hpc] at ip
    simp only [Pc, OV, tp] at *
    intro j h1 h2
    omega
  case copy v b t i buf j hpc h1 hc =>
    rw [hpc] at ip ov
    simp only [Pc, OV] at ip ov ⊢
    intro x h2 h3
    simp only [tp, Mem.store, Mem.len_append, Mem.lastv_append, top_ne_slot, if_false] at h2 ⊢
    by_cases hx : x = i
    · subst hx
      rw [if_pos rfl]
      have h4 := ow (slot cap buf x) (by simp)
      have e1 : j = s.mem.len (slot cap buf x) - 1 := by have := hc.1; have := hc.2; omega
      have e2 : s.mem.len .ptr - 1 = buf := by omega
      have h5 := h.live w (t := x) h2 (by simp only [logB, hpc, lowered, Bool.false_eq_true, if_false]; omega) (by rw [hpc]; simp [lowered])
      rw [e2] at h5
      rw [e1]; exact h5
    · rw [if_neg (slot_ne (by omega) (by omega) (by omega))]
      exact ov x h2 (by omega)
  case copied v b t i buf hpc h1 =>
    rw [hpc] at ov
    subst h1
    exact ov
  case push6 v b hpc =>
    rw [hpc] at ov
    exact ⟨ov.1, ov.2, fun l hl => ow l hl⟩
  case pop3lt b buf i hpc hc h1 =>
    rw [hpc] at ip
    simp only [Pc, OV] at ip ⊢
    have h2 := (ic.p3 (by rw [hpc]; rfl)).2
    have h3 := vs.topv i hc.2
    have h4 := hc.1
    have e2 : s.mem.len .ptr - 1 = buf := by omega
    rw [← e2]
    refine h.live w ?_ (by simp only [logB, hpc, lowered, if_true]; omega) (by rw [hpc]; simp [undecided])
    omega
  case pop4ok b buf hpc h2 =>
    rw [hpc] at ip
    simp only [Pc, OV] at ip ⊢
    have e2 : s.mem.len .ptr - 1 = buf := by omega
    rw [← e2]
    have h3 : tp s = b := by
      have := vs.topv (s.mem.last .top) (by unfold Mem.last; omega)
      unfold tp; unfold Mem.last at *; omega
    simp only [Mem.rmw, Mem.lastv_append, slot_ne_top, if_false]
    refine h.live w (by omega) (by simp only [logB, hpc, lowered, if_true]; omega) (by rw [hpc]; simp [undecided])
  case pop6 b buf hpc =>
    rw [hpc] at ov
    simpa only [OV, Mem.store, Mem.lastv_append, slot_ne_bot, if_false] using ov
  case st4ok i t k v hpc h2 =>
    have hT : (tp s : Int) ≤ ((s.mem.len .top + 1 : Nat) : Int) - 1 := by unfold tp; omega
    simp only [Mem.rmw, tp, Mem.len_append, if_true] at hT ⊢
    revert ov
    cases s.opc <;> simp only [OV, tp, Mem.lastv_append, Mem.len_append, slot_ne_top, reduceCtorEq, if_false, imp_self]
    · intro h1 j h2 h3
      exact h1 j (by omega) h3
    · intro h1 j h2 h3
      exact h1 j (by omega) h3
    · intro h1
      refine ⟨h1.1, h1.2.1, fun l hl => ?_⟩
      rw [if_neg (by rintro rfl; cases hl)]; exact h1.2.2 l hl
  case odata n v hpc =>
    rw [hpc]; trivial
  case tdata i n v hpc =>
    revert ov
    cases s.opc <;> simp only [OV, tp, Mem.store, Mem.lastv_append, Mem.len_append, slot_ne_data, reduceCtorEq, if_false, imp_self]
    intro h1
    refine ⟨h1.1, h1.2.1, fun l hl => ?_⟩
    rw [if_neg (by rintro rfl; cases hl)]; exact h1.2.2 l hl
  case stF i t hpc => exact ov
  case sinv | sret | tsync | st0 | st1 | st1empty | st2 | st3 | st4fail | osync => exact ov
  all_goals trivial

theorem TH.step {relBuf : Bool} {cap : Nat} {s s' : St ι} {e : Option (Ev ι Int)} {ct : Int → Int}
    (th : ∀ i, TH cap ct (tp s) s.mem (s.ttv i).cur (s.tpc i)) (ov : OV cap ct (tp s) s.mem s.otv.rel s.opc)
    (h : IG cap ct s) (ib : IB cap s) (hb : relBuf = true ∨ s'.mem.len .ptr = 1)
    (hp5 : ∀ v b buf, s.opc ≠ .push5 v b buf ∨ s'.opc = s.opc) (st : Step relBuf cap s e s') :
    ∀ i, TH cap ct (tp s') s'.mem (s'.ttv i).cur (s'.tpc i) := by
  obtain ⟨w, ow, vr, vs, ip, ic, id⟩ := ib
  have hp0 := w.m.pos .ptr
  have ht0 := w.m.pos .top
  unfold IP at ip
  intro x
  have hx := th x
  have idx := id x
  -- appending to a location that no thief reads for a live element
  have app : ∀ l v y, l ≠ .ptr → l ≠ .top →
      (∀ b t, b < s.mem.len .ptr → tp s = t → t < logB s → slot cap b t ≠ l) →
      TH cap ct (tp s) (s.mem.append l v y) (s.ttv x).cur (s.tpc x) := by
    intro l v y h1 h2 h3
    cases hpc : s.tpc x <;> rw [hpc] at hx idx <;> simp only [TH, Th] at hx idx ⊢
    case st2 t k =>
      intro hT
      have hl := live_of_since idx.2.2.2.1 (idx.2.2.2.2.2.1 hT)
      exact (hx hT).append h1 (fun b hb => h3 b t hb hT hl)
    case st3 t k buf =>
      rw [Mem.len_append, if_neg (Ne.symm h1)]
      refine ⟨hx.1, fun hT j h4 h5 => ?_⟩
      have hl := live_of_since idx.2.2.2.1 (idx.2.2.2.2.2.1 hT)
      have h6 := h3 buf t hx.1 hT hl
      rw [Mem.len_append, if_neg h6] at h5
      rw [Mem.val_append, if_neg (fun e => h6 e.1)]
      exact hx.2 hT j h4 h5
    case st4 t k v => exact hx
  -- a larger m_top makes all claims vacuous
  have adv : ∀ v y, TH cap ct (tp s + 1) (s.mem.append .top v y) (s.ttv x).cur (s.tpc x) := by
    intro v y
    cases hpc : s.tpc x <;> rw [hpc] at hx idx <;> simp only [TH, Th] at hx idx ⊢
    case st2 t k => intro hT; omega
    case st3 t k buf =>
      rw [Mem.len_append, if_neg (by simp)]
      exact ⟨hx.1, fun hT => by omega⟩
    case st4 t k v => intro hT; omega
  cases st
  case push5 v b buf hpc =>
    rcases hp5 v b buf with h1 | h1
    · exact absurd hpc h1
    · rw [hpc] at h1; cases h1
  case push4 v b nb hpc =>
    rw [hpc] at ip ov
    simp only [Pc] at ip
    have hr : relBuf = true := by
      simp only [Mem.store, Mem.len_append, if_true] at hb
      rcases hb with h | h; exact h; omega
    subst hr
    have hnb : nb = s.mem.len .ptr := by omega
    subst hnb
    have e1 : logB s = b := by simp only [logB, hpc, lowered, Bool.false_eq_true, if_false]; omega
    have e2 : ((s.mem.store s.otv .ptr (s.mem.len .ptr : Nat) true).len .top : Int) - 1 = tp s := by
      simp [Mem.store, Mem.len_append, tp]
    simp only [tp] at e2
    simp only [tp, e2]
    cases hpx : s.tpc x <;> rw [hpx] at hx idx <;> simp only [TH, Th] at hx idx ⊢
    case st2 t k =>
      intro hT
      have hl := live_of_since idx.2.2.2.1 (idx.2.2.2.2.2.1 hT)
      refine (hx hT).publish ?_ (ov t (by unfold tp; omega) (by omega))
      simp only [TV.msg, slot_ne_ptr, if_false, if_true]
      exact ow _ (by simp)
    case st3 t k buf =>
      simp only [Mem.store, Mem.len_append, Mem.val_append, slot_ne_ptr, if_false, if_true, false_and]
      exact ⟨by omega, hx.2⟩
    case st4 t k v => exact hx
  case copy v b t i buf j hpc h1 hc =>
    rw [hpc] at ip
    simp only [Pc] at ip
    have := app (slot cap (buf + 1) i) (s.mem.val (slot cap buf i) j)
      ((s.otv.read s.mem (slot cap buf i) j false).msg (slot cap (buf + 1) i) (s.mem.len (slot cap (buf + 1) i)) false) (by simp) (by simp)
      (fun b' t hb' _ _ => slot_buf_ne (by omega))
    simpa only [Mem.store, tp, Mem.len_append, top_ne_slot, if_false] using this
  case push7 v b hpc =>
    have := app .bot (b + 1) (s.otv.msg .bot (s.mem.len .bot) false) (by simp) (by simp) (by simp)
    simpa only [Mem.store, tp, Mem.len_append, reduceCtorEq, if_false] using this
  case pop2 b buf hpc =>
    have := app .bot b (s.otv.msg .bot (s.mem.len .bot) false) (by simp) (by simp) (by simp)
    simpa only [Mem.store, tp, Mem.len_append, reduceCtorEq, if_false] using this
  case pop5 b hpc =>
    have := app .bot (b + 1) (s.otv.msg .bot (s.mem.len .bot) false) (by simp) (by simp) (by simp)
    simpa only [Mem.store, tp, Mem.len_append, reduceCtorEq, if_false] using this
  case pop6 b buf hpc =>
    have := app .bot (b + 1) (s.otv.msg .bot (s.mem.len .bot) false) (by simp) (by simp) (by simp)
    simpa only [Mem.store, tp, Mem.len_append, reduceCtorEq, if_false] using this
  case pop4ok b buf hpc h2 =>
    have := adv (b + 1) ((s.otv.read s.mem .top (s.mem.last .top) true).msg .top (s.mem.len .top) true)
    have e : ((s.mem.len .top + 1 : Nat) : Int) - 1 = (s.mem.len .top : Int) - 1 + 1 := by omega
    simpa only [Mem.rmw, tp, Mem.len_append, if_true, e] using this
  case st4ok i t k v hpc h2 =>
    by_cases hxi : x = i
    · subst hxi; simp [setT, TH]
    · have := adv (t + 1) (((s.ttv i).read s.mem .top (s.mem.last .top) true).msg .top (s.mem.len .top) true)
      have e : ((s.mem.len .top + 1 : Nat) : Int) - 1 = (s.mem.len .top : Int) - 1 + 1 := by omega
      simpa only [Mem.rmw, tp, Mem.len_append, if_true, e, setT, hxi, if_false] using this
  case odata n v hpc =>
    have := app (.data n) v (s.otv.msg (.data n) (s.mem.len (.data n)) false) (by simp) (by simp) (by simp)
    simpa only [Mem.store, tp, Mem.len_append, reduceCtorEq, if_false] using this
  case tdata i n v hpc =>
    by_cases hxi : x = i
    · subst hxi; simp [hpc, TH]
    · have := app (.data n) v ((s.ttv i).msg (.data n) (s.mem.len (.data n)) false) (by simp) (by simp) (by simp)
      simpa only [Mem.store, tp, Mem.len_append, reduceCtorEq, if_false, setT, hxi] using this
  case popF => exact hx
  case stF i t hpc =>
    by_cases hxi : x = i
    · subst hxi; simp [setT, TH]
    · simp only [setT, hxi, if_false]; exact hx
  case sinv i hpc =>
    by_cases hxi : x = i
    · subst hxi; simp [setT, TH]
    · simp only [setT, hxi, if_false]; exact hx
  case sret i r hpc =>
    by_cases hxi : x = i
    · subst hxi; simp [setT, TH]
    · simp only [setT, hxi, if_false]; exact hx
  case tsync i w' hpc hw =>
    by_cases hxi : x = i
    · subst hxi; simp [hpc, TH]
    · simp only [setT, hxi, if_false]; exact hx
  case st0 i k hpc hc =>
    by_cases hxi : x = i
    · subst hxi; simp [setT, TH]
    · simp only [setT, hxi, if_false]; exact hx
  case st1 i t k hpc hc h2 =>
    by_cases hxi : x = i
    · subst hxi
      rw [hpc] at idx
      simp only [setT, if_true, TH, Th] at idx ⊢
      intro hT
      have h3 := idx.2.2.2.1 hT k hc.1 hc.2 h2
      refine (h.g k hc.2 t (Int.le_of_eq hT) h3).mono ?_
      intro l _ _
      simp only [TV.read, if_true]
      omega
    · simp only [setT, hxi, if_false]; exact hx
  case st1empty i t k hpc hc h2 =>
    by_cases hxi : x = i
    · subst hxi; simp [setT, TH]
    · simp only [setT, hxi, if_false]; exact hx
  case st2 i t k l hpc hc =>
    by_cases hxi : x = i
    · subst hxi
      rw [hpc] at hx
      have h1 := vs.ptrv l hc.2
      have e : (s.mem.val .ptr l).toNat = l := by omega
      simp only [setT, if_true, TH, e] at hx ⊢
      refine ⟨hc.2, fun hT j h2 h3 => ?_⟩
      simp only [TV.read, if_true] at h2
      exact hx hT l hc.1 hc.2 j (by omega) (by omega) h3
    · simp only [setT, hxi, if_false]; exact hx
  case st3 i t k buf l hpc hc =>
    by_cases hxi : x = i
    · subst hxi
      rw [hpc] at hx
      simp only [setT, if_true, TH] at hx ⊢
      exact fun hT => hx.2 hT l hc.1 hc.2
    · simp only [setT, hxi, if_false]; exact hx
  case st4fail i t k v l hpc hc h2 =>
    by_cases hxi : x = i
    · subst hxi; simp [setT, TH]
    · simp only [setT, hxi, if_false]; exact hx
  all_goals exact hx

end Verif.Weak
