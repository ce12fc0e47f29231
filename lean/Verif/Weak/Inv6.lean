import Verif.Weak.Inv5

/-! Preservation of the invariants of `Inv5`. -/
namespace Verif.Weak
open Verif.Deque (Ev OOp ORet SRet setT)
variable {ι : Type} [DecidableEq ι]

theorem Since.weaken {n : Nat} {v : Nat → Int} {t : Int} {k : Nat} {u : Bool} (h : Since n v false t k) : Since n v u t k := by
  intro k' h1 h2
  have := h k' h1 h2
  grind

/-- Everything the other theorems have established. -/
structure IB (cap : Nat) (s : St ι) : Prop where
  w : IW s
  ow : Own s
  vr : Vrel s
  vs : Vals s
  ip : IP cap s
  ic : IC s
  id : ID s

theorem IB.init {cap : Nat} (junk : Nat → Nat → Int) : IB cap (St.init junk : St ι) :=
  ⟨.init _, .init _, .init _, .init _, .init _, .init _, .init _⟩

theorem IB.step {relBuf : Bool} {cap : Nat} (hc0 : 0 < cap) {s s' : St ι} {e : Option (Ev ι Int)} (h : IB cap s)
    (st : Step relBuf cap s e s') : IB cap s' := by
  obtain ⟨w, ow, vr, vs, ip, ic, id⟩ := h
  refine ⟨w.step st, ow.step w st, vr.step w st, vs.step w ?_ st, ip.step hc0 w ow vs ?_ ?_ st, ic.step w ow vs ip id st,
    id.step w ow vs ip ic st⟩
  · intro v b nb hpc
    unfold IP at ip; rw [hpc] at ip; exact ip.2.2.2.1
  · intro b buf hpc hb
    have h1 := ic.p3 (by rw [hpc]; rfl)
    unfold IP at ip; rw [hpc] at ip; simp only [Pc] at ip
    have h2 := h1.2
    omega
  · intro i t k v hpc hT
    exact (st4_live (cap := cap) w id i t k v hpc hT).1

/-- Elements between the two ends have been there since message `k`. -/
theorem live_of_since {s : St ι} {t : Int} {k : Nat} (hk : k < s.mem.len .bot)
    (h : Since (s.mem.len .bot) (s.mem.val .bot) (undecided s.opc) t k) : t < logB s := by
  have h1 := h (s.mem.len .bot - 1) (by omega) (by omega)
  unfold logB lastB Mem.lastv
  have : undecided s.opc = true → lowered s.opc = true := by cases s.opc <;> simp [undecided, lowered]
  grind

theorem IG.step {relBuf : Bool} {cap : Nat} {s s' : St ι} {e : Option (Ev ι Int)} {ct : Int → Int} (h : IG cap ct s)
    (ib : IB cap s) (ov : OV cap ct (tp s) s.mem s.otv.rel s.opc) (hb : relBuf = true ∨ s'.mem.len .ptr = 1)
    (hp5 : ∀ v b buf, s.opc ≠ .push5 v b buf ∨ s'.opc = s.opc) (st : Step relBuf cap s e s') : IG cap ct s' := by
  obtain ⟨w, ow, vr, vs, ip, ic, id⟩ := ib
  have hb0 := w.m.pos .bot
  have hp0 := w.m.pos .ptr
  have ip' := ip
  unfold IP at ip
  have hvr := vr (s.mem.len .bot - 1) (by omega)
  refine ⟨fun k hk t ht hs => ?_⟩
  cases st
  case push5 v b buf hpc =>
    rcases hp5 v b buf with h1 | h1
    · exact absurd hpc h1
    · rw [hpc] at h1; cases h1
  case push4 v b nb hpc =>
    rw [hpc] at ip ov
    simp only [Pc] at ip
    simp only [Mem.store, Mem.len_append, Mem.val_append_ne, Mem.view_append, Mem.sc_append, tp, ne_eq, reduceCtorEq, not_false_eq_true,
      if_false, if_true, false_and] at hk ht hs hb ⊢
    have hs' : Since (s.mem.len .bot) (s.mem.val .bot) (undecided s.opc) t k := Since.weaken hs
    have h1 := live_of_since hk hs'
    simp only [logB, hpc, lowered, Bool.false_eq_true, if_false] at h1
    have h2 := h.g k hk t ht hs'
    have hr : relBuf = true := by rcases hb with h | h; exact h; omega
    subst hr
    have hnb : nb = s.mem.len .ptr := by omega
    subst hnb
    refine h2.publish ?_ (ov t ht (by omega))
    simp only [TV.msg, slot_ne_ptr, if_false, if_true]
    exact ow _ (by simp)
  case copy v b t' i buf j hpc h1 hc =>
    rw [hpc] at ip
    simp only [Pc] at ip
    simp only [Mem.store, Mem.len_append, Mem.val_append_ne, Mem.view_append, Mem.sc_append, tp, ne_eq, reduceCtorEq, not_false_eq_true,
      if_false, if_true, false_and, bot_ne_slot, top_ne_slot] at hk ht hs ⊢
    have h2 := h.g k hk t ht (Since.weaken hs)
    exact h2.append (by simp) (fun b' hb' => slot_buf_ne (by omega))
  case push7 v b hpc =>
    rw [hpc] at ip ov
    simp only [Pc, OV] at ip ov
    have e1 : lastB s = s.mem.val .bot (s.mem.len .bot - 1) := rfl
    rw [e1] at ip
    simp only [Mem.store, Mem.len_append, Mem.view_append, Mem.sc_append, tp, ne_eq, reduceCtorEq, not_false_eq_true,
      if_false, if_true, true_and] at hk ht hs ⊢
    by_cases hkn : k = s.mem.len .bot
    · rw [if_pos hkn]
      refine GoodV.append ?_ (by simp) (by simp)
      have h1 := hs k (Nat.le_refl _) (by omega)
      simp only [Mem.val_append, hkn, and_self, if_true, undecided, Bool.false_eq_true, and_false, or_false] at h1
      by_cases htb : t = b
      · subst htb
        intro b' hb1 hb2 j h3 h4 h5
        have h6 := ov.2.2 .ptr (by simp)
        simp only [TV.msg, reduceCtorEq, if_false, Bool.false_eq_true, slot_ne_bot] at hb1 h3
        have e2 : b' = s.mem.len .ptr - 1 := by omega
        subst e2
        have h7 := ov.2.2 (slot cap (s.mem.len .ptr - 1) t) (by simp)
        have e3 : j = s.mem.len (slot cap (s.mem.len .ptr - 1) t) - 1 := by omega
        rw [e3]; exact ov.1
      · refine (h.g (s.mem.len .bot - 1) (by omega) t ht (Since.last _ (by omega))).mono ?_
        intro l h3 _
        have := hvr l h3
        simpa only [TV.msg, h3, if_false, Bool.false_eq_true] using this
    · rw [if_neg hkn]
      have hs' : Since (s.mem.len .bot) (s.mem.val .bot) (undecided s.opc) t k := by
        intro k' h1 h2
        have := hs k' h1 (by omega)
        rw [Mem.val_append, if_neg (by simp; omega)] at this
        simp only [undecided, Bool.false_eq_true, and_false, or_false] at this
        exact .inl this
      exact (h.g k (by omega) t ht hs').append (by simp) (by simp)
  case pop2 b buf hpc =>
    rw [hpc] at ip ov
    simp only [Pc, OV] at ip ov
    have e1 : lastB s = s.mem.val .bot (s.mem.len .bot - 1) := rfl
    rw [e1] at ip
    simp only [Mem.store, Mem.len_append, Mem.view_append, Mem.sc_append, tp, ne_eq, reduceCtorEq, not_false_eq_true,
      if_false, if_true, true_and] at hk ht hs ⊢
    by_cases hkn : k = s.mem.len .bot
    · rw [if_pos hkn]
      refine GoodV.append ?_ (by simp) (by simp)
      have h1 := hs k (Nat.le_refl _) (by omega)
      simp only [Mem.val_append, hkn, and_self, if_true, undecided] at h1
      refine (h.g (s.mem.len .bot - 1) (by omega) t ht (Since.last _ (by omega))).mono ?_
      intro l h3 _
      have := hvr l h3
      simpa only [TV.msg, h3, if_false, Bool.false_eq_true] using this
    · rw [if_neg hkn]
      have hs' : Since (s.mem.len .bot) (s.mem.val .bot) (undecided s.opc) t k := by
        intro k' h1 h2
        have := hs k' h1 (by omega)
        rw [Mem.val_append, if_neg (by simp; omega)] at this
        left; omega
      exact (h.g k (by omega) t ht hs').append (by simp) (by simp)
  case pop5 b hpc =>
    rw [hpc] at ip
    simp only [Pc] at ip
    have e1 : lastB s = s.mem.val .bot (s.mem.len .bot - 1) := rfl
    rw [e1] at ip
    exfalso
    simp only [Mem.store, Mem.len_append, Mem.view_append, Mem.sc_append, tp, ne_eq, reduceCtorEq, not_false_eq_true,
      if_false, if_true, true_and] at hk ht hs ip
    have h1 := hs (s.mem.len .bot) (by omega) (by omega)
    simp only [Mem.val_append, and_self, if_true, undecided, Bool.false_eq_true, and_false, or_false] at h1
    omega
  case pop6 b buf hpc =>
    rw [hpc] at ip
    simp only [Pc] at ip
    have e1 : lastB s = s.mem.val .bot (s.mem.len .bot - 1) := rfl
    rw [e1] at ip
    exfalso
    simp only [Mem.store, Mem.len_append, Mem.view_append, Mem.sc_append, tp, ne_eq, reduceCtorEq, not_false_eq_true,
      if_false, if_true, true_and] at hk ht hs ip
    have h1 := hs (s.mem.len .bot) (by omega) (by omega)
    simp only [Mem.val_append, and_self, if_true, undecided, Bool.false_eq_true, and_false, or_false] at h1
    omega
  case pop4ok b buf hpc h2 =>
    simp only [Mem.rmw, Mem.len_append, Mem.val_append_ne, Mem.view_append, Mem.sc_append, tp, ne_eq, reduceCtorEq, not_false_eq_true,
      if_false, if_true, false_and] at hk ht hs ⊢
    exact (h.g k hk t (by unfold tp; omega) (Since.weaken hs)).append (by simp) (by simp)
  case st4ok i t' k' v hpc h2 =>
    simp only [Mem.rmw, Mem.len_append, Mem.val_append_ne, Mem.view_append, Mem.sc_append, tp, ne_eq, reduceCtorEq, not_false_eq_true,
      if_false, if_true, false_and] at hk ht hs ⊢
    exact (h.g k hk t (by unfold tp; omega) hs).append (by simp) (by simp)
  case odata n v hpc =>
    simp only [Mem.store, Mem.len_append, Mem.val_append_ne, Mem.view_append, Mem.sc_append, tp, ne_eq, reduceCtorEq, not_false_eq_true,
      if_false, if_true, false_and] at hk ht hs ⊢
    exact (h.g k hk t (by unfold tp; omega) hs).append (by simp) (by simp)
  case tdata i n v hpc =>
    simp only [Mem.store, Mem.len_append, Mem.val_append_ne, Mem.view_append, Mem.sc_append, tp, ne_eq, reduceCtorEq, not_false_eq_true,
      if_false, if_true, false_and] at hk ht hs ⊢
    exact (h.g k hk t (by unfold tp; omega) hs).append (by simp) (by simp)
  case popF b buf hpc =>
    refine h.g k hk t ht ?_
    rw [hpc]; exact hs
  case stF => exact h.g k hk t ht hs
  case pop3eq b buf i hpc hc h2 =>
    refine h.g k hk t ht ?_
    rw [hpc]; exact hs
  case sinv | sret | tsync | st0 | st1 | st1empty | st2 | st3 | st4fail | osync => exact h.g k hk t ht hs
  all_goals exact h.g k hk t ht (Since.weaken hs)

end Verif.Weak
