import Verif.Weak.Props

/-!
C44: a steal synchronises with the push of the item it takes. `Q v w` stands for "some push of `v` was invoked when the owner's view
was `w`"; `pv t` is the view of the owner at the invocation of the push of index `t`.
-/
namespace Verif.Weak
open Verif.Deque (Ev OOp ORet SRet setT)
variable {ι : Type} [DecidableEq ι]

/-- What is known about the push under way. -/
def OQ (Q : Int → View Loc → Prop) (pv : Int → View Loc) (cur rel : View Loc) : OPc → Prop
  | .push0 v | .push1 v _ | .push2 v _ _ | .copy v _ _ _ _ | .push4 v _ _ | .push5 v _ _ => ∃ w, Q v w ∧ ∀ l, w l ≤ cur l
  | .push6 v b => Q v (pv b) ∧ ∀ l, pv b l ≤ cur l
  | .push7 v b => Q v (pv b) ∧ ∀ l, pv b l ≤ rel l
  | _ => True

/-- What a thief knows. -/
def TQ (Q : Int → View Loc → Prop) (pv : Int → View Loc) (T : Int) (cur : View Loc) : TPc → Prop
  | .st2 t _ | .st3 t _ _ | .st4 t _ _ => T = t → ∀ l, pv t l ≤ cur l
  | .ret (.got v) => ∃ w, Q v w ∧ ∀ l, w l ≤ cur l
  | _ => True

structure PI (Q : Int → View Loc → Prop) (ct : Int → Int) (pv : Int → View Loc) (s : St ι) : Prop where
  g : ∀ k, k < s.mem.len .bot → ∀ t, tp s ≤ t → Since (s.mem.len .bot) (s.mem.val .bot) (undecided s.opc) t k →
    ∀ l, pv t l ≤ s.mem.view .bot k l
  p : ∀ t, tp s ≤ t → t < logB s → Q (ct t) (pv t)
  o : OQ Q pv s.otv.cur s.otv.rel s.opc
  t : ∀ i, TQ Q pv (tp s) (s.ttv i).cur (s.tpc i)

theorem TQ.mono {Q Q' : Int → View Loc → Prop} {pv : Int → View Loc} {T T' : Int} {cur cur' : View Loc} {pc : TPc} {n : Nat} {v : Nat → Int}
    {u p3 : Bool} {sct oc cb cc : Nat} (th : Th T sct n v u p3 oc cb cc pc)
    (h : TQ Q pv T cur pc) (hQ : ∀ v w, Q v w → Q' v w) (hT : T ≤ T') (hc : ∀ l, cur l ≤ cur' l) : TQ Q' pv T' cur' pc := by
  cases pc <;> simp only [TQ, Th] at *
  case ret r =>
    cases r <;> simp only at *
    obtain ⟨w, h1, h2⟩ := h
    exact ⟨w, hQ _ _ h1, fun l => Nat.le_trans (h2 l) (hc l)⟩
  all_goals
    intro e l
    exact Nat.le_trans (h (by omega) l) (hc l)

theorem OQ.mono {Q Q' : Int → View Loc → Prop} {pv : Int → View Loc} {cur cur' rel : View Loc} {pc : OPc}
    (h : OQ Q pv cur rel pc) (hQ : ∀ v w, Q v w → Q' v w) (hc : ∀ l, cur l ≤ cur' l) : OQ Q' pv cur' rel pc := by
  cases pc <;> simp only [OQ] at * <;> try trivial
  case push6 => exact ⟨hQ _ _ h.1, fun l => Nat.le_trans (h.2 l) (hc l)⟩
  case push7 => exact ⟨hQ _ _ h.1, h.2⟩
  all_goals
    obtain ⟨w, h1, h2⟩ := h
    exact ⟨w, hQ _ _ h1, fun l => Nat.le_trans (h2 l) (hc l)⟩

/-- The ends of the deque after a step. -/
theorem ends_step {relBuf : Bool} {cap : Nat} {s s' : St ι} {e : Option (Ev ι Int)} (ib : IB cap s) (st : Step relBuf cap s e s') :
    tp s ≤ tp s' ∧ (logB s' ≤ logB s ∨ ∃ v b, s.opc = .push7 v b ∧ logB s' = b + 1 ∧ logB s = b) := by
  obtain ⟨w, ow, vr, vs, ip, ic, id⟩ := ib
  unfold IP at ip
  have hb0 := w.m.pos .bot
  cases st
  case push7 v b hpc =>
    rw [hpc] at ip
    simp only [Pc] at ip
    refine ⟨?_, .inr ⟨v, b, hpc, ?_⟩⟩
    · simp [tp, Mem.store, Mem.len_append]
    · have := ip.2.1
      simp [logB, lastB, lowered, Mem.store, Mem.lastv_append, hpc] at this ⊢; omega
  case pop2 b buf hpc =>
    rw [hpc] at ip
    simp only [Pc] at ip
    have := ip.2.2.1
    simp [tp, logB, lastB, lowered, Mem.store, Mem.len_append, Mem.lastv_append, hpc] at this ⊢; omega
  case pop5 b hpc =>
    rw [hpc] at ip
    simp only [Pc] at ip
    have := ip.2.2
    simp [tp, logB, lastB, lowered, Mem.store, Mem.len_append, Mem.lastv_append, hpc] at this ⊢; omega
  case pop6 b buf hpc =>
    rw [hpc] at ip
    simp only [Pc] at ip
    have := ip.2.2.1
    simp [tp, logB, lastB, lowered, Mem.store, Mem.len_append, Mem.lastv_append, hpc] at this ⊢; omega
  case st4ok i t k v hpc h2 =>
    simp only [tp, logB, lastB, Mem.rmw, Mem.len_append, Mem.lastv_append, if_true, reduceCtorEq, if_false]
    exact ⟨by omega, .inl (Int.le_refl _)⟩
  case tdata i n v hpc =>
    simp only [tp, logB, lastB, Mem.store, Mem.len_append, Mem.lastv_append, reduceCtorEq, if_false]
    exact ⟨Int.le_refl _, .inl (Int.le_refl _)⟩
  case odata n v hpc =>
    simp only [tp, logB, lastB, Mem.store, Mem.len_append, Mem.lastv_append, reduceCtorEq, if_false]
    exact ⟨Int.le_refl _, .inl (Int.le_refl _)⟩
  case sinv | sret | tsync | st0 | st1 | st1empty | st2 | st3 | st4fail | stF | osync => exact ⟨Int.le_refl _, .inl (Int.le_refl _)⟩
  case popF b buf hpc => simp [tp, logB, lastB, lowered, Mem.fenceSC, Mem.lastv, hpc]
  all_goals
    first
    | (simp [tp, logB, lastB, lowered, Mem.store, Mem.rmw, Mem.len_append, Mem.lastv_append, *]; done)
    | (simp [tp, logB, lastB, lowered, Mem.store, Mem.rmw, Mem.len_append, Mem.lastv_append, *]; omega)

theorem PI.g_step {relBuf : Bool} {cap : Nat} {s s' : St ι} {e : Option (Ev ι Int)} {Q : Int → View Loc → Prop} {ct : Int → Int}
    {pv : Int → View Loc} (h : PI Q ct pv s) (ib : IB cap s) (st : Step relBuf cap s e s')
    (hp5 : ∀ v b buf, s.opc ≠ .push5 v b buf ∨ s'.opc = s.opc) :
    ∀ k, k < s'.mem.len .bot → ∀ t, tp s' ≤ t → Since (s'.mem.len .bot) (s'.mem.val .bot) (undecided s'.opc) t k →
    ∀ l, pv t l ≤ s'.mem.view .bot k l := by
  obtain ⟨w, ow, vr, vs, ip, ic, id⟩ := ib
  have hb0 := w.m.pos .bot
  have ip' := ip
  unfold IP at ip
  have hvr := vr (s.mem.len .bot - 1) (by omega)
  have ho := h.o
  intro k hk t ht hs l
  cases st
  case push5 v b buf hpc =>
    rcases hp5 v b buf with h1 | h1
    · exact absurd hpc h1
    · rw [hpc] at h1; cases h1
  case push4 v b nb hpc =>
    simp only [Mem.store, Mem.len_append, Mem.val_append_ne, Mem.view_append, Mem.sc_append, tp, ne_eq, reduceCtorEq, not_false_eq_true,
      if_false, if_true, false_and] at hk ht hs ⊢
    exact h.g k hk t ht (Since.weaken hs) l
  case copy v b t' i buf j hpc h1 hc =>
    simp only [Mem.store, Mem.len_append, Mem.val_append_ne, Mem.view_append, Mem.sc_append, tp, ne_eq, reduceCtorEq, not_false_eq_true,
      if_false, if_true, false_and, bot_ne_slot, top_ne_slot] at hk ht hs ⊢
    exact h.g k hk t ht (Since.weaken hs) l
  case push7 v b hpc =>
    rw [hpc] at ip ho
    simp only [Pc, OQ] at ip ho
    have e1 : lastB s = s.mem.val .bot (s.mem.len .bot - 1) := rfl
    rw [e1] at ip
    simp only [Mem.store, Mem.len_append, Mem.view_append, Mem.sc_append, tp, ne_eq, reduceCtorEq, not_false_eq_true,
      if_false, if_true, true_and] at hk ht hs ⊢
    by_cases hkn : k = s.mem.len .bot
    · rw [if_pos hkn]
      have h1 := hs k (Nat.le_refl _) (by omega)
      simp only [Mem.val_append, hkn, and_self, if_true, undecided, Bool.false_eq_true, and_false, or_false] at h1
      have hrc := w.o.rel l
      have hcl := w.o.cur l
      simp only [TV.msg, Bool.false_eq_true, if_false]
      by_cases htb : t = b
      · subst htb
        have := ho.2 l
        split
        · subst_vars; omega
        · exact this
      · have h2 := h.g (s.mem.len .bot - 1) (by omega) t ht (Since.last _ (by omega)) l
        have h3 := hvr l
        have h4 := w.m.msg .bot (s.mem.len .bot - 1) (by omega) l
        split
        · subst_vars; omega
        · rename_i hl; have := h3 hl; omega
    · rw [if_neg hkn]
      have hs' : Since (s.mem.len .bot) (s.mem.val .bot) (undecided s.opc) t k := by
        intro k' h1 h2
        have := hs k' h1 (by omega)
        rw [Mem.val_append, if_neg (by simp; omega)] at this
        simp only [undecided, Bool.false_eq_true, and_false, or_false] at this
        exact .inl this
      exact h.g k (by omega) t ht hs' l
  case pop2 b buf hpc =>
    rw [hpc] at ip
    simp only [Pc] at ip
    have e1 : lastB s = s.mem.val .bot (s.mem.len .bot - 1) := rfl
    rw [e1] at ip
    simp only [Mem.store, Mem.len_append, Mem.view_append, Mem.sc_append, tp, ne_eq, reduceCtorEq, not_false_eq_true,
      if_false, if_true, true_and] at hk ht hs ⊢
    by_cases hkn : k = s.mem.len .bot
    · rw [if_pos hkn]
      have h1 := hs k (Nat.le_refl _) (by omega)
      simp only [Mem.val_append, hkn, and_self, if_true, undecided] at h1
      simp only [TV.msg, Bool.false_eq_true, if_false]
      have h2 := h.g (s.mem.len .bot - 1) (by omega) t ht (Since.last _ (by omega)) l
      have h3 := hvr l
      have h4 := w.m.msg .bot (s.mem.len .bot - 1) (by omega) l
      split
      · subst_vars; omega
      · rename_i hl; have := h3 hl; omega
    · rw [if_neg hkn]
      have hs' : Since (s.mem.len .bot) (s.mem.val .bot) (undecided s.opc) t k := by
        intro k' h1 h2
        have := hs k' h1 (by omega)
        rw [Mem.val_append, if_neg (by simp; omega)] at this
        left; omega
      exact h.g k (by omega) t ht hs' l
  case pop5 b hpc =>
    rw [hpc] at ip
    simp only [Pc] at ip
    have e1 : lastB s = s.mem.val .bot (s.mem.len .bot - 1) := rfl
    rw [e1] at ip
    exfalso
    simp only [Mem.store, Mem.len_append, Mem.view_append, Mem.sc_append, tp, ne_eq, reduceCtorEq, not_false_eq_true,
      if_false, if_true, true_and] at hk ht hs ip
    have h1 := hs (s.mem.len .bot) (by omega) (by omega)
    simp only [Mem.val_append, and_self, if_true, undecided, Bool.false_eq_true, and_false, or_false] at h1
    omega
  case pop6 b buf hpc =>
    rw [hpc] at ip
    simp only [Pc] at ip
    have e1 : lastB s = s.mem.val .bot (s.mem.len .bot - 1) := rfl
    rw [e1] at ip
    exfalso
    simp only [Mem.store, Mem.len_append, Mem.view_append, Mem.sc_append, tp, ne_eq, reduceCtorEq, not_false_eq_true,
      if_false, if_true, true_and] at hk ht hs ip
    have h1 := hs (s.mem.len .bot) (by omega) (by omega)
    simp only [Mem.val_append, and_self, if_true, undecided, Bool.false_eq_true, and_false, or_false] at h1
    omega
  case pop4ok b buf hpc h2 =>
    simp only [Mem.rmw, Mem.len_append, Mem.val_append_ne, Mem.view_append, Mem.sc_append, tp, ne_eq, reduceCtorEq, not_false_eq_true,
      if_false, if_true, false_and] at hk ht hs ⊢
    exact h.g k hk t (by unfold tp; omega) (Since.weaken hs) l
  case st4ok i t' k' v hpc h2 =>
    simp only [Mem.rmw, Mem.len_append, Mem.val_append_ne, Mem.view_append, Mem.sc_append, tp, ne_eq, reduceCtorEq, not_false_eq_true,
      if_false, if_true, false_and] at hk ht hs ⊢
    exact h.g k hk t (by unfold tp; omega) hs l
  case odata n v hpc =>
    simp only [Mem.store, Mem.len_append, Mem.val_append_ne, Mem.view_append, Mem.sc_append, tp, ne_eq, reduceCtorEq, not_false_eq_true,
      if_false, if_true, false_and] at hk ht hs ⊢
    exact h.g k hk t (by unfold tp; omega) hs l
  case tdata i n v hpc =>
    simp only [Mem.store, Mem.len_append, Mem.val_append_ne, Mem.view_append, Mem.sc_append, tp, ne_eq, reduceCtorEq, not_false_eq_true,
      if_false, if_true, false_and] at hk ht hs ⊢
    exact h.g k hk t (by unfold tp; omega) hs l
  case popF b buf hpc =>
    refine h.g k hk t ht ?_ l
    rw [hpc]; exact hs
  case stF => exact h.g k hk t ht hs l
  case pop3eq b buf i hpc hc h2 =>
    refine h.g k hk t ht ?_ l
    rw [hpc]; exact hs
  case sinv | sret | tsync | st0 | st1 | st1empty | st2 | st3 | st4fail | osync => exact h.g k hk t ht hs l
  all_goals exact h.g k hk t ht (Since.weaken hs) l

/-- Views of the owner only grow. -/
theorem ocur_mono {relBuf : Bool} {cap : Nat} {s s' : St ι} {e : Option (Ev ι Int)} (w : IW s) (st : Step relBuf cap s e s') (l : Loc) :
    s.otv.cur l ≤ s'.otv.cur l := by
  have := w.o.cur l
  cases st <;> simp only [TV.read, TV.bump, TV.rmw, TV.fenceRel, TV.fenceSC, scView, join] <;> grind

/-- Views of the thieves only grow. -/
theorem tcur_mono {relBuf : Bool} {cap : Nat} {s s' : St ι} {e : Option (Ev ι Int)} (w : IW s) (st : Step relBuf cap s e s') (i : ι) (l : Loc) :
    (s.ttv i).cur l ≤ (s'.ttv i).cur l := by
  have := (w.t i).cur l
  cases st <;> simp only [setT] <;> first | exact Nat.le_refl _ | split
  all_goals first | exact Nat.le_refl _ | skip
  all_goals subst_vars
  all_goals simp only [TV.read, TV.bump, TV.rmw, TV.fenceRel, TV.fenceSC, scView, join]
  all_goals first | omega | (split <;> subst_vars <;> omega)

theorem PI.t_step {relBuf : Bool} {cap : Nat} {s s' : St ι} {e : Option (Ev ι Int)} {Q Q' : Int → View Loc → Prop} {ct : Int → Int}
    {pv : Int → View Loc} (h : PI Q ct pv s) (ib : IB cap s) (th : ∀ i, TH cap ct (tp s) s.mem (s.ttv i).cur (s.tpc i))
    (hQ : ∀ v w, Q v w → Q' v w) (st : Step relBuf cap s e s') (i : ι) :
    TQ Q' pv (tp s') (s'.ttv i).cur (s'.tpc i) := by
  have hT := (ends_step ib st).1
  have hc := tcur_mono ib.w st i
  have hi := (h.t i).mono (ib.id i) hQ hT hc
  cases st
  case sinv j hpc => by_cases e : i = j <;> simp_all [setT, TQ]
  case sret j r hpc => by_cases e : i = j <;> simp_all [setT, TQ]
  case st0 j k hpc hcr => by_cases e : i = j <;> simp_all [setT, TQ]
  case stF j t hpc => by_cases e : i = j <;> simp_all [setT, TQ]
  case st1empty j t k hpc hcr h2 => by_cases e : i = j <;> simp_all [setT, TQ]
  case st4fail j t k v l hpc hcr h2 => by_cases e : i = j <;> simp_all [setT, TQ]
  case st1 j t k hpc hcr h2 =>
    by_cases e : i = j
    · subst e
      simp only [setT, if_true, TQ]
      intro hT' l
      have idx := ib.id i
      rw [hpc] at idx
      simp only [Th] at idx
      have h3 := idx.2.2.2.1 hT' k hcr.1 hcr.2 h2
      have := h.g k hcr.2 t (Int.le_of_eq hT') h3 l
      simp only [TV.read, if_true]
      omega
    · simpa [setT, e] using hi
  case st2 j t k l hpc hcr =>
    by_cases e : i = j
    · subst e; rw [hpc] at hi; simpa [setT, TQ] using hi
    · simpa [setT, e] using hi
  case st3 j t k buf l hpc hcr =>
    by_cases e : i = j
    · subst e; rw [hpc] at hi; simpa [setT, TQ] using hi
    · simpa [setT, e] using hi
  case st4ok j t k v hpc h2 =>
    by_cases e : i = j
    · subst e
      have hTv : tp s = t := by
        have := ib.vs.topv (s.mem.last .top) (by have := ib.w.m.pos .top; unfold Mem.last; omega)
        have := ib.w.m.pos .top
        unfold tp; unfold Mem.last at *; omega
      have h3 := h.t i
      have h4 := th i
      rw [hpc] at h3 h4
      have h5 := h3 hTv
      have h6 := h4 hTv
      have h7 := (st4_live (cap := cap) ib.w ib.id i t k v hpc hTv).1
      have h8 := h.p t (Int.le_of_eq hTv) h7
      simp only [setT, if_true, TQ] at hc ⊢
      refine ⟨pv t, hQ _ _ (by rw [h6]; exact h8), fun l => Nat.le_trans (h5 l) (hc l)⟩
    · simpa [setT, e] using hi
  all_goals exact hi

theorem PI.o_step {relBuf : Bool} {cap : Nat} {s s' : St ι} {e : Option (Ev ι Int)} {Q Q' : Int → View Loc → Prop} {ct : Int → Int}
    {pv : Int → View Loc} (h : PI Q ct pv s) (w : IW s) (hQ : ∀ v w, Q v w → Q' v w)
    (hnew : ∀ v, e = some (.oinv (.push v)) → Q' v s.otv.cur) (st : Step relBuf cap s e s')
    (hp5 : ∀ v b buf, s.opc ≠ .push5 v b buf ∨ s'.opc = s.opc) :
    OQ Q' pv s'.otv.cur s'.otv.rel s'.opc := by
  have hc := ocur_mono w st
  have ho := h.o.mono hQ hc
  cases st
  case push5 v b buf hpc =>
    rcases hp5 v b buf with h1 | h1
    · exact absurd hpc h1
    · rw [hpc] at h1; cases h1
  case oinvPush v hpc => exact ⟨_, hnew v rfl, fun l => Nat.le_refl _⟩
  case push6 v b hpc => rw [hpc] at ho; exact ho
  case osync _ hpc _ => rw [hpc]; trivial
  case odata _ _ hpc => rw [hpc]; trivial
  case sinv | sret | tsync | tdata | st0 | st1 | st1empty | st2 | st3 | st4fail | stF | st4ok => exact ho
  case push0 hpc _ => rw [hpc] at ho; exact ho
  case push1 hpc _ => rw [hpc] at ho; exact ho
  case push2 hpc _ _ => rw [hpc] at ho; exact ho
  case push2full hpc _ _ => rw [hpc] at ho; exact ho
  case copy hpc _ _ => rw [hpc] at ho; exact ho
  case copied hpc _ => rw [hpc] at ho; exact ho
  case push4 hpc => rw [hpc] at ho; exact ho
  all_goals trivial

theorem PI.stepOther {relBuf : Bool} {cap : Nat} {s s' : St ι} {e : Option (Ev ι Int)} {Q Q' : Int → View Loc → Prop} {ct : Int → Int}
    {pv : Int → View Loc} (h : PI Q ct pv s) (hi : Inv cap ct s) (hQ : ∀ v w, Q v w → Q' v w)
    (hnew : ∀ v, e = some (.oinv (.push v)) → Q' v s.otv.cur) (st : Step relBuf cap s e s')
    (hp5 : ∀ v b buf, s.opc ≠ .push5 v b buf ∨ s'.opc = s.opc) : PI Q' ct pv s' := by
  refine ⟨h.g_step hi.b st hp5, fun t h1 h2 => ?_, h.o_step hi.b.w hQ hnew st hp5, h.t_step hi.b hi.t hQ st⟩
  obtain ⟨h3, h4⟩ := ends_step hi.b st
  rcases h4 with h4 | ⟨v, b, hpc, h4, h5⟩
  · exact hQ _ _ (h.p t (by omega) (by omega))
  · by_cases htb : t = b
    · subst htb
      have h6 := h.o
      have h7 := hi.o
      rw [hpc] at h6 h7
      rw [h7.2.1]
      exact hQ _ _ h6.1
    · exact hQ _ _ (h.p t (by omega) (by omega))

theorem PI.stepPush5 {cap : Nat} {s : St ι} {Q Q' : Int → View Loc → Prop} {ct : Int → Int}
    {pv : Int → View Loc} (h : PI Q ct pv s) (hi : Inv cap ct s) (hQ : ∀ v w, Q v w → Q' v w) {v b : Int} {buf : Nat}
    (hpc : s.opc = .push5 v b buf) : ∃ pv', PI Q' (upd ct b v) pv' { s with
      mem := s.mem.store s.otv (slot cap buf b) v false, otv := s.otv.bump s.mem (slot cap buf b), opc := .push6 v b } := by
  obtain ⟨w, hw1, hw2⟩ : ∃ w, Q v w ∧ ∀ l, w l ≤ s.otv.cur l := by have := h.o; rw [hpc] at this; exact this
  have ip := hi.b.ip
  unfold IP at ip
  rw [hpc] at ip
  simp only [Pc] at ip
  have elog : logB s = b := by simp only [logB, hpc, lowered, Bool.false_eq_true, if_false]; omega
  have hcl := hi.b.w.o.cur
  let pv' : Int → View Loc := fun t => if t = b then w else pv t
  have hpv : ∀ t, t < b → pv' t = pv t := fun t ht => by simp only [pv']; rw [if_neg (by omega)]
  refine ⟨pv', fun k hk t ht hs l => ?_, fun t h1 h2 => ?_, ?_, fun i => ?_⟩
  · simp only [Mem.store, Mem.len_append, Mem.val_append_ne, Mem.view_append, tp, ne_eq, bot_ne_slot, top_ne_slot, not_false_eq_true,
      if_false, false_and] at hk ht hs ⊢
    have hs' : Since (s.mem.len .bot) (s.mem.val .bot) (undecided s.opc) t k := Since.weaken hs
    have h1 := live_of_since hk hs'
    rw [hpv t (by omega)]
    exact h.g k hk t ht hs' l
  · have e1 : tp { s with
      mem := s.mem.store s.otv (slot cap buf b) v false, otv := s.otv.bump s.mem (slot cap buf b), opc := .push6 v b } = tp s := by
      simp [tp, Mem.store, Mem.len_append]
    have e2 : logB { s with
      mem := s.mem.store s.otv (slot cap buf b) v false, otv := s.otv.bump s.mem (slot cap buf b), opc := .push6 v b } = logB s := by
      simp [logB, lastB, lowered, hpc, Mem.store, Mem.lastv_append]
    rw [e1] at h1; rw [e2, elog] at h2
    have e3 : upd ct b v t = ct t := by unfold upd; rw [if_neg (by omega)]
    rw [e3, hpv t h2]
    exact hQ _ _ (h.p t h1 (by omega))
  · refine ⟨by simp only [pv', if_true]; exact hQ _ _ hw1, fun l => ?_⟩
    simp only [pv', if_true, TV.bump]
    have := hw2 l
    have := hcl l
    split
    · subst_vars; omega
    · assumption
  · have e1 : tp { s with
      mem := s.mem.store s.otv (slot cap buf b) v false, otv := s.otv.bump s.mem (slot cap buf b), opc := .push6 v b } = tp s := by
      simp [tp, Mem.store, Mem.len_append]
    rw [e1]
    have hx := (h.t i).mono (hi.b.id i) hQ (Int.le_refl _) (fun l => Nat.le_refl _)
    have idx := hi.b.id i
    show TQ Q' pv' (tp s) (s.ttv i).cur (s.tpc i)
    cases hpx : s.tpc i <;> rw [hpx] at hx idx <;> simp only [TQ, Th] at hx idx ⊢
    case ret r => cases r <;> exact hx
    all_goals
      intro hT
      have hl := live_of_since idx.2.2.2.1 (idx.2.2.2.2.2.1 hT)
      rw [hpv _ (by omega)]
      exact hx hT

/-- Executions from `s` to `s'` with history `h`. -/
inductive Path (relBuf : Bool) (cap : Nat) : St ι → List (Ev ι Int) → St ι → Prop where
  | refl (s : St ι) : Path relBuf cap s [] s
  | tau {s h s' s''} : Path relBuf cap s h s' → Step relBuf cap s' none s'' → Path relBuf cap s h s''
  | vis {s h s' e s''} : Path relBuf cap s h s' → Step relBuf cap s' (some e) s'' → Path relBuf cap s (h ++ [e]) s''

/-- In the execution with history `h` that has led to `s`, a push of `v` was invoked when the owner had the view `w`. -/
def PushedWith (relBuf : Bool) (cap : Nat) (h : List (Ev ι Int)) (s : St ι) (v : Int) (w : View Loc) : Prop :=
  ∃ h0 s0 s1 h1, Reach relBuf cap h0 s0 ∧ Step relBuf cap s0 (some (.oinv (.push v))) s1 ∧ Path relBuf cap s1 h1 s ∧
    h = h0 ++ .oinv (.push v) :: h1 ∧ s0.otv.cur = w

theorem PushedWith.tau {relBuf : Bool} {cap : Nat} {h : List (Ev ι Int)} {s s' : St ι} {v : Int} {w : View Loc}
    (p : PushedWith relBuf cap h s v w) (st : Step relBuf cap s none s') : PushedWith relBuf cap h s' v w := by
  obtain ⟨h0, s0, s1, h1, a, b, c, d, e⟩ := p
  exact ⟨h0, s0, s1, h1, a, b, c.tau st, d, e⟩

theorem PushedWith.vis {relBuf : Bool} {cap : Nat} {h : List (Ev ι Int)} {s s' : St ι} {v : Int} {w : View Loc} {e : Ev ι Int}
    (p : PushedWith relBuf cap h s v w) (st : Step relBuf cap s (some e) s') : PushedWith relBuf cap (h ++ [e]) s' v w := by
  obtain ⟨h0, s0, s1, h1, a, b, c, d, e⟩ := p
  exact ⟨h0, s0, s1, _, a, b, c.vis st, by rw [d]; simp, e⟩

theorem pi_step {relBuf : Bool} {cap : Nat} (hc0 : 0 < cap) {s s' : St ι} {e : Option (Ev ι Int)} {Q Q' : Int → View Loc → Prop}
    {ct : Int → Int} {pv : Int → View Loc} (h : PI Q ct pv s) (hi : Inv cap ct s) (hb : relBuf = true ∨ s'.mem.len .ptr = 1)
    (hQ : ∀ v w, Q v w → Q' v w) (hnew : ∀ v, e = some (.oinv (.push v)) → Q' v s.otv.cur) (st : Step relBuf cap s e s') :
    ∃ ct' pv', Inv cap ct' s' ∧ PI Q' ct' pv' s' := by
  by_cases hp : ∀ v b buf, s.opc ≠ .push5 v b buf ∨ s'.opc = s.opc
  · exact ⟨ct, pv, hi.stepOther hc0 hb hp st, h.stepOther hi hQ hnew st hp⟩
  · simp only [not_forall, not_or] at hp
    obtain ⟨v, b, buf, h1, h2⟩ := hp
    have h1 := Classical.not_not.1 h1
    have h3 := hi.stepPush5 (relBuf := relBuf) hc0 h1
    obtain ⟨pv', h4⟩ := h.stepPush5 hi hQ h1
    refine ⟨upd ct b v, pv', ?_⟩
    cases st
    case push5 hpc =>
      rw [h1] at hpc
      cases hpc
      exact ⟨h3, h4⟩
    all_goals first
      | (exact absurd rfl h2)
      | (rename_i hpc; rw [h1] at hpc; cases hpc)
      | (rename_i hpc _; rw [h1] at hpc; cases hpc)
      | (rename_i hpc _ _; rw [h1] at hpc; cases hpc)

theorem pi_reach {relBuf : Bool} {cap : Nat} (hc0 : 0 < cap) {h : List (Ev ι Int)} {s : St ι} (hr : Reach relBuf cap h s)
    (hb : relBuf = true ∨ s.mem.len .ptr = 1) : ∃ ct pv, Inv cap ct s ∧ PI (PushedWith relBuf cap h s) ct pv s := by
  induction hr with
  | init junk =>
    refine ⟨fun _ => 0, fun _ _ => 0, .init _ _, ⟨fun _ _ _ _ _ _ => Nat.zero_le _, fun t h1 h2 => ?_, trivial, fun _ => trivial⟩⟩
    exfalso
    simp [tp, logB, lastB, St.init, Mem.init, lowered, Mem.lastv] at h1 h2
    omega
  | @tau h s s' hr st ih =>
    have h1 := len_ptr_mono st
    have hpos := len_ptr_pos hr
    obtain ⟨ct, pv, hi, hp⟩ := ih (by rcases hb with h | h; exact .inl h; right; omega)
    exact pi_step hc0 hp hi hb (fun v w q => q.tau st) (fun v e => by cases e) st
  | @vis h s e s' hr st ih =>
    have h1 := len_ptr_mono st
    have hpos := len_ptr_pos hr
    obtain ⟨ct, pv, hi, hp⟩ := ih (by rcases hb with h | h; exact .inl h; right; omega)
    refine pi_step hc0 hp hi hb (fun v w q => q.vis st) (fun v ev => ?_) st
    cases ev
    exact ⟨h, s, s', [], hr, st, .refl _, rfl, rfl⟩

/-- **C44, with a release store in line 395.** When a steal is about to return `v`, a push of `v` was invoked earlier such that the thief
knows everything the owner knew at that moment: everything that happened before that push happens before the return of the steal. -/
theorem steal_synchronises_if_release {cap : Nat} (hc : 0 < cap) {h : List (Ev ι Int)} {s : St ι} (hr : Reach true cap h s) {i : ι}
    {v : Int} (hi : s.tpc i = .ret (.got v)) :
    ∃ w, PushedWith true cap h s v w ∧ ∀ l, w l ≤ (s.ttv i).cur l := by
  obtain ⟨ct, pv, -, hp⟩ := pi_reach hc hr (.inl rfl)
  have := hp.t i
  rw [hi] at this
  exact this

/-- **C44 for the code as it is, partial: executions in which the deque never grows.** Missing: executions with growth, in which the
thief may even obtain a value that was never pushed, see `weak_deque_violates`. -/
theorem steal_synchronises_partial {cap : Nat} (hc : 0 < cap) {h : List (Ev ι Int)} {s : St ι} (hr : Reach false cap h s)
    (hg : s.mem.len .ptr = 1) {i : ι} {v : Int} (hi : s.tpc i = .ret (.got v)) :
    ∃ w, PushedWith false cap h s v w ∧ ∀ l, w l ≤ (s.ttv i).cur l := by
  obtain ⟨ct, pv, -, hp⟩ := pi_reach hc hr (.inr hg)
  have := hp.t i
  rw [hi] at this
  exact this

/-- The same for a memory cell of the client: if the owner knew message `m` of the cell when it invoked the push, then a thief that gets
the item reads nothing older than `m`. -/
theorem steal_reads_new_if_release {cap : Nat} (hc : 0 < cap) {h : List (Ev ι Int)} {s : St ι} (hr : Reach true cap h s) {i : ι}
    {v : Int} (hi : s.tpc i = .ret (.got v)) :
    ∃ h0 s0 s1 h1, Reach true cap h0 s0 ∧ Step true cap s0 (some (.oinv (.push v))) s1 ∧ Path true cap s1 h1 s ∧
      h = h0 ++ .oinv (.push v) :: h1 ∧
      ∀ n m, m ≤ s0.otv.cur (.data n) → ∀ j, CanRead s.mem (s.ttv i) (.data n) j → m ≤ j := by
  obtain ⟨w, ⟨h0, s0, s1, h1, a, b, c, d, e⟩, hw⟩ := steal_synchronises_if_release hc hr hi
  refine ⟨h0, s0, s1, h1, a, b, c, d, fun n m hm j hj => ?_⟩
  have h1 := hj.1
  have h2 := hw (.data n)
  subst e
  omega

/-- The hypotheses are met: the owner writes 42 to cell 0 and pushes 5; a thief that has not synchronised with it otherwise steals the
5, and cannot read the old value of the cell any more. -/
example : ∃ (s : St (Fin 1)), Reach true 1 [.oinv (.push 5), .ores .pushed, .sinv 0] s ∧ s.tpc 0 = .ret (.got 5) ∧
    s.mem.len .ptr = 1 ∧ s.mem.len (.data 0) = 2 ∧ s.mem.val (.data 0) 1 = 42 ∧ (s.ttv 0).cur (.data 0) = 1 := by
  have r := Reach.init (ι := Fin 1) (relBuf := true) (cap := 1) (fun _ _ => 77)
  replace r := r.tau (.odata 0 42 rfl)
  replace r := r.vis (.oinvPush 5 rfl)
  replace r := r.tau (.push0 (i := 0) rfl (by constructor <;> decide +kernel))
  replace r := r.tau (.push1 (i := 0) rfl (by constructor <;> decide +kernel))
  replace r := r.tau (.push2 (i := 0) rfl (by constructor <;> decide +kernel) (by decide +kernel))
  replace r := r.tau (.push5 rfl)
  replace r := r.tau (.push6 rfl)
  replace r := r.tau (.push7 rfl)
  replace r := r.vis (.oret rfl)
  replace r := r.vis (.sinv (i := 0) rfl)
  replace r := r.tau (.st0 (i := 0) (j := 0) rfl (by constructor <;> decide +kernel))
  replace r := r.tau (.stF (i := 0) rfl)
  replace r := r.tau (.st1 (i := 0) (k := 1) rfl (by constructor <;> decide +kernel) (by decide +kernel))
  replace r := r.tau (.st2 (i := 0) (j := 0) rfl (by constructor <;> decide +kernel))
  replace r := r.tau (.st3 (i := 0) (j := 1) rfl (by constructor <;> decide +kernel))
  replace r := r.tau (.st4ok (i := 0) rfl (by decide +kernel))
  exact ⟨_, r, rfl, by decide +kernel, by decide +kernel, by decide +kernel, by decide +kernel⟩

end Verif.Weak
