import Verif.Weak.Inv3

/-! Preservation of the invariants of `Inv3`. -/
namespace Verif.Weak
open Verif.Deque (Ev OOp ORet SRet setT)
variable {ι : Type} [DecidableEq ι]

theorem st4_live {cap : Nat} {s : St ι} (w : IW s) (hid : ID s) (i : ι) (t : Int) (k : Nat) (v : Int)
    (hpc : s.tpc i = .st4 t k v) (hT : tp s = t) : t < logB s ∧ t ≤ s.mem.sc .top ∧
      (isPop3 s.opc = true → lastB s ≤ t → lastB s ≤ s.otv.cur .top) := by
  have h := hid i
  rw [hpc] at h
  simp only [Th] at h
  obtain ⟨h1, h2, h3, h4, h5, h6, h7⟩ := h
  have h8 := h6 hT (s.mem.len .bot - 1) (by omega) (by omega)
  refine ⟨?_, h3, fun h9 h10 => ?_⟩
  · unfold logB lastB Mem.lastv
    have : undecided s.opc = true → lowered s.opc = true := by cases s.opc <;> simp [undecided, lowered]
    grind
  · have h11 := h7 hT h9
    unfold lastB Mem.lastv at *
    by_cases h12 : k + 1 = s.mem.len .bot
    · have : s.mem.len .bot - 1 = k := by omega
      rw [this] at h10
      omega
    · omega

theorem IC.step {relBuf : Bool} {cap : Nat} {s s' : St ι} {e : Option (Ev ι Int)} (h : IC s) (w : IW s) (ow : Own s)
    (vs : Vals s) (ip : IP cap s) (hid : ID s) (st : Step relBuf cap s e s') : IC s' := by
  have hst := fun i t k v => st4_live (cap := cap) w hid i t k v
  obtain ⟨mon, pF, sct, p3⟩ := h
  have hb0 := w.m.pos .bot
  have ht0 := w.m.pos .top
  have ob := ow .bot (by simp)
  have obA := w.o.acq .bot
  have obS := w.m.sc .bot
  have vt := vs.topv
  unfold IP at ip
  cases st
  case push7 v b hpc =>
    rw [hpc] at mon pF p3 ip
    simp only [Pc, isPopF, isPop3, Bool.false_eq_true, false_implies, implies_true, forall_const] at mon ip
    have := mon_store (q := false) (v' := (s.mem.store s.otv .bot (b + 1) false).val .bot) (x := b + 1) hb0 mon
      (by intro k hk; simp only [Mem.store, Mem.val_append]; grind) (by simp [Mem.store, Mem.val_append])
      (by intro _; have := ip.2.1; unfold lastB Mem.lastv at this; omega)
    refine ⟨?_, by simp [isPopF], ?_, by simp [isPop3]⟩
    · simpa [Mem.store, Mem.len_append, isPopF, Mem.sc_append] using this
    · simpa [Mem.store, Mem.len_append, tp, Mem.sc_append, TV.bump] using sct
  case pop2 b buf hpc =>
    rw [hpc] at mon pF p3 ip
    simp only [Pc, isPopF, isPop3, Bool.false_eq_true, false_implies, implies_true, forall_const] at mon ip
    have := mon_store (q := true) (v' := (s.mem.store s.otv .bot b false).val .bot) (x := b) hb0 mon
      (by intro k hk; simp only [Mem.store, Mem.val_append]; grind) (by simp [Mem.store, Mem.val_append])
      (by simp)
    refine ⟨?_, ?_, ?_, by simp [isPop3]⟩
    · simpa [Mem.store, Mem.len_append, isPopF, Mem.sc_append] using this
    · intro _
      have h1 : b = s.mem.val .bot (s.mem.len .bot - 1) - 1 := ip.2.2.1
      have h2 : s.mem.len .bot + 1 - 2 = s.mem.len .bot - 1 := by omega
      have h3 : s.mem.len .bot - 1 ≠ s.mem.len .bot := by omega
      simp only [Mem.store, Mem.len_append, Mem.val_append, if_true, Nat.add_sub_cancel, and_self, h2, h3, and_false, if_false]
      omega
    · simpa [Mem.store, Mem.len_append, tp, Mem.sc_append, TV.bump] using sct
  case pop5 b hpc =>
    rw [hpc] at mon pF p3 ip
    simp only [Pc, isPopF, isPop3, Bool.false_eq_true, false_implies, implies_true, forall_const] at mon ip
    have := mon_store (q := false) (v' := (s.mem.store s.otv .bot (b + 1) false).val .bot) (x := b + 1) hb0 mon
      (by intro k hk; simp only [Mem.store, Mem.val_append]; grind) (by simp [Mem.store, Mem.val_append])
      (by intro _; have := ip.2.2; unfold lastB Mem.lastv at this; omega)
    refine ⟨?_, by simp [isPopF], ?_, by simp [isPop3]⟩
    · simpa [Mem.store, Mem.len_append, isPopF, Mem.sc_append] using this
    · simpa [Mem.store, Mem.len_append, tp, Mem.sc_append, TV.bump] using sct
  case pop6 b buf hpc =>
    rw [hpc] at mon pF p3 ip
    simp only [Pc, isPopF, isPop3, Bool.false_eq_true, false_implies, implies_true, forall_const] at mon ip
    have := mon_store (q := false) (v' := (s.mem.store s.otv .bot (b + 1) false).val .bot) (x := b + 1) hb0 mon
      (by intro k hk; simp only [Mem.store, Mem.val_append]; grind) (by simp [Mem.store, Mem.val_append])
      (by intro _; have := ip.2.2.1; unfold lastB Mem.lastv at this; omega)
    refine ⟨?_, by simp [isPopF], ?_, by simp [isPop3]⟩
    · simpa [Mem.store, Mem.len_append, isPopF, Mem.sc_append] using this
    · simpa [Mem.store, Mem.len_append, tp, Mem.sc_append, TV.bump] using sct
  case popF b buf hpc =>
    rw [hpc] at mon pF p3 ip
    simp only [Pc] at ip
    refine ⟨?_, by simp [isPopF], ?_, ?_⟩
    · simp only [Mem.fenceSC, scView, join]
      intro i j h1 h2 h3 _
      have : i = j := by omega
      subst this; exact Int.le_refl _
    · simp only [Mem.fenceSC, TV.fenceSC, scView, join, tp] at *; omega
    · intro _
      simp only [Mem.fenceSC, TV.fenceSC, scView, join, tp, lastB, Mem.lastv] at *
      omega
  case pop4ok b buf hpc h2 =>
    rw [hpc] at mon pF p3
    refine ⟨?_, by simp [isPopF], ?_, by simp [isPop3]⟩
    · simpa [Mem.rmw, Mem.len_append, Mem.val_append, Mem.sc_append, isPopF] using mon
    · right
      simp only [Mem.rmw, Mem.len_append, tp, TV.rmw, TV.bump, if_true]
      omega
  case stF i t hpc =>
    refine ⟨?_, pF, ?_, ?_⟩
    · intro i j h1
      exact mon i j (by simp only [Mem.fenceSC, scView, join] at h1; omega)
    · simp only [Mem.fenceSC, scView, join, tp] at *; omega
    · intro h1
      have h2 := p3 h1
      have := (w.t i).cur .bot
      have := (w.t i).acq .bot
      simp only [Mem.fenceSC, scView, join, tp, lastB, Mem.lastv] at *
      exact ⟨by omega, h2.2⟩
  case st4ok i t k v hpc h2 =>
    have hT : tp s = t := by
      have := vt (s.mem.last .top) (by unfold Mem.last; omega)
      unfold tp; unfold Mem.last at *; omega
    obtain ⟨h3, h4, h5⟩ := hst i t k v hpc hT
    refine ⟨?_, ?_, ?_, ?_⟩
    · simpa [Mem.rmw, Mem.len_append, Mem.val_append, Mem.sc_append] using mon
    · simpa [Mem.rmw, Mem.len_append, Mem.val_append, Mem.sc_append] using pF
    · simp only [Mem.rmw, Mem.len_append, Mem.sc_append, tp, if_true] at *
      omega
    · intro h6
      have h7 := p3 h6
      have h8 := h5 h6
      simp only [Mem.rmw, Mem.len_append, Mem.sc_append, tp, if_true, lastB, Mem.lastv_append, reduceCtorEq, if_false] at *
      exact ⟨h7.1, fun h9 => h8 (by omega)⟩
  case sinv | sret | tsync | st0 | st1 | st1empty | st2 | st3 | st4fail => exact ⟨mon, pF, sct, p3⟩
  case copy hpc h1 hc =>
    rw [hpc] at mon pF p3
    refine ⟨?_, by simp [isPopF], ?_, by simp [isPop3]⟩
    · simpa [Mem.store, Mem.len_append, Mem.val_append, Mem.sc_append, isPopF] using mon
    · simp only [Mem.store, Mem.len_append, Mem.sc_append, tp, TV.bump, TV.read, top_ne_slot, if_false] at *
      omega
  case push4 hpc =>
    rw [hpc] at mon pF p3
    refine ⟨?_, by simp [isPopF], ?_, by simp [isPop3]⟩
    · simpa [Mem.store, Mem.len_append, Mem.val_append, Mem.sc_append, isPopF] using mon
    · simpa [Mem.store, Mem.len_append, Mem.sc_append, tp, TV.bump] using sct
  case push5 hpc =>
    rw [hpc] at mon pF p3
    refine ⟨?_, by simp [isPopF], ?_, by simp [isPop3]⟩
    · simpa [Mem.store, Mem.len_append, Mem.val_append, Mem.sc_append, isPopF] using mon
    · simpa [Mem.store, Mem.len_append, Mem.sc_append, tp, TV.bump] using sct
  case odata n v hpc =>
    rw [hpc] at mon pF p3
    refine ⟨?_, by simp [isPopF, hpc], ?_, by simp [isPop3, hpc]⟩
    · simpa [Mem.store, Mem.len_append, Mem.val_append, Mem.sc_append, isPopF, hpc] using mon
    · simpa [Mem.store, Mem.len_append, Mem.sc_append, tp, TV.bump] using sct
  case tdata i n v hpc =>
    refine ⟨?_, ?_, ?_, ?_⟩
    · simpa [Mem.store, Mem.len_append, Mem.val_append, Mem.sc_append] using mon
    · simpa [Mem.store, Mem.len_append, Mem.val_append, Mem.sc_append] using pF
    · simpa [Mem.store, Mem.len_append, Mem.sc_append, tp, TV.bump] using sct
    · simpa [Mem.store, Mem.len_append, Mem.sc_append, tp, lastB, Mem.lastv_append] using p3
  case osync hpc _ =>
    refine ⟨mon, pF, ?_, by rw [hpc]; simp [isPop3]⟩
    simp only [tp, join] at *
    omega
  all_goals
    first
      | (rename_i hpc; rw [hpc] at mon; refine ⟨by simpa [isPopF] using mon, by simp [isPopF], ?_, by simp [isPop3]⟩)
      | (rename_i hpc _; rw [hpc] at mon; refine ⟨by simpa [isPopF] using mon, by simp [isPopF], ?_, by simp [isPop3]⟩)
      | (rename_i hpc _ _; rw [hpc] at mon; refine ⟨by simpa [isPopF] using mon, by simp [isPopF], ?_, by simp [isPop3]⟩)
    simp only [tp, TV.read, TV.fenceRel] at *
    omega

theorem ID.step {relBuf : Bool} {cap : Nat} {s s' : St ι} {e : Option (Ev ι Int)} (h : ID s) (w : IW s) (ow : Own s)
    (vs : Vals s) (ip : IP cap s) (ic : IC s) (st : Step relBuf cap s e s') : ID s' := by
  have hb0 := w.m.pos .bot
  have ht0 := w.m.pos .top
  have vt := vs.topv
  have hTv : s.mem.val .top (s.mem.last .top) = tp s := by
    have := vt (s.mem.last .top) (by unfold Mem.last; omega)
    unfold tp; unfold Mem.last at *; omega
  unfold IP at ip
  intro j
  have hj := h j
  cases st
  case push7 v b hpc =>
    rw [hpc] at hj ip
    simp only [Pc, undecided, lastB, Mem.lastv] at hj ip
    have := hj.store (v' := (s.mem.store s.otv .bot (b + 1) false).val .bot) (x := b + 1) (u' := false) (oc' := s.otv.cur .top) rfl hb0
      (by omega) (by intro k hk; simp only [Mem.store, Mem.val_append]; grind) (by simp [Mem.store, Mem.val_append])
    simpa [Mem.store, Mem.len_append, Mem.sc_append, tp, TV.bump, undecided, isPop3] using this
  case pop2 b buf hpc =>
    rw [hpc] at hj ip
    simp only [Pc, undecided, lastB, Mem.lastv] at hj ip
    have := hj.store (v' := (s.mem.store s.otv .bot b false).val .bot) (x := b) (u' := true) (oc' := s.otv.cur .top) rfl hb0
      (by grind) (by intro k hk; simp only [Mem.store, Mem.val_append]; grind) (by simp [Mem.store, Mem.val_append])
    simpa [Mem.store, Mem.len_append, Mem.sc_append, tp, TV.bump, undecided, isPop3] using this
  case pop5 b hpc =>
    rw [hpc] at hj ip
    simp only [Pc, undecided, lastB, Mem.lastv] at hj ip
    have := hj.store (v' := (s.mem.store s.otv .bot (b + 1) false).val .bot) (x := b + 1) (u' := false) (oc' := s.otv.cur .top) rfl hb0
      (by intro hx; exfalso; omega) (by intro k hk; simp only [Mem.store, Mem.val_append]; grind) (by simp [Mem.store, Mem.val_append])
    simpa [Mem.store, Mem.len_append, Mem.sc_append, tp, TV.bump, undecided, isPop3] using this
  case pop6 b buf hpc =>
    rw [hpc] at hj ip
    simp only [Pc, undecided, lastB, Mem.lastv] at hj ip
    have := hj.store (v' := (s.mem.store s.otv .bot (b + 1) false).val .bot) (x := b + 1) (u' := false) (oc' := s.otv.cur .top) rfl hb0
      (by intro hx; exfalso; omega) (by intro k hk; simp only [Mem.store, Mem.val_append]; grind) (by simp [Mem.store, Mem.val_append])
    simpa [Mem.store, Mem.len_append, Mem.sc_append, tp, TV.bump, undecided, isPop3] using this
  case popF b buf hpc =>
    rw [hpc] at hj
    refine hj.fence ?_ ?_ <;> simp only [Mem.fenceSC, TV.fenceSC, scView, join] <;> omega
  case pop3lt b buf i hpc hc h2 =>
    rw [hpc] at hj ip
    simp only [Pc, lastB, Mem.lastv] at ip
    refine hj.take hb0 ?_
    show (s.otv.cur .top : Int) < s.mem.val .bot (s.mem.len .bot - 1)
    have := hc.1
    rw [vt i hc.2] at h2
    omega
  case pop3eq b buf i hpc hc h2 =>
    rw [hpc] at hj
    refine hj.mono (Int.le_refl _) (Nat.le_refl _) (by simp [isPop3]) ?_
    simp only [TV.read]; omega
  case pop3gt b buf i hpc hc h2 =>
    rw [hpc] at hj ip
    simp only [Pc, lastB, Mem.lastv] at ip
    refine hj.empty hb0 ?_
    show s.mem.val .bot (s.mem.len .bot - 1) < tp s
    have := hc.2
    rw [vt i hc.2] at h2
    unfold tp
    omega
  case pop4fail b buf i hpc hc h2 =>
    rw [hpc] at hj ip
    simp only [Pc, lastB, Mem.lastv] at ip
    refine hj.empty hb0 ?_
    show s.mem.val .bot (s.mem.len .bot - 1) < tp s
    have := hc.1
    have := hc.2
    rw [vt i hc.2] at h2
    unfold tp
    omega
  case pop4ok b buf hpc h2 =>
    rw [hpc] at hj ip
    rw [hTv] at h2
    simp only [Pc, lastB, Mem.lastv] at ip
    have h3 := (hj.mono (T' := tp s + 1) (oc' := s.otv.cur .top) (by omega) (Nat.le_refl _) id (Nat.le_refl _)).empty
      (oc' := (s.otv.rmw s.mem .top).cur .top) hb0 (by omega)
    have e1 : ((s.mem.len .top + 1 : Nat) : Int) - 1 = tp s + 1 := by unfold tp; omega
    simpa [Mem.rmw, Mem.len_append, Mem.val_append_ne, Mem.sc_append, tp, undecided, isPop3] using h3
  case st4ok i t k v hpc h2 =>
    rw [hTv] at h2
    have h3 := hj.mono (T' := tp s + 1) (oc' := s.otv.cur .top) (by omega) (Nat.le_refl _) id (Nat.le_refl _)
    by_cases hij : j = i
    · subst hij; simp [setT, Th]
    · simpa [Mem.rmw, Mem.len_append, Mem.val_append_ne, Mem.sc_append, tp, setT, hij] using h3
  case stF i t hpc =>
    by_cases hij : j = i
    · subst hij
      rw [hpc] at hj
      simp only [Th] at hj
      simp only [setT, if_true, Th]
      refine ⟨hj.1, hj.2.1, ?_, ?_, ?_⟩
      · simp only [Mem.fenceSC, scView, join]; omega
      · intro _ k h1 h3 h4
        refine since_of_mon (pF := isPopF s.opc) ic.mon (fun h5 => ?_) ?_ h3 h4
        · obtain ⟨h6, h7⟩ := ic.pF h5
          refine ⟨h6, h7, ?_⟩
          revert h5; cases s.opc <;> simp [isPopF, undecided]
        · simp only [TV.fenceSC, scView, join] at h1; omega
      · intro _ h1
        right
        have := (ic.p3 h1).1
        simp only [Mem.fenceSC, TV.fenceSC, scView, join]
        omega
    · have := hj.mono (T' := tp s) (sct' := (s.mem.fenceSC (s.ttv i)).sc .top) (oc' := s.otv.cur .top) (Int.le_refl _)
        (by simp only [Mem.fenceSC, scView, join]; omega) id (Nat.le_refl _)
      simpa [setT, hij, tp, Mem.fenceSC] using this
  case sinv i hpc =>
    by_cases hij : j = i
    · subst hij; simp [setT, Th]
    · simpa [setT, hij, tp] using hj
  case sret i r hpc =>
    by_cases hij : j = i
    · subst hij; simp [setT, Th]
    · simpa [setT, hij, tp] using hj
  case tsync i w hpc hw =>
    by_cases hij : j = i
    · subst hij; simp [hpc, Th]
    · simpa [setT, hij, tp] using hj
  case st0 i k hpc hc =>
    by_cases hij : j = i
    · subst hij
      have := vt k hc.2
      have := hc.2
      simp only [setT, if_true, Th, TV.read, single, tp]
      omega
    · simpa [setT, hij, tp] using hj
  case st1 i t k hpc hc h2 =>
    by_cases hij : j = i
    · subst hij
      rw [hpc] at hj
      simp only [Th, setT, if_true] at hj ⊢
      obtain ⟨h3, h4, h5, h6, h7⟩ := hj
      refine ⟨h3, h4, h5, hc.2, h2, fun h8 => h6 h8 k hc.1 hc.2 h2, fun h8 h9 => ?_⟩
      have := h7 h8 h9
      have := hc.1
      omega
    · simpa [setT, hij, tp] using hj
  case st1empty i t k hpc hc h2 =>
    by_cases hij : j = i
    · subst hij; simp [setT, Th]
    · simpa [setT, hij, tp] using hj
  case st2 i t k l hpc hc =>
    by_cases hij : j = i
    · subst hij; rw [hpc] at hj; simp only [setT, if_true, Th] at hj ⊢; exact hj
    · simpa [setT, hij, tp] using hj
  case st3 i t k buf l hpc hc =>
    by_cases hij : j = i
    · subst hij; rw [hpc] at hj; simp only [setT, if_true, Th] at hj ⊢; exact hj
    · simpa [setT, hij, tp] using hj
  case st4fail i t k v l hpc hc h2 =>
    by_cases hij : j = i
    · subst hij; simp [setT, Th]
    · simpa [setT, hij, tp] using hj
  case copy v b t i buf l hpc h1 hc =>
    rw [hpc] at hj
    have := hj.mono (T' := tp s) (sct' := s.mem.sc .top) (p3' := false) (oc' := (s.otv.read s.mem (slot cap buf i) l false).cur .top) (Int.le_refl _)
      (Nat.le_refl _) (by simp) (by simp only [TV.read]; omega)
    simpa [Mem.store, Mem.len_append, Mem.val_append_ne, Mem.sc_append, tp, TV.bump, undecided, isPop3] using this
  case push4 hpc =>
    rw [hpc] at hj
    simpa [Mem.store, Mem.len_append, Mem.val_append_ne, Mem.sc_append, tp, TV.bump, undecided, isPop3] using hj
  case push5 hpc =>
    rw [hpc] at hj
    simpa [Mem.store, Mem.len_append, Mem.val_append_ne, Mem.sc_append, tp, TV.bump, undecided, isPop3] using hj
  case odata n v hpc =>
    simpa [Mem.store, Mem.len_append, Mem.val_append_ne, Mem.sc_append, tp, TV.bump] using hj
  case tdata i n v hpc =>
    by_cases hij : j = i
    · subst hij; simp [hpc, Th]
    · simpa [Mem.store, Mem.len_append, Mem.val_append_ne, Mem.sc_append, setT, hij, tp] using hj
  case osync hpc _ =>
    refine hj.mono (Int.le_refl _) (Nat.le_refl _) id ?_
    simp only [join]; omega
  all_goals
    first
      | (rename_i hpc; rw [hpc] at hj; refine hj.mono (Int.le_refl _) (Nat.le_refl _) (by simp [isPop3]) ?_)
      | (rename_i hpc _; rw [hpc] at hj; refine hj.mono (Int.le_refl _) (Nat.le_refl _) (by simp [isPop3]) ?_)
      | (rename_i hpc _ _; rw [hpc] at hj; refine hj.mono (Int.le_refl _) (Nat.le_refl _) (by simp [isPop3]) ?_)
    simp only [TV.read, TV.fenceRel]
    omega

end Verif.Weak
