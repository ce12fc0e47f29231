import Verif.Weak.Inv7
import Verif.Deque.Count

/-! The step that writes an element, and the simulation by the abstract deque. -/
namespace Verif.Weak
open Verif.Deque (Ev OOp ORet SRet setT AState AO AT AStep)
variable {ι : Type} [DecidableEq ι]

/-- All invariants. -/
structure Inv (cap : Nat) (ct : Int → Int) (s : St ι) : Prop where
  b : IB cap s
  g : IG cap ct s
  o : OV cap ct (tp s) s.mem s.otv.rel s.opc
  t : ∀ i, TH cap ct (tp s) s.mem (s.ttv i).cur (s.tpc i)

/-- The elements after a store of the owner. -/
def upd (ct : Int → Int) (b v : Int) : Int → Int := fun x => if x = b then v else ct x

theorem Inv.init {cap : Nat} (junk : Nat → Nat → Int) (ct : Int → Int) : Inv cap ct (St.init junk : St ι) := by
  refine ⟨.init _, ⟨fun k hk t ht hs => ?_⟩, trivial, fun i => trivial⟩
  have := hs k (Nat.le_refl _) hk
  simp [St.init, Mem.init, tp, undecided] at this ht
  omega

theorem Inv.stepOther {relBuf : Bool} {cap : Nat} (hc0 : 0 < cap) {s s' : St ι} {e : Option (Ev ι Int)} {ct : Int → Int}
    (h : Inv cap ct s) (hb : relBuf = true ∨ s'.mem.len .ptr = 1) (hp5 : ∀ v b buf, s.opc ≠ .push5 v b buf ∨ s'.opc = s.opc)
    (st : Step relBuf cap s e s') : Inv cap ct s' :=
  ⟨h.b.step hc0 st, h.g.step h.b h.o hb hp5 st, h.o.step h.g h.b hp5 st, TH.step h.t h.o h.g h.b hb hp5 st⟩

theorem Inv.stepPush5 {relBuf : Bool} {cap : Nat} (hc0 : 0 < cap) {s : St ι} {ct : Int → Int} (h : Inv cap ct s)
    {v b : Int} {buf : Nat} (hpc : s.opc = .push5 v b buf) :
    Inv cap (upd ct b v) { s with
      mem := s.mem.store s.otv (slot cap buf b) v false, otv := s.otv.bump s.mem (slot cap buf b), opc := .push6 v b } := by
  have hib := h.b.step hc0 (.push5 (relBuf := relBuf) hpc)
  obtain ⟨⟨w, ow, vr, vs, ip, ic, id⟩, g, ov, th⟩ := h
  have hct := w.o.cur .top
  unfold IP at ip
  rw [hpc] at ip
  simp only [Pc] at ip
  have hne : ∀ b' t, tp s ≤ t → t < b → slot cap b' t ≠ slot cap buf b := by
    intro b' t h1 h2
    unfold tp at h1 ip
    exact slot_ne (by omega) h2 (by omega)
  have hgv : ∀ t w', tp s ≤ t → t < b → GoodV cap s.mem ct t w' → GoodV cap (s.mem.store s.otv (slot cap buf b) v false) (upd ct b v) t w' := by
    intro t w' h1 h2 h3 b' hb1 hb2
    have h4 := h3.append (l := slot cap buf b) (v := v) (x := s.otv.msg (slot cap buf b) (s.mem.len (slot cap buf b)) false)
      (by simp) (fun b' _ => hne b' t h1 h2)
    have e : upd ct b v t = ct t := by unfold upd; rw [if_neg (by omega)]
    rw [e]
    exact h4 b' hb1 hb2
  have elog : logB s = b := by simp only [logB, hpc, lowered, Bool.false_eq_true, if_false]; omega
  refine ⟨hib, ⟨fun k hk t ht hs => ?_⟩, ?_, fun x => ?_⟩
  · simp only [Mem.store, Mem.len_append, Mem.val_append_ne, Mem.view_append, tp, ne_eq, bot_ne_slot, top_ne_slot, not_false_eq_true,
      if_false, false_and] at hk ht hs ⊢
    have hs' : Since (s.mem.len .bot) (s.mem.val .bot) (undecided s.opc) t k := Since.weaken hs
    have h1 := live_of_since hk hs'
    exact hgv t _ ht (by omega) (g.g k hk t ht hs')
  · simp only [OV, Mem.store, Mem.len_append, ptr_ne_slot, if_false, Mem.lastv_append]
    have e : s.mem.len .ptr - 1 = buf := by omega
    rw [e, if_pos rfl]
    unfold upd
    simp
  · have hx := th x
    have idx := id x
    have e2 : (tp { s with
      mem := s.mem.store s.otv (slot cap buf b) v false, otv := s.otv.bump s.mem (slot cap buf b), opc := .push6 v b }) = tp s := by
      simp [tp, Mem.store, Mem.len_append]
    rw [e2]
    dsimp only
    cases hpx : s.tpc x <;> rw [hpx] at hx idx <;> simp only [TH, Th] at hx idx ⊢
    case st2 t k =>
      intro hT
      have hl := live_of_since idx.2.2.2.1 (idx.2.2.2.2.2.1 hT)
      exact hgv t _ (Int.le_of_eq hT) (by omega) (hx hT)
    case st3 t k b' =>
      refine ⟨by simpa [Mem.store, Mem.len_append] using hx.1, fun hT j h4 h5 => ?_⟩
      have hl := live_of_since idx.2.2.2.1 (idx.2.2.2.2.2.1 hT)
      have h6 := hne b' t (Int.le_of_eq hT) (by omega)
      simp only [Mem.store, Mem.len_append, if_neg h6] at h5
      simp only [Mem.store, Mem.val_append, if_neg (fun e : slot cap b' t = slot cap buf b ∧ j = _ => h6 e.1)]
      have e : upd ct b v t = ct t := by unfold upd; rw [if_neg (by omega)]
      rw [e]
      exact hx.2 hT j h4 h5
    case st4 t k v' =>
      intro hT
      have hl := live_of_since idx.2.2.2.1 (idx.2.2.2.2.2.1 hT)
      have e : upd ct b v t = ct t := by unfold upd; rw [if_neg (by omega)]
      rw [e]
      exact hx hT

end Verif.Weak
