import Verif.Weak.Inv4

/-! Invariants of the deque on the view machine: the elements. `ct i` is the element with index `i`. -/
namespace Verif.Weak
open Verif.Deque (Ev OOp ORet SRet setT)
variable {ι : Type} [DecidableEq ι]

/-- Whoever has view `w` and reads m_buf and then the slot of index `t` finds element `t`. -/
def GoodV (cap : Nat) (m : Mem Loc) (ct : Int → Int) (t : Int) (w : View Loc) : Prop :=
  ∀ b, w .ptr ≤ b → b < m.len .ptr → ∀ j, w (slot cap b t) ≤ j → m.view .ptr b (slot cap b t) ≤ j → j < m.len (slot cap b t) →
    m.val (slot cap b t) j = ct t

theorem GoodV.mono {cap : Nat} {m : Mem Loc} {ct : Int → Int} {t : Int} {w w' : View Loc} (h : GoodV cap m ct t w)
    (hw : ∀ l, l ≠ .bot → l ≠ .top → w l ≤ w' l) : GoodV cap m ct t w' := by
  intro b h1 h2 j h3 h4 h5
  have := hw .ptr (by simp) (by simp)
  have := hw (slot cap b t) (by simp) (by simp)
  exact h b (by omega) h2 j (by omega) h4 h5

/-- Two indices less than the capacity apart have different slots. -/
theorem slot_ne {cap : Nat} {b b' : Nat} {i j : Int} (hi : 0 ≤ i) (hij : i < j) (hd : j - i < capOf cap b) :
    slot cap b' i ≠ slot cap b j := by
  intro h
  simp only [slot, Loc.cell.injEq] at h
  obtain ⟨rfl, h⟩ := h
  generalize capOf cap b' = c at *
  obtain ⟨a, rfl⟩ := Int.eq_ofNat_of_zero_le hi
  obtain ⟨d, rfl⟩ := Int.eq_ofNat_of_zero_le (show 0 ≤ j by omega)
  simp only [Int.toNat_natCast] at h
  have h1 : a < d := by omega
  have h2 : d - a < c := by omega
  have h3 : c ∣ d - a := Nat.dvd_of_mod_eq_zero (Nat.sub_mod_eq_zero_of_mod_eq h.symm)
  exact absurd (Nat.le_of_dvd (by omega) h3) (by omega)

theorem slot_buf_ne {cap : Nat} {b b' : Nat} {i j : Int} (h : b' ≠ b) : slot cap b' i ≠ slot cap b j := by
  intro e
  simp only [slot, Loc.cell.injEq] at e
  exact h e.1

/-- Appending to a location other than m_buf and the slots of index `t` in the published buffers. -/
theorem GoodV.append {cap : Nat} {m : Mem Loc} {ct : Int → Int} {t : Int} {w : View Loc} (h : GoodV cap m ct t w) {l : Loc}
    {v : Int} {x : View Loc} (h1 : l ≠ .ptr) (h2 : ∀ b, b < m.len .ptr → slot cap b t ≠ l) :
    GoodV cap (m.append l v x) ct t w := by
  intro b hb1 hb2 j h3 h4 h5
  rw [Mem.len_append, if_neg (Ne.symm h1)] at hb2
  have h6 := h2 b hb2
  rw [Mem.len_append, if_neg h6] at h5
  rw [Mem.view_append', if_neg (fun e => h1 e.1.symm)] at h4
  rw [Mem.val_append, if_neg (fun e => h6 e.1)]
  exact h b hb1 hb2 j h3 h4 h5

/-- Publishing a new buffer that holds element `t`. -/
theorem GoodV.publish {cap : Nat} {m : Mem Loc} {ct : Int → Int} {t : Int} {w : View Loc} (h : GoodV cap m ct t w)
    {v : Int} {x : View Loc} (h1 : x (slot cap (m.len .ptr) t) + 1 = m.len (slot cap (m.len .ptr) t))
    (h2 : m.lastv (slot cap (m.len .ptr) t) = ct t) :
    GoodV cap (m.append .ptr v x) ct t w := by
  intro b hb1 hb2 j h3 h4 h5
  rw [Mem.len_append, if_pos rfl] at hb2
  rw [Mem.len_append, if_neg (by simp)] at h5
  rw [Mem.val_append, if_neg (fun e => (slot_ne_ptr _ _ _ e.1).elim)]
  rw [Mem.view_append'] at h4
  by_cases hb : b = m.len .ptr
  · subst hb
    simp only [and_self, if_true] at h4
    have : j = m.len (slot cap (m.len .ptr) t) - 1 := by omega
    rw [this]; exact h2
  · rw [if_neg (by simp [hb])] at h4
    exact h b hb1 (by omega) j h3 h4 h5

theorem Since.last {n : Nat} {v : Nat → Int} {t : Int} (u : Bool) (h : t < v (n - 1)) : Since n v u t (n - 1) := by
  intro k' h1 h2
  have : k' = n - 1 := by omega
  subst this; exact .inl h

/-- The elements: `np` published buffers. -/
structure IG (cap : Nat) (ct : Int → Int) (s : St ι) : Prop where
  g : ∀ k, k < s.mem.len .bot → ∀ t, tp s ≤ t → Since (s.mem.len .bot) (s.mem.val .bot) (undecided s.opc) t k →
    GoodV cap s.mem ct t (s.mem.view .bot k)

/-- What the owner knows about elements. -/
def OV (cap : Nat) (ct : Int → Int) (T : Int) (m : Mem Loc) (rel : View Loc) : OPc → Prop
  | .copy _ _ _ i buf => ∀ j, T ≤ j → j < i → m.lastv (slot cap (buf + 1) j) = ct j
  | .push4 _ b nb => ∀ j, T ≤ j → j < b → m.lastv (slot cap nb j) = ct j
  | .push6 v b => m.lastv (slot cap (m.len .ptr - 1) b) = ct b ∧ ct b = v
  | .push7 v b => m.lastv (slot cap (m.len .ptr - 1) b) = ct b ∧ ct b = v ∧ ∀ l, l.own = true → rel l + 1 = m.len l
  | .pop6 b buf | .pop7 b buf => m.lastv (slot cap buf b) = ct b
  | _ => True

/-- What a thief knows about elements. -/
def TH (cap : Nat) (ct : Int → Int) (T : Int) (m : Mem Loc) (cur : View Loc) : TPc → Prop
  | .st2 t _ => T = t → GoodV cap m ct t cur
  | .st3 t _ buf => buf < m.len .ptr ∧ (T = t → ∀ j, cur (slot cap buf t) ≤ j → j < m.len (slot cap buf t) →
      m.val (slot cap buf t) j = ct t)
  | .st4 t _ v => T = t → v = ct t
  | _ => True

theorem IG.live {cap : Nat} {ct : Int → Int} {s : St ι} (h : IG cap ct s) (w : IW s) {t : Int} (h1 : tp s ≤ t)
    (h2 : t < logB s) (hu : lowered s.opc = true → undecided s.opc = true ∨ t < lastB s) :
    s.mem.lastv (slot cap (s.mem.len .ptr - 1) t) = ct t := by
  have hn := w.m.pos .bot
  have hp := w.m.pos .ptr
  have hs : Since (s.mem.len .bot) (s.mem.val .bot) (undecided s.opc) t (s.mem.len .bot - 1) := by
    intro k' h3 h4
    have : k' = s.mem.len .bot - 1 := by omega
    subst this
    unfold logB lastB Mem.lastv at *
    grind
  have h3 := w.m.msg .bot (s.mem.len .bot - 1) (by omega)
  have h4 := w.m.msg .ptr (s.mem.len .ptr - 1) (by omega) (slot cap (s.mem.len .ptr - 1) t)
  have h5 := w.m.pos (slot cap (s.mem.len .ptr - 1) t)
  have h6 := h3 .ptr
  have h7 := h3 (slot cap (s.mem.len .ptr - 1) t)
  exact h.g _ (by omega) t h1 hs _ (by omega) (by omega) _ (by omega) (by omega) (by omega)

end Verif.Weak
