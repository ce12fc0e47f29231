import Verif.Weak.Mem

/-! Well-formed views: all views refer to existing messages. -/
namespace Verif.Weak
variable {L : Type} [DecidableEq L]

structure MWf (m : Mem L) : Prop where
  pos : ∀ l, 0 < m.len l
  sc : ∀ l, m.sc l < m.len l
  msg : ∀ l j, j < m.len l → ∀ x, m.view l j x < m.len x

structure TWf (m : Mem L) (tv : TV L) : Prop where
  cur : ∀ l, tv.cur l < m.len l
  acq : ∀ l, tv.acq l < m.len l
  rel : ∀ l, tv.rel l ≤ tv.cur l

theorem MWf.init (v : L → Int) : MWf (Mem.init v) := by constructor <;> simp [Mem.init]

theorem TWf.init (v : L → Int) : TWf (Mem.init v) (TV.init : TV L) := by constructor <;> simp [Mem.init, TV.init]

theorem Mem.len_append (m : Mem L) (l : L) (v : Int) (w : View L) (x : L) :
    (m.append l v w).len x = if x = l then m.len l + 1 else m.len x := rfl
theorem Mem.val_append (m : Mem L) (l : L) (v : Int) (w : View L) (x : L) (i : Nat) :
    (m.append l v w).val x i = if x = l ∧ i = m.len l then v else m.val x i := rfl
theorem Mem.view_append (m : Mem L) (l : L) (v : Int) (w : View L) (x : L) (i : Nat) :
    (m.append l v w).view x i = if x = l ∧ i = m.len l then w else m.view x i := rfl
theorem Mem.view_append' (m : Mem L) (l : L) (v : Int) (w : View L) (x : L) (i : Nat) (y : L) :
    (m.append l v w).view x i y = if x = l ∧ i = m.len l then w y else m.view x i y := by
  rw [Mem.view_append]; split <;> rfl
theorem Mem.sc_append (m : Mem L) (l : L) (v : Int) (w : View L) : (m.append l v w).sc = m.sc := rfl

theorem Mem.val_append_ne (m : Mem L) {l x : L} (v : Int) (w : View L) (h : x ≠ l) : (m.append l v w).val x = m.val x := by
  funext i; rw [Mem.val_append]; simp [h]

/-- The value of the last message. -/
def Mem.lastv (m : Mem L) (l : L) : Int := m.val l (m.len l - 1)

theorem Mem.lastv_append (m : Mem L) (l : L) (v : Int) (w : View L) (x : L) :
    (m.append l v w).lastv x = if x = l then v else m.lastv x := by
  unfold Mem.lastv
  rw [Mem.len_append, Mem.val_append]
  by_cases h : x = l
  · simp [h]
  · simp [h]

theorem Mem.lastv_fenceSC (m : Mem L) (tv : TV L) (x : L) : (m.fenceSC tv).lastv x = m.lastv x := rfl

theorem Mem.len_le_append (m : Mem L) (l : L) (v : Int) (w : View L) (x : L) : m.len x ≤ (m.append l v w).len x := by
  rw [Mem.len_append]; split
  · subst_vars; omega
  · exact Nat.le_refl _

theorem MWf.append {m : Mem L} (h : MWf m) (l : L) (v : Int) (w : View L) (hw : ∀ x, w x ≤ m.len x)
    (hw' : ∀ x, x ≠ l → w x < m.len x) : MWf (m.append l v w) := by
  obtain ⟨h1, h2, h3⟩ := h
  constructor
  · intro x; have := h1 x; have := m.len_le_append l v w x; omega
  · intro x; have := h2 x; have := m.len_le_append l v w x; rw [Mem.sc_append]; omega
  · intro y j hj x
    rw [Mem.view_append]
    split
    · rw [Mem.len_append]; split
      · subst_vars; have := hw x; omega
      · exact hw' x ‹_›
    · rename_i hn
      rw [Mem.len_append] at hj
      have h4 : j < m.len y := by
        split at hj
        · subst_vars; simp only [true_and] at hn; omega
        · exact hj
      have := h3 y j h4 x; have := m.len_le_append l v w x; omega

theorem TWf.append {m : Mem L} {tv : TV L} (h : TWf m tv) (l : L) (v : Int) (w : View L) : TWf (m.append l v w) tv := by
  obtain ⟨h1, h2, h3⟩ := h
  refine ⟨fun x => ?_, fun x => ?_, h3⟩
  · have := h1 x; have := m.len_le_append l v w x; omega
  · have := h2 x; have := m.len_le_append l v w x; omega

theorem TWf.read {m : Mem L} {tv : TV L} (h : TWf m tv) (hm : MWf m) {l : L} {i : Nat} (a : Bool) (hi : i < m.len l) :
    TWf m (tv.read m l i a) := by
  obtain ⟨h1, h2, h3⟩ := h
  refine ⟨fun x => ?_, fun x => ?_, fun x => ?_⟩
  · have := h1 x; have := hm.msg l i hi x; have := hm.pos x
    simp only [TV.read, single]; split <;> split <;> subst_vars <;> omega
  · have := h2 x; have := hm.msg l i hi x; have := hm.pos x
    simp only [TV.read, single]; split <;> subst_vars <;> omega
  · have := h3 x; simp only [TV.read]; omega

theorem TWf.bump {m : Mem L} {tv : TV L} (h : TWf m tv) (l : L) (v : Int) (w : View L) :
    TWf (m.append l v w) (tv.bump m l) := by
  obtain ⟨h1, h2, h3⟩ := h
  refine ⟨fun x => ?_, fun x => ?_, fun x => ?_⟩
  · have := h1 x; simp only [TV.bump, Mem.len_append]; split <;> omega
  · have := h2 x; simp only [TV.bump, Mem.len_append]; split <;> omega
  · have := h3 x; have := h1 x; simp only [TV.bump]; split
    · subst_vars; omega
    · omega

theorem TWf.msg_le {m : Mem L} {tv : TV L} (h : TWf m tv) (l : L) (r : Bool) :
    (∀ x, tv.msg l (m.len l) r x ≤ m.len x) ∧ ∀ x, x ≠ l → tv.msg l (m.len l) r x < m.len x := by
  obtain ⟨h1, h2, h3⟩ := h
  constructor
  · intro x; have := h1 x; have := h3 x; simp only [TV.msg]; split
    · subst_vars; omega
    · split <;> omega
  · intro x hx; have := h1 x; have := h3 x; simp only [TV.msg, if_neg hx]; split <;> omega

theorem MWf.store {m : Mem L} {tv : TV L} (h : MWf m) (ht : TWf m tv) (l : L) (v : Int) (r : Bool) :
    MWf (m.store tv l v r) := h.append _ _ _ (ht.msg_le l r).1 (ht.msg_le l r).2

theorem MWf.rmw {m : Mem L} {tv : TV L} (h : MWf m) (ht : TWf m tv) (l : L) (v : Int) : MWf (m.rmw tv l v) :=
  have hi : m.last l < m.len l := Nat.sub_lt (h.pos l) Nat.one_pos
  h.append _ _ _ ((ht.read h true hi).msg_le l true).1 ((ht.read h true hi).msg_le l true).2

theorem TWf.rmw {m : Mem L} {tv : TV L} (ht : TWf m tv) (h : MWf m) (l : L) (v : Int) :
    TWf (m.rmw tv l v) (tv.rmw m l) :=
  have hi : m.last l < m.len l := Nat.sub_lt (h.pos l) Nat.one_pos
  (ht.read h true hi).bump l v _

theorem TWf.fenceRel {m : Mem L} {tv : TV L} (h : TWf m tv) : TWf m tv.fenceRel :=
  ⟨h.cur, h.acq, fun _ => Nat.le_refl _⟩

theorem scView_lt {m : Mem L} {tv : TV L} (h : MWf m) (ht : TWf m tv) (x : L) : scView m tv x < m.len x := by
  have := h.sc x; have := ht.cur x; have := ht.acq x
  simp only [scView, join]; omega

theorem MWf.fenceSC {m : Mem L} {tv : TV L} (h : MWf m) (ht : TWf m tv) : MWf (m.fenceSC tv) :=
  ⟨h.pos, scView_lt h ht, h.msg⟩

theorem TWf.fenceSC {m : Mem L} {tv : TV L} (h : MWf m) (ht : TWf m tv) : TWf (m.fenceSC tv) (tv.fenceSC m) :=
  ⟨scView_lt h ht, scView_lt h ht, fun _ => Nat.le_refl _⟩

theorem TWf.fenceSC' {m : Mem L} {tv tv' : TV L} (ht : TWf m tv') : TWf (m.fenceSC tv) tv' := ⟨ht.cur, ht.acq, ht.rel⟩

theorem TWf.sync {m : Mem L} {tv : TV L} (ht : TWf m tv) {w : View L} (hw : m.Valid w) :
    TWf m { tv with cur := join tv.cur w, acq := join tv.acq w } := by
  obtain ⟨h1, h2, h3⟩ := ht
  refine ⟨fun x => ?_, fun x => ?_, fun x => ?_⟩
  · have := h1 x; have := hw x; simp only [join]; omega
  · have := h2 x; have := hw x; simp only [join]; omega
  · have := h3 x; simp only [join]; omega

end Verif.Weak
