import Verif.Deque.Ring

/-! The inductive invariant of the deque. -/
namespace Verif.Deque
variable {ι V : Type} [DecidableEq ι]

/-- The item with logical index `i`. -/
abbrev St.item (s : St ι V) (i : Int) : V := (s.bufs s.cur).get i
abbrev St.cap (s : St ι V) : Nat := (s.bufs s.cur).cap

/-- The owner has announced that it will pop item `b`, and not decided yet whether it got it. -/
def St.popping (s : St ι V) (b : Int) : Prop := ∃ buf, s.opc = .pop3 b buf ∨ s.opc = .pop4 b buf

def St.full (s : St ι V) : Prop := s.top ≤ s.bottom ∧ s.bottom ≤ s.top + s.cap

def OInv (s : St ι V) : Prop :=
  match s.opc with
  | .idle | .ret _ | .push0 _ | .pop0 | .size0 => s.full
  | .push1 _ b | .size1 b => s.full ∧ b = s.bottom
  | .push2 _ b t => s.full ∧ b = s.bottom ∧ 0 ≤ t ∧ t ≤ s.top ∧ b ≤ t + s.cap
  | .push3 _ b t buf => s.full ∧ b = s.bottom ∧ 0 ≤ t ∧ t ≤ s.top ∧ b ≤ t + s.cap ∧ buf = s.cur
  | .push4 _ b nb => s.full ∧ b = s.bottom ∧ nb = s.cur + 1 ∧ (s.bufs nb).cap = 2 * s.cap ∧
      ∀ i, s.top ≤ i → i < s.bottom → (s.bufs nb).get i = s.item i
  | .push5 _ b buf => s.top ≤ s.bottom ∧ b = s.bottom ∧ buf = s.cur ∧ b + 1 ≤ s.top + s.cap
  | .push6 v b => s.top ≤ s.bottom ∧ b = s.bottom ∧ b + 1 ≤ s.top + s.cap ∧ s.item b = v
  | .pop1 b => s.full ∧ b = s.bottom - 1
  | .pop2 b buf => s.full ∧ b = s.bottom - 1 ∧ buf = s.cur
  | .pop3 b buf => b = s.bottom ∧ buf = s.cur ∧ s.top ≤ b + 1 ∧ b + 1 ≤ s.top + s.cap
  | .pop4 b buf => b = s.bottom ∧ buf = s.cur ∧ s.top ≤ b + 1 ∧ b + 1 ≤ s.top + s.cap ∧ b ≤ s.top
  | .pop5 b => b = s.bottom ∧ s.top = b + 1
  | .pop6 b buf => b = s.bottom ∧ s.top = b + 1 ∧ buf = s.cur ∧ 0 ≤ b
  | .pop7 b buf => s.full ∧ buf = s.cur ∧ 0 ≤ b

/-- The thief at index `t`, past the test for emptiness: if nobody has taken item `t`, it is there. -/
def Elig (s : St ι V) (t : Int) : Prop := t = s.top → t < s.bottom ∨ (t = s.bottom ∧ s.popping t)

def TInv (s : St ι V) (i : ι) : Prop :=
  match s.tpc i with
  | .idle | .ret _ | .st0 => True
  | .st1 t => 0 ≤ t ∧ t ≤ s.top
  | .st2 t => 0 ≤ t ∧ t ≤ s.top ∧ Elig s t
  | .st3 t buf => 0 ≤ t ∧ t ≤ s.top ∧ Elig s t ∧ buf ≤ s.cur ∧ (t = s.top → (s.bufs buf).get t = s.item t)
  | .st4 t v => 0 ≤ t ∧ t ≤ s.top ∧ Elig s t ∧ (t = s.top → v = s.item t)

def inFlight : OPc V → Nat
  | .push4 _ _ _ => 1
  | _ => 0

structure Inv (maxCap cap0 : Nat) (s : St ι V) : Prop where
  top0 : 0 ≤ s.top
  owner : OInv s
  thief : ∀ i, TInv s i
  pow : ∃ k, s.cap = 2 ^ k
  garb : s.garbage = s.cur + inFlight s.opc
  capEq : s.cap = cap0 * 2 ^ s.cur
  capMax : s.cap ≤ max maxCap cap0
  newMax : ∀ v b nb, s.opc = .push4 v b nb → (s.bufs nb).cap ≤ maxCap
  good : s.bad = false

theorem inv_init {maxCap cap : Nat} (hp : ∃ k, cap = 2 ^ k) (b : Nat → Buf V) (h : (b 0).cap = cap) :
    Inv maxCap cap (.init b : St ι V) := by
  have hb : hasSingleBit cap = true := by obtain ⟨k, rfl⟩ := hp; exact hasSingleBit_pow k
  refine ⟨by simp [St.init], ?_, fun i => ?_, ?_, rfl, ?_, ?_, ?_, ?_⟩
  · simp only [OInv, St.init, St.full]; omega
  · simp [TInv, St.init]
  · simpa [St.init, St.cap, h] using hp
  · simp [St.init, St.cap, h]
  · simp only [St.init, St.cap, h]; omega
  · intro v b nb h; simp [St.init] at h
  · simp [St.init, h, hb]

/-- A step of the owner that touches neither `top` nor `bottom` nor the items, and does not leave the undecided
region, preserves the thief invariant. -/
theorem tinv_same {s s' : St ι V} (i : ι) (ht : s'.top = s.top) (hb : s'.bottom = s.bottom) (hc : s.cur ≤ s'.cur)
    (htp : s'.tpc i = s.tpc i)
    (hitem : s.top < s.bottom ∨ s.popping s.top → s'.item s.top = s.item s.top)
    (hbuf : ∀ j, j ≤ s.cur → s.top < s.bottom ∨ s.popping s.top → (s'.bufs j).get s.top = (s.bufs j).get s.top)
    (hpop : s.top = s.bottom → s.popping s.top → s'.popping s.top) (h : TInv s i) : TInv s' i := by
  have hel : ∀ t, Elig s t → Elig s' t := by
    intro t h hts
    rw [ht] at hts
    rcases h hts with h | ⟨h1, h2⟩
    · left; omega
    · right; subst hts; exact ⟨by omega, hpop h1 h2⟩
  have hex : ∀ t, Elig s t → t = s.top → s.top < s.bottom ∨ s.popping s.top := by
    intro t h hts
    rcases h hts with h | ⟨h1, h2⟩
    · left; omega
    · right; subst hts; exact h2
  unfold TInv at h ⊢
  rw [htp]
  generalize s.tpc i = p at h ⊢
  cases p <;> dsimp only at h ⊢
  · exact ⟨h.1, by omega⟩
  · exact ⟨h.1, by omega, hel _ h.2.2⟩
  · obtain ⟨h1, h2, h3, h4, h5⟩ := h
    refine ⟨h1, by omega, hel _ h3, by omega, fun hts => ?_⟩
    rw [ht] at hts
    have hx := hex _ h3 hts
    have h6 := h5 hts
    subst hts
    rw [hbuf _ h4 hx, hitem hx]; exact h6
  · obtain ⟨h1, h2, h3, h4⟩ := h
    refine ⟨h1, by omega, hel _ h3, fun hts => ?_⟩
    rw [ht] at hts
    have hx := hex _ h3 hts
    have h6 := h4 hts
    subst hts
    rw [hitem hx]; exact h6

/-- A step that increments `top` makes every thief's knowledge stale. -/
theorem tinv_top {s s' : St ι V} (i : ι) (ht : s'.top = s.top + 1) (hc : s.cur ≤ s'.cur)
    (htp : s'.tpc i = s.tpc i) (h : TInv s i) : TInv s' i := by
  unfold TInv at h ⊢
  rw [htp]
  generalize s.tpc i = p at h ⊢
  cases p <;> dsimp only at h ⊢
  · exact ⟨h.1, by omega⟩
  · exact ⟨h.1, by omega, fun h => by omega⟩
  · exact ⟨h.1, by omega, fun h => by omega, by omega, fun h => by omega⟩
  · exact ⟨h.1, by omega, fun h => by omega, fun h => by omega⟩

theorem setT_ne {α : Type} (f : ι → α) {i j : ι} (x : α) (h : j ≠ i) : setT f i x j = f j := if_neg h
theorem setT_self {α : Type} (f : ι → α) (i : ι) (x : α) : setT f i x i = x := if_pos rfl

end Verif.Deque
