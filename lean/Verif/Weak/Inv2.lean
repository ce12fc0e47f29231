import Verif.Weak.Inv

/-! Invariants of the deque on the view machine: what the owner knows, and program counters. -/
namespace Verif.Weak
open Verif.Deque (Ev OOp ORet SRet setT)
variable {ι : Type} [DecidableEq ι]

/-- The value of the last message of m_top (message `j` of m_top has value `j`). -/
def tp (s : St ι) : Int := (s.mem.len .top : Int) - 1

/-- The value of the last message of m_bottom. -/
def lastB (s : St ι) : Int := s.mem.lastv .bot

/-- The owner has announced a pop and has not yet decided. -/
def undecided : OPc → Bool
  | .popF _ _ | .pop3 _ _ | .pop4 _ _ => true
  | _ => false

/-- m_bottom is one less than the index of the end of the deque. -/
def lowered : OPc → Bool
  | .popF _ _ | .pop3 _ _ | .pop4 _ _ | .pop5 _ | .pop6 _ _ => true
  | _ => false

/-- The index of the end of the deque. -/
def logB (s : St ι) : Int := if lowered s.opc then lastB s + 1 else lastB s

@[simp] theorem slot_ne_top (cap b : Nat) (i : Int) : slot cap b i ≠ .top := by simp [slot]
@[simp] theorem slot_ne_bot (cap b : Nat) (i : Int) : slot cap b i ≠ .bot := by simp [slot]
@[simp] theorem slot_ne_ptr (cap b : Nat) (i : Int) : slot cap b i ≠ .ptr := by simp [slot]
@[simp] theorem top_ne_slot (cap b : Nat) (i : Int) : Loc.top ≠ slot cap b i := by simp [slot]
@[simp] theorem bot_ne_slot (cap b : Nat) (i : Int) : Loc.bot ≠ slot cap b i := by simp [slot]
@[simp] theorem ptr_ne_slot (cap b : Nat) (i : Int) : Loc.ptr ≠ slot cap b i := by simp [slot]

/-- The locations of the deque that only the owner writes. -/
def Loc.own : Loc → Bool
  | .bot | .ptr | .cell _ _ => true
  | .top | .data _ => false

@[simp] theorem own_bot : Loc.own .bot = true := rfl
@[simp] theorem own_ptr : Loc.own .ptr = true := rfl
@[simp] theorem own_slot (cap b : Nat) (i : Int) : (slot cap b i).own = true := rfl
@[simp] theorem own_top : Loc.own .top = false := rfl
@[simp] theorem own_data (n : Nat) : Loc.own (.data n) = false := rfl
@[simp] theorem slot_ne_data (cap b : Nat) (i : Int) (n : Nat) : slot cap b i ≠ .data n := by simp [slot]
@[simp] theorem data_ne_slot (cap b : Nat) (i : Int) (n : Nat) : Loc.data n ≠ slot cap b i := by simp [slot]

/-- The owner knows the last message of everything only it writes. -/
def Own (s : St ι) : Prop := ∀ l, l.own = true → s.otv.cur l + 1 = s.mem.len l

theorem Own.init (junk : Nat → Nat → Int) : Own (St.init junk : St ι) := by
  intro l _; simp [St.init, Mem.init, TV.init]

theorem Own.step {relBuf : Bool} {cap : Nat} {s s' : St ι} {e : Option (Ev ι Int)} (h : Own s) (w : IW s)
    (st : Step relBuf cap s e s') : Own s' := by
  have w' := (w.step st).o.cur
  intro l hl
  have h1 := h l hl
  have hl1 : l ≠ .top := by rintro rfl; cases hl
  have hl2 : ∀ n, l ≠ .data n := by rintro n rfl; cases hl
  have h2 := w' l
  clear w'
  cases st <;> simp only [Mem.store, Mem.rmw, TV.rmw, Mem.len_append, TV.read, TV.bump, TV.fenceRel, TV.fenceSC, Mem.fenceSC, scView,
    join] at * <;> grind

/-- The messages of m_bottom carry no more than the owner's last release fence covers. -/
def Vrel (s : St ι) : Prop := ∀ k, k < s.mem.len .bot → ∀ l, l ≠ .bot → s.mem.view .bot k l ≤ s.otv.rel l

theorem Vrel.init (junk : Nat → Nat → Int) : Vrel (St.init junk : St ι) := by
  intro k _ l _; simp [St.init, Mem.init]

theorem Vrel.step {relBuf : Bool} {cap : Nat} {s s' : St ι} {e : Option (Ev ι Int)} (h : Vrel s) (w : IW s)
    (st : Step relBuf cap s e s') : Vrel s' := by
  intro k hk l hl
  have h1 := fun hk => h k hk l hl
  have h2 := w.o.rel l
  cases st <;> simp only [Mem.store, Mem.rmw, TV.rmw, Mem.len_append, Mem.view_append', TV.read, TV.bump, TV.fenceRel, TV.fenceSC,
    Mem.fenceSC, scView, TV.msg, join] at * <;> grind [slot_ne_bot]

/-- The values of m_top and m_buf. -/
structure Vals (s : St ι) : Prop where
  topv : ∀ j, j < s.mem.len .top → s.mem.val .top j = j
  ptrv : ∀ j, j < s.mem.len .ptr → s.mem.val .ptr j = j

theorem Vals.init (junk : Nat → Nat → Int) : Vals (St.init junk : St ι) := by
  constructor <;> simp [St.init, Mem.init]

theorem Vals.step {relBuf : Bool} {cap : Nat} {s s' : St ι} {e : Option (Ev ι Int)} (h : Vals s) (w : IW s)
    (hp : ∀ v b nb, s.opc = .push4 v b nb → nb = s.mem.len .ptr)
    (st : Step relBuf cap s e s') : Vals s' := by
  obtain ⟨h1, h2⟩ := h
  have h3 := w.m.pos .top
  cases st
  case push4 v b nb hpc =>
    have := hp _ _ _ hpc
    constructor <;> simp only [Mem.store, Mem.len_append, Mem.val_append] <;> grind
  all_goals constructor <;> simp only [Mem.store, Mem.rmw, Mem.len_append, Mem.val_append, Mem.last, Mem.fenceSC] at * <;>
    grind [slot_ne_top, slot_ne_ptr]

theorem capOf_succ (cap b : Nat) : capOf cap (b + 1) = 2 * capOf cap b := by
  unfold capOf; rw [Nat.pow_succ]; ac_rfl

theorem capOf_pos {cap : Nat} (h : 0 < cap) (b : Nat) : 0 < capOf cap b := Nat.mul_pos h (Nat.two_pow_pos b)

/-- What the owner's registers hold: `T` is the value of m_top, `B` the last value of m_bottom, `np` the number of buffers,
`c` the last value of m_top the owner knows of. -/
def Pc (cap : Nat) (T B : Int) (np c : Nat) : OPc → Prop
  | .idle | .ret _ | .push0 _ | .pop0 => T ≤ B ∧ B - c ≤ capOf cap (np - 1)
  | .push1 _ b => T ≤ B ∧ B - c ≤ capOf cap (np - 1) ∧ b = B
  | .push2 _ b t => T ≤ B ∧ B - t ≤ capOf cap (np - 1) ∧ b = B ∧ 0 ≤ t ∧ t ≤ c
  | .copy _ b t i buf => T ≤ B ∧ B - c ≤ capOf cap (np - 1) ∧ b = B ∧ 0 ≤ t ∧ t ≤ c ∧ t ≤ i ∧ i ≤ b ∧ buf + 1 = np ∧
      b - t + 1 ≤ capOf cap (buf + 1)
  | .push4 _ b nb => T ≤ B ∧ B - c ≤ capOf cap (np - 1) ∧ b = B ∧ nb = np ∧ b - c + 1 ≤ capOf cap nb
  | .push5 _ b buf => T ≤ B ∧ b = B ∧ buf + 1 = np ∧ b - c + 1 ≤ capOf cap buf
  | .push6 _ b | .push7 _ b => T ≤ B ∧ b = B ∧ b - c + 1 ≤ capOf cap (np - 1)
  | .pop1 b => T ≤ B ∧ B - c ≤ capOf cap (np - 1) ∧ b = B - 1
  | .pop2 b buf => T ≤ B ∧ B - c ≤ capOf cap (np - 1) ∧ b = B - 1 ∧ buf + 1 = np
  | .popF b buf | .pop3 b buf => T ≤ B + 1 ∧ B + 1 - c ≤ capOf cap (np - 1) ∧ b = B ∧ buf + 1 = np
  | .pop4 b buf => T ≤ B + 1 ∧ B + 1 - c ≤ capOf cap (np - 1) ∧ b = B ∧ buf + 1 = np ∧ b ≤ c ∧ 0 ≤ b
  | .pop5 b => T = B + 1 ∧ B + 1 - c ≤ capOf cap (np - 1) ∧ b = B
  | .pop6 b buf => T = B + 1 ∧ B + 1 - c ≤ capOf cap (np - 1) ∧ b = B ∧ buf + 1 = np ∧ 0 ≤ b
  | .pop7 b buf => T ≤ B ∧ B - c ≤ capOf cap (np - 1) ∧ B ≤ b + 1 ∧ b ≤ B ∧ 0 ≤ b ∧ buf + 1 = np

def IP (cap : Nat) (s : St ι) : Prop := Pc cap (tp s) (lastB s) (s.mem.len .ptr) (s.otv.cur .top) s.opc

theorem IP.init {cap : Nat} (junk : Nat → Nat → Int) : IP cap (St.init junk : St ι) := by
  simp [IP, Pc, St.init, Mem.init, TV.init, tp, lastB, Mem.lastv]

theorem IP.le {cap : Nat} {s : St ι} (h : IP cap s) : tp s ≤ logB s := by
  unfold IP at h
  unfold logB
  cases hpc : s.opc <;> rw [hpc] at h <;> simp only [Pc, lowered] at * <;> grind

theorem IP.step {relBuf : Bool} {cap : Nat} {s s' : St ι} {e : Option (Ev ι Int)} (hc0 : 0 < cap) (h : IP cap s) (w : IW s) (ow : Own s)
    (vs : Vals s)
    (hpop3 : ∀ b buf, s.opc = .pop3 b buf → b < tp s → b ≤ s.otv.cur .top)
    (hst4 : ∀ i t k v, s.tpc i = .st4 t k v → tp s = t → t < logB s)
    (st : Step relBuf cap s e s') : IP cap s' := by
  have ob := ow .bot (by simp)
  have op := ow .ptr (by simp)
  have ot := w.o.cur .top
  have oa := w.o.acq .top
  have osc := w.m.sc .top
  have h0 := w.m.pos .top
  have vt := vs.topv
  have vp := vs.ptrv
  have hcs := capOf_succ cap
  have hlb : ∀ i, CanRead s.mem s.otv .bot i → s.mem.val .bot i = lastB s := by
    intro i hc
    have hi : i = s.mem.len .bot - 1 := by have := hc.1; have := hc.2; omega
    rw [hi]; rfl
  have hlp : ∀ i, CanRead s.mem s.otv .ptr i → (s.mem.val .ptr i).toNat = s.mem.len .ptr - 1 := by
    intro i hc
    have := vp i hc.2
    have := hc.1; have := hc.2; omega
  have htv : ∀ i, CanRead s.mem s.otv .top i → s.mem.val .top i = i ∧ s.otv.cur .top ≤ i ∧ i < s.mem.len .top := by
    intro i hc
    exact ⟨vt i hc.2, hc.1, hc.2⟩
  have hvw : ∀ l j, j < s.mem.len l → s.mem.view l j .top < s.mem.len .top := fun l j hj => w.m.msg l j hj .top
  have hp0 := w.m.pos .ptr
  have hTv : s.mem.val .top (s.mem.last .top) = tp s := by
    have := vt (s.mem.last .top) (by unfold Mem.last; omega)
    unfold tp; unfold Mem.last at *; omega
  clear vt vp vs ow w
  unfold IP at *
  cases st
  case oinvPush hpc => rw [hpc] at h; exact h
  case oinvPop hpc => rw [hpc] at h; exact h
  case oret hpc => rw [hpc] at h; exact h
  case osync w' hpc hw =>
    rw [hpc] at h
    simp only [Pc, tp, lastB, hpc, join] at *
    omega
  case odata n v hpc =>
    simpa only [tp, lastB, TV.bump, Mem.store, Mem.len_append, Mem.lastv_append, reduceCtorEq, if_false] using h
  case tdata i n v hpc =>
    simpa only [tp, lastB, Mem.store, Mem.len_append, Mem.lastv_append, reduceCtorEq, if_false] using h
  case push0 hpc hc =>
    rw [hpc] at h
    rw [hlb _ hc]
    simp only [Pc, tp, lastB, TV.read, single, reduceCtorEq, if_false, if_true, Bool.false_eq_true, and_true, true_and] at *
    omega
  case push1 i hpc hc =>
    rw [hpc] at h
    have h1 := htv _ hc
    have h2 := hvw .top i hc.2
    simp only [Pc, tp, lastB, TV.read, single, reduceCtorEq, if_false, if_true, Bool.false_eq_true, and_true, true_and] at *
    omega
  case push2 hpc hc h2 =>
    rw [hpc] at h
    have h1 := hlp _ hc
    rw [h1] at h2 ⊢
    simp only [Pc, tp, lastB, TV.read, single, reduceCtorEq, if_false, if_true, Bool.false_eq_true, and_true, true_and] at *
    omega
  case push2full hpc hc h2 =>
    rw [hpc] at h
    have h1 := hlp _ hc
    rw [h1] at h2 ⊢
    have := hcs (s.mem.len .ptr - 1)
    have := capOf_pos hc0 (s.mem.len .ptr - 1)
    simp only [Pc, tp, lastB, TV.read, single, reduceCtorEq, if_false, if_true, Bool.false_eq_true, and_true, true_and] at *
    omega
  case push2throw hpc hc h2 =>
    rw [hpc] at h
    simp only [Pc, tp, lastB, TV.read, single, reduceCtorEq, if_false, if_true, Bool.false_eq_true, and_true, true_and] at *
    omega
  case copy hpc h1 hc =>
    rw [hpc] at h
    simp only [Pc, tp, lastB, TV.read, TV.bump, Mem.store, Mem.len_append, Mem.lastv_append, single, top_ne_slot, bot_ne_slot, ptr_ne_slot,
      reduceCtorEq, if_false, if_true, Bool.false_eq_true, and_true, true_and] at *
    omega
  case copied hpc h1 =>
    rw [hpc] at h
    simp only [Pc, tp, lastB] at *
    omega
  case push4 hpc =>
    rw [hpc] at h
    simp only [Pc, tp, lastB, TV.bump, Mem.store, Mem.len_append, Mem.lastv_append, reduceCtorEq, if_false, if_true, and_true, true_and] at *
    omega
  case push5 hpc =>
    rw [hpc] at h
    simp only [Pc, tp, lastB, TV.bump, Mem.store, Mem.len_append, Mem.lastv_append, top_ne_slot, bot_ne_slot, ptr_ne_slot, reduceCtorEq,
      if_false, if_true] at *
    obtain ⟨h1, h2, h3, h4⟩ := h
    rw [← h3, Nat.add_sub_cancel]
    omega
  case push6 hpc =>
    rw [hpc] at h
    exact h
  case push7 hpc =>
    rw [hpc] at h
    simp only [Pc, tp, lastB, TV.bump, Mem.store, Mem.len_append, Mem.lastv_append, reduceCtorEq, if_false, if_true, and_true, true_and] at *
    omega
  case pop0 hpc hc =>
    rw [hpc] at h
    rw [hlb _ hc]
    simp only [Pc, tp, lastB, TV.read, single, reduceCtorEq, if_false, if_true, Bool.false_eq_true, and_true, true_and] at *
    omega
  case pop1 hpc hc =>
    rw [hpc] at h
    have h1 := hlp _ hc
    simp only [Pc, tp, lastB, TV.read, single, reduceCtorEq, if_false, if_true, Bool.false_eq_true, and_true, true_and] at *
    omega
  case pop2 hpc =>
    rw [hpc] at h
    simp only [Pc, tp, lastB, TV.bump, Mem.store, Mem.len_append, Mem.lastv_append, reduceCtorEq, if_false, if_true, and_true, true_and] at *
    omega
  case popF hpc =>
    rw [hpc] at h
    simp only [Pc, tp, lastB, TV.fenceSC, Mem.fenceSC, scView, join, Mem.lastv] at *
    omega
  case pop3lt i hpc hc h2 =>
    rw [hpc] at h
    have h1 := htv _ hc
    have h3 := hpop3 _ _ hpc
    simp only [Pc, tp, lastB, TV.read, single, reduceCtorEq, if_false, if_true, Bool.false_eq_true, and_true, true_and] at *
    omega
  case pop3eq i hpc hc h2 =>
    rw [hpc] at h
    have h1 := htv _ hc
    simp only [Pc, tp, lastB, TV.read, single, reduceCtorEq, if_false, if_true, Bool.false_eq_true, and_true, true_and] at *
    omega
  case pop3gt i hpc hc h2 =>
    rw [hpc] at h
    have h1 := htv _ hc
    simp only [Pc, tp, lastB, TV.read, single, reduceCtorEq, if_false, if_true, Bool.false_eq_true, and_true, true_and] at *
    omega
  case pop4ok hpc h2 =>
    rw [hpc] at h
    simp only [Pc, tp, lastB, TV.rmw, TV.bump, Mem.rmw, Mem.len_append, Mem.lastv_append, reduceCtorEq, if_false, if_true, and_true, true_and] at *
    omega
  case pop4fail i hpc hc h2 =>
    rw [hpc] at h
    have h1 := htv _ hc
    simp only [Pc, tp, lastB, TV.read, single, reduceCtorEq, if_false, if_true, Bool.false_eq_true, and_true, true_and] at *
    omega
  case pop5 hpc =>
    rw [hpc] at h
    simp only [Pc, tp, lastB, TV.bump, Mem.store, Mem.len_append, Mem.lastv_append, reduceCtorEq, if_false, if_true, and_true, true_and] at *
    omega
  case pop6 hpc =>
    rw [hpc] at h
    simp only [Pc, tp, lastB, TV.bump, Mem.store, Mem.len_append, Mem.lastv_append, reduceCtorEq, if_false, if_true, and_true, true_and] at *
    omega
  case pop7 hpc hc =>
    rw [hpc] at h
    simp only [Pc, tp, lastB, TV.read, single, top_ne_slot, reduceCtorEq, if_false, if_true, Bool.false_eq_true, and_true, true_and] at *
    omega
  case st4ok i t k v hpc h2 =>
    have h3 := hst4 _ _ _ _ hpc (by rw [← hTv, h2])
    rw [hTv] at h2
    show Pc cap (((s.mem.rmw (s.ttv i) .top (t + 1)).len .top : Int) - 1) ((s.mem.rmw (s.ttv i) .top (t + 1)).lastv .bot)
      ((s.mem.rmw (s.ttv i) .top (t + 1)).len .ptr) (s.otv.cur .top) s.opc
    have e1 : ((s.mem.rmw (s.ttv i) .top (t + 1)).len .top : Int) - 1 = tp s + 1 := by
      simp only [tp, Mem.rmw, Mem.len_append, if_true]; omega
    have e2 : (s.mem.rmw (s.ttv i) .top (t + 1)).lastv .bot = s.mem.lastv .bot := by
      simp only [Mem.rmw, Mem.lastv_append, reduceCtorEq, if_false]
    have e3 : (s.mem.rmw (s.ttv i) .top (t + 1)).len .ptr = s.mem.len .ptr := by
      simp only [Mem.rmw, Mem.len_append, reduceCtorEq, if_false]
    rw [e1, e2, e3]
    clear hpop3 hst4 hTv hvw htv hlp hlb hcs e1 e2 e3
    unfold logB at h3
    unfold lastB at h h3
    rw [← h2] at h3
    generalize tp s = T at *
    cases hpc : s.opc <;> rw [hpc] at h h3 <;> simp only [Pc, lowered, if_true, Bool.false_eq_true, if_false] at * <;> omega
  all_goals exact h

end Verif.Weak
