import Verif.Random.Model
import Mathlib.Algebra.Group.Hom.End
import Mathlib.Algebra.Ring.Basic
import Mathlib.Tactic.Ring
import Mathlib.Tactic.NoncommRing
import Mathlib.Tactic.Abel

/-!
Helper algebra for the xoshiro theorems: the state space is a vector space over GF(2), `next` is linear, and a
polynomial over GF(2) coded in the bits of a natural number acts on states.
-/
namespace Verif.Random

instance : Zero St := ⟨⟨0, 0, 0, 0⟩⟩
instance : Add St := ⟨fun a b => ⟨a.s0 ^^^ b.s0, a.s1 ^^^ b.s1, a.s2 ^^^ b.s2, a.s3 ^^^ b.s3⟩⟩
instance : Neg St := ⟨id⟩

@[simp] theorem add_s0 (a b : St) : (a + b).s0 = a.s0 ^^^ b.s0 := rfl
@[simp] theorem add_s1 (a b : St) : (a + b).s1 = a.s1 ^^^ b.s1 := rfl
@[simp] theorem add_s2 (a b : St) : (a + b).s2 = a.s2 ^^^ b.s2 := rfl
@[simp] theorem add_s3 (a b : St) : (a + b).s3 = a.s3 ^^^ b.s3 := rfl
@[simp] theorem zero_s0 : (0 : St).s0 = 0 := rfl
@[simp] theorem zero_s1 : (0 : St).s1 = 0 := rfl
@[simp] theorem zero_s2 : (0 : St).s2 = 0 := rfl
@[simp] theorem zero_s3 : (0 : St).s3 = 0 := rfl

theorem add_self' (a : St) : a + a = 0 := by ext1 <;> simp

instance : AddCommGroup St where
  add_assoc a b c := by ext1 <;> simp [BitVec.xor_assoc]
  zero_add a := by ext1 <;> simp
  add_zero a := by ext1 <;> simp
  add_comm a b := by ext1 <;> simp [BitVec.xor_comm]
  nsmul := nsmulRec
  zsmul := zsmulRec
  neg_add_cancel a := add_self' a

theorem rotl_xor (a b : BitVec 64) (k : Nat) : rotl (a ^^^ b) k = rotl a k ^^^ rotl b k := by
  unfold rotl
  ext i hi
  simp only [BitVec.getElem_or, BitVec.getElem_xor, BitVec.getElem_shiftLeft,
    BitVec.getElem_ushiftRight, BitVec.getLsbD_xor]
  by_cases h : i < k
  · simp [h]
  · have : 64 ≤ 64 - k + i := by omega
    simp only [BitVec.getLsbD_of_ge _ _ this, h, decide_false, Bool.not_false, Bool.true_and,
      Bool.xor_false, Bool.or_false]

theorem xor4 (a b c d : BitVec 64) : (a ^^^ b) ^^^ (c ^^^ d) = (a ^^^ c) ^^^ (b ^^^ d) := by
  ext i; simp only [BitVec.getElem_xor]
  cases a[i] <;> cases b[i] <;> cases c[i] <;> cases d[i] <;> rfl

theorem next_add (a b : St) : next (a + b) = next a + next b := by
  have hs : ∀ x y : BitVec 64, (x ^^^ y) <<< 17 = x <<< 17 ^^^ y <<< 17 := by
    intro x y; exact BitVec.shiftLeft_xor_distrib x y 17
  have hr : ∀ x y, rotl (x ^^^ y) 45 = rotl x 45 ^^^ rotl y 45 := fun x y => rotl_xor x y 45
  ext1
  · simp only [next, add_s0, add_s1, add_s2, add_s3]; rw [xor4 a.s3, xor4 a.s0]
  · simp only [next, add_s0, add_s1, add_s2, add_s3]; rw [xor4 a.s2, xor4 a.s1]
  · simp only [next, add_s0, add_s1, add_s2, add_s3, hs]; rw [xor4 a.s2 b.s2, xor4 (a.s2 ^^^ a.s0)]
  · simp only [next, add_s0, add_s1, add_s2, add_s3]; rw [xor4, hr]

theorem next_zero : next 0 = 0 := by decide

/-- `next` as an additive endomorphism. -/
def T : AddMonoid.End St where
  toFun := next
  map_zero' := next_zero
  map_add' := next_add

@[simp] theorem T_apply (s : St) : T s = next s := rfl

theorem T_pow_apply (n : Nat) (s : St) : (T ^ n) s = next^[n] s := by
  rw [AddMonoid.End.coe_pow]; rfl

abbrev E := AddMonoid.End St

theorem E_add_self (a : E) : a + a = 0 := by
  ext1 s; exact add_self' _

/-- The action of the polynomial whose coefficients are the bits of `p`. -/
def act (p : Nat) : E :=
  if h : p = 0 then 0 else (if p % 2 = 1 then 1 else 0) + T * act (p / 2)
termination_by p
decreasing_by omega

theorem act_zero : act 0 = 0 := by rw [act]; simp

theorem act_unfold (p : Nat) : act p = (if p % 2 = 1 then 1 else 0) + T * act (p / 2) := by
  by_cases h : p = 0
  · subst h; simp [act_zero]
  · rw [act]; simp [h]

theorem act_one : act 1 = 1 := by rw [act_unfold]; simp [act_zero]
theorem act_two : act 2 = T := by rw [act_unfold]; simp [act_one]

theorem act_two_mul (p : Nat) : act (2 * p) = T * act p := by
  rw [act_unfold]; simp

theorem act_xor (p q : Nat) : act (p ^^^ q) = act p + act q := by
  induction p using Nat.strongRecOn generalizing q with
  | ind p ih =>
    by_cases h : p = 0
    · subst h; simp [act_zero]
    · have h1 : (p ^^^ q) / 2 = p / 2 ^^^ q / 2 := by
        have := Nat.shiftRight_xor_distrib (a := p) (b := q) (i := 1)
        simpa [Nat.shiftRight_eq_div_pow] using this
      have h2 : (p ^^^ q) % 2 = (p % 2 + q % 2) % 2 := by
        have := Nat.testBit_xor p q 0
        simp only [Nat.testBit_zero] at this
        rcases Nat.mod_two_eq_zero_or_one p with hp | hp <;>
        rcases Nat.mod_two_eq_zero_or_one q with hq | hq <;>
        rcases Nat.mod_two_eq_zero_or_one (p ^^^ q) with hpq | hpq <;>
        simp_all
      rw [act_unfold (p ^^^ q), act_unfold p, act_unfold q, h1, ih (p / 2) (by omega), h2]
      have e1 := E_add_self (1 : E)
      rcases Nat.mod_two_eq_zero_or_one p with hp | hp <;>
      rcases Nat.mod_two_eq_zero_or_one q with hq | hq <;>
      simp only [hp, hq, mul_add] <;> norm_num
      · abel
      · abel
      · rw [show (1 : E) + T * act (p / 2) + (1 + T * act (q / 2))
          = (1 + 1) + (T * act (p / 2) + T * act (q / 2)) by abel, e1, zero_add]

theorem T_act_comm (p : Nat) : T * act p = act p * T := by
  induction p using Nat.strongRecOn with
  | ind p ih =>
    by_cases h : p = 0
    · subst h; simp [act_zero]
    · rw [act_unfold p, mul_add, add_mul, mul_assoc T, ← ih (p / 2) (by omega)]
      split <;> simp

theorem act_comm (p q : Nat) : act p * act q = act q * act p := by
  induction p using Nat.strongRecOn with
  | ind p ih =>
    by_cases h : p = 0
    · subst h; simp [act_zero]
    · rw [act_unfold p, mul_add, add_mul, mul_assoc T, ih (p / 2) (by omega), ← mul_assoc, T_act_comm,
        mul_assoc]
      split <;> simp

theorem act_shift (p n : Nat) : act (p * 2 ^ n) = T ^ n * act p := by
  induction n with
  | zero => simp
  | succ n ih => rw [show p * 2 ^ (n + 1) = 2 * (p * 2 ^ n) by ring, act_two_mul, ih, pow_succ', mul_assoc]

/-! ### The polynomial arithmetic evaluated by the kernel -/

/-- The characteristic polynomial of `next`, coefficients in the bits. -/
def chi : Nat := 0x10003c03c3f3ecb1904b4edcf26259f850280002bcefd1a5e9d116f2bb0f0f001

/-- `f a`, written so that the kernel evaluates `a` to a literal first. -/
def force (a : Nat) (f : Nat → Nat) : Nat := Nat.rec (f 0) (fun k _ => f (Nat.succ k)) a

theorem force_eq (a : Nat) (f : Nat → Nat) : force a f = f a := by cases a <;> rfl

/-- Multiplication by `x` modulo `chi`. -/
def xtime (a : Nat) (f : Nat → Nat) : Nat := force (Nat.mul 2 a) fun a =>
  Bool.rec (f a) (f (Nat.xor a 0x10003c03c3f3ecb1904b4edcf26259f850280002bcefd1a5e9d116f2bb0f0f001))
    (Nat.ble 0x10000000000000000000000000000000000000000000000000000000000000000 a)

def bitAt (p n : Nat) : Bool := Nat.beq (Nat.land (Nat.shiftRight p n) 1) 1

theorem bitAt_eq (p n : Nat) : bitAt p n = p.testBit n := by
  unfold bitAt
  have h : Nat.land (Nat.shiftRight p n) 1 = (p >>> n) % 2 := Nat.and_one_is_mod (p >>> n)
  rw [h, Nat.testBit_eq_decide_div_mod_eq, Nat.shiftRight_eq_div_pow, Bool.eq_iff_iff]
  simp

def mulLoop (p q : Nat) (n : Nat) : Nat → Nat :=
  Nat.rec (motive := fun _ => Nat → Nat) (fun acc => acc)
    (fun n ih acc => xtime acc fun b => Bool.rec (ih b) (ih (Nat.xor b q)) (bitAt p n)) n

/-- Product modulo `chi`. -/
def mulmod (p q : Nat) : Nat := mulLoop p q 256 0

/-- `acc^(2^n) * x^(e mod 2^n)` modulo `chi`. -/
def powLoop (e : Nat) (n : Nat) : Nat → Nat :=
  Nat.rec (motive := fun _ => Nat → Nat) (fun acc => acc)
    (fun n ih acc => force (mulmod acc acc) fun b => Bool.rec (ih b) (xtime b ih) (bitAt e n)) n

theorem act_xtime (hchi : act chi = 0) (a : Nat) (f : Nat → Nat) :
    ∃ b, xtime a f = f b ∧ act b = T * act a := by
  unfold xtime
  rw [force_eq]
  cases h : Nat.ble 0x10000000000000000000000000000000000000000000000000000000000000000 (Nat.mul 2 a)
  · exact ⟨2 * a, rfl, act_two_mul a⟩
  · refine ⟨(2 * a) ^^^ chi, rfl, ?_⟩
    rw [act_xor, hchi, add_zero, act_two_mul]

theorem mod_pow_succ_testBit (p n : Nat) :
    p % 2 ^ (n + 1) = (if p.testBit n then 1 else 0) * 2 ^ n ^^^ p % 2 ^ n := by
  apply Nat.eq_of_testBit_eq; intro i
  rw [Nat.testBit_xor, Nat.testBit_mod_two_pow, Nat.testBit_mod_two_pow]
  by_cases hi : i = n
  · subst hi
    cases h : p.testBit i <;> simp
  · have h1 : (decide (i < n + 1)) = decide (i < n) := by
      rw [decide_eq_decide]; omega
    rw [h1]
    cases h : p.testBit n <;> simp [Ne.symm hi]

theorem act_mulLoop (hchi : act chi = 0) (p q n acc : Nat) :
    act (mulLoop p q n acc) = T ^ n * act acc + act (p % 2 ^ n) * act q := by
  induction n generalizing acc with
  | zero => simp [mulLoop, Nat.mod_one, act_zero]
  | succ n ih =>
    obtain ⟨b, hb, hact⟩ := act_xtime hchi acc
      (fun b => Bool.rec (mulLoop p q n b) (mulLoop p q n (Nat.xor b q)) (bitAt p n))
    have hu : mulLoop p q (n + 1) acc = xtime acc
      (fun b => Bool.rec (mulLoop p q n b) (mulLoop p q n (Nat.xor b q)) (bitAt p n)) := rfl
    rw [hu, hb, bitAt_eq, mod_pow_succ_testBit]
    cases hp : p.testBit n
    · simp only [ih, hact, pow_succ, mul_assoc]; simp
    · have : Nat.xor b q = b ^^^ q := rfl
      simp only [ih, this, act_xor, hact, if_true, act_shift, act_one, mul_one, add_mul, mul_add,
        pow_succ, mul_assoc, add_assoc]

theorem xtime_bound (a : Nat) (f : Nat → Nat) (ha : a < 2 ^ 256) :
    ∃ b, b < 2 ^ 256 ∧ xtime a f = f b ∧ (act chi = 0 → act b = T * act a) := by
  unfold xtime
  rw [force_eq]
  cases h : Nat.ble 0x10000000000000000000000000000000000000000000000000000000000000000 (Nat.mul 2 a)
  · refine ⟨2 * a, ?_, rfl, fun _ => act_two_mul a⟩
    have : ¬ (0x10000000000000000000000000000000000000000000000000000000000000000 ≤ 2 * a) := by
      intro hh; rw [← Nat.ble_eq] at hh; exact absurd (hh.symm.trans h) (by decide)
    omega
  · refine ⟨(2 * a) ^^^ chi, ?_, rfl, fun hchi => by rw [act_xor, hchi, add_zero, act_two_mul]⟩
    have h1 : 2 ^ 256 ≤ 2 * a := by
      have := Nat.le_of_ble_eq_true h
      simpa using this
    have h2 : 2 * a < 2 ^ 256 * 2 := by omega
    apply Nat.lt_pow_two_of_testBit
    intro i hi
    rw [Nat.testBit_xor]
    by_cases hi' : i = 256
    · subst hi'
      have e1 : (2 * a).testBit 256 = true := by
        rw [Nat.testBit_eq_decide_div_mod_eq]
        have : 2 * a / 2 ^ 256 = 1 := by
          rw [Nat.div_eq_iff (by decide)]; omega
        rw [this]; rfl
      rw [e1]; decide
    · have e1 : (2 * a).testBit i = false := Nat.testBit_lt_two_pow
        (lt_of_lt_of_le h2 (by rw [← pow_succ]; exact Nat.pow_le_pow_right (by decide) (by omega)))
      have e2 : chi.testBit i = false := Nat.testBit_lt_two_pow
        (lt_of_lt_of_le (by decide : chi < 2 ^ 256 * 2) (by rw [← pow_succ]; exact Nat.pow_le_pow_right (by decide) (by omega)))
      rw [e1, e2]; rfl

theorem mulLoop_bound (p q n acc : Nat) (hq : q < 2 ^ 256) (ha : acc < 2 ^ 256) :
    mulLoop p q n acc < 2 ^ 256 := by
  induction n generalizing acc with
  | zero => exact ha
  | succ n ih =>
    obtain ⟨b, hb, he, -⟩ := xtime_bound acc
      (fun b => Bool.rec (mulLoop p q n b) (mulLoop p q n (Nat.xor b q)) (bitAt p n)) ha
    have hu : mulLoop p q (n + 1) acc = xtime acc
      (fun b => Bool.rec (mulLoop p q n b) (mulLoop p q n (Nat.xor b q)) (bitAt p n)) := rfl
    rw [hu, he]
    cases bitAt p n
    · exact ih b hb
    · exact ih _ (Nat.xor_lt_two_pow hb hq)

theorem act_mulmod (hchi : act chi = 0) (p q : Nat) (hp : p < 2 ^ 256) :
    act (mulmod p q) = act p * act q := by
  rw [mulmod, act_mulLoop hchi, act_zero, mul_zero, zero_add, Nat.mod_eq_of_lt hp]

theorem act_powLoop (hchi : act chi = 0) (e n acc : Nat) (ha : acc < 2 ^ 256) :
    act (powLoop e n acc) = act acc ^ 2 ^ n * T ^ (e % 2 ^ n) := by
  induction n generalizing acc with
  | zero => simp [powLoop, Nat.mod_one]
  | succ n ih =>
    have hm : mulmod acc acc < 2 ^ 256 := mulLoop_bound _ _ _ _ ha (by decide)
    have hu : powLoop e (n + 1) acc = Bool.rec (powLoop e n (mulmod acc acc))
        (xtime (mulmod acc acc) (powLoop e n)) (bitAt e n) :=
      force_eq (mulmod acc acc) (fun b => Bool.rec (motive := fun _ => Nat) (powLoop e n b) (xtime b (powLoop e n)) (bitAt e n))
    rw [hu, bitAt_eq, Nat.mod_pow_succ, Nat.testBit_eq_decide_div_mod_eq]
    rcases Nat.mod_two_eq_zero_or_one (e / 2 ^ n) with h | h
    · simp only [h, zero_ne_one, decide_false]
      rw [ih _ hm, act_mulmod hchi _ _ ha, pow_succ', pow_mul, pow_two, mul_zero, add_zero]
    · simp only [h, decide_true]
      obtain ⟨b, hb, he, hact⟩ := xtime_bound (mulmod acc acc) (powLoop e n) hm
      rw [he, ih _ hb, hact hchi, act_mulmod hchi _ _ ha, mul_one]
      have hc : Commute T (act acc * act acc) := by
        have : Commute T (act acc) := T_act_comm acc
        exact this.mul_right this
      rw [hc.mul_pow, (hc.symm.pow_pow _ _).eq.symm, mul_assoc, ← pow_add, ← pow_two, ← pow_mul,
        pow_succ' 2 n, Nat.add_comm]

/-- `x^e mod chi` acts as `T^e`. -/
theorem act_pow (hchi : act chi = 0) (e n r : Nat) (he : e < 2 ^ n) (h : powLoop e n 1 = r) :
    T ^ e = act r := by
  have := act_powLoop hchi e n 1 (by decide)
  rw [h, act_one, one_pow, one_mul, Nat.mod_eq_of_lt he] at this
  exact this.symm

end Verif.Random
