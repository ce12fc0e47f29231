import Verif.Random.Algebra

/-!
Kernel computations for the xoshiro theorems: the characteristic polynomial annihilates `next` (checked on the 256
basis vectors and extended to all states by linearity).
-/
namespace Verif.Random

/-- Horner evaluation of a polynomial in `next` at a vector. -/
def horner (p : Nat) (e : St) : Nat → St → St
  | 0, acc => acc
  | n + 1, acc => horner p e n (if p.testBit n then next acc + e else next acc)

theorem horner_eq (p : Nat) (e : St) (n : Nat) (acc : St) :
    horner p e n acc = (T ^ n) acc + act (p % 2 ^ n) e := by
  induction n generalizing acc with
  | zero => simp [horner, Nat.mod_one, act_zero]
  | succ n ih =>
    rw [horner, ih, mod_pow_succ_testBit]
    cases p.testBit n
    · simp [pow_succ]
    · simp only [if_true, act_xor, act_shift, act_one, mul_one, pow_succ, map_add,
        add_assoc]
      rfl

/-- The 256 unit vectors. -/
def basis (j : Nat) : St :=
  if j < 64 then ⟨1#64 <<< j, 0, 0, 0⟩ else if j < 128 then ⟨0, 1#64 <<< (j - 64), 0, 0⟩
  else if j < 192 then ⟨0, 0, 1#64 <<< (j - 128), 0⟩ else ⟨0, 0, 0, 1#64 <<< (j - 192)⟩

theorem bv_span (P : BitVec 64 → Prop) (h0 : P 0) (hx : ∀ x y, P x → P y → P (x ^^^ y))
    (h1 : ∀ j < 64, P (1#64 <<< j)) (x : BitVec 64) : P x := by
  suffices ∀ n ≤ 64, ∀ x : BitVec 64, x.toNat < 2 ^ n → P x from this 64 (le_refl _) x x.isLt
  intro n
  induction n with
  | zero =>
    intro _ x hlt
    have : x = 0 := by apply BitVec.eq_of_toNat_eq; simp; omega
    rw [this]; exact h0
  | succ n ih =>
    intro hn x hlt
    by_cases hb : x.toNat.testBit n
    · have hone : (1#64 <<< n).toNat = 2 ^ n := by
        rw [BitVec.toNat_shiftLeft, Nat.shiftLeft_eq, BitVec.toNat_ofNat]
        rw [Nat.mod_eq_of_lt (show 1 < 2 ^ 64 by decide), one_mul]
        exact Nat.mod_eq_of_lt (Nat.pow_lt_pow_right (by decide) (by omega))
      have hy : P (x ^^^ (1#64 <<< n)) := by
        apply ih (by omega)
        rw [BitVec.toNat_xor, hone]
        apply Nat.lt_pow_two_of_testBit
        intro i hi
        rw [Nat.testBit_xor, Nat.testBit_two_pow]
        by_cases hi' : i = n
        · subst hi'; simp [hb]
        · have := Nat.testBit_lt_two_pow (lt_of_lt_of_le hlt
            (Nat.pow_le_pow_right (by decide) (show n + 1 ≤ i by omega)))
          simp [this, Ne.symm hi']
      have := hx _ _ hy (h1 n (by omega))
      rwa [BitVec.xor_assoc, BitVec.xor_self, BitVec.xor_zero] at this
    · apply ih (by omega)
      apply Nat.lt_pow_two_of_testBit
      intro i hi
      by_cases hi' : i = n
      · subst hi'; simpa using hb
      · exact Nat.testBit_lt_two_pow (lt_of_lt_of_le hlt
            (Nat.pow_le_pow_right (by decide) (show n + 1 ≤ i by omega)))

theorem E_zero_of_basis (L : E) (h : ∀ j < 256, L (basis j) = 0) : L = 0 := by
  ext1 s
  have a0 : ∀ x, L ⟨x, 0, 0, 0⟩ = 0 := bv_span _ (map_zero L)
    (fun x y hx hy => by
      rw [show (⟨x ^^^ y, 0, 0, 0⟩ : St) = ⟨x, 0, 0, 0⟩ + ⟨y, 0, 0, 0⟩ by ext1 <;> simp, map_add, hx, hy,
        add_zero])
    (fun j hj => by have := h j (by omega); rwa [basis, if_pos hj] at this)
  have a1 : ∀ x, L ⟨0, x, 0, 0⟩ = 0 := bv_span _ (map_zero L)
    (fun x y hx hy => by
      rw [show (⟨0, x ^^^ y, 0, 0⟩ : St) = ⟨0, x, 0, 0⟩ + ⟨0, y, 0, 0⟩ by ext1 <;> simp, map_add, hx, hy,
        add_zero])
    (fun j hj => by
      have := h (64 + j) (by omega)
      rwa [basis, if_neg (by omega), if_pos (by omega), Nat.add_sub_cancel_left] at this)
  have a2 : ∀ x, L ⟨0, 0, x, 0⟩ = 0 := bv_span _ (map_zero L)
    (fun x y hx hy => by
      rw [show (⟨0, 0, x ^^^ y, 0⟩ : St) = ⟨0, 0, x, 0⟩ + ⟨0, 0, y, 0⟩ by ext1 <;> simp, map_add, hx, hy,
        add_zero])
    (fun j hj => by
      have := h (128 + j) (by omega)
      rwa [basis, if_neg (by omega), if_neg (by omega), if_pos (by omega), Nat.add_sub_cancel_left] at this)
  have a3 : ∀ x, L ⟨0, 0, 0, x⟩ = 0 := bv_span _ (map_zero L)
    (fun x y hx hy => by
      rw [show (⟨0, 0, 0, x ^^^ y⟩ : St) = ⟨0, 0, 0, x⟩ + ⟨0, 0, 0, y⟩ by ext1 <;> simp, map_add, hx, hy,
        add_zero])
    (fun j hj => by
      have := h (192 + j) (by omega)
      rwa [basis, if_neg (by omega), if_neg (by omega), if_neg (by omega), Nat.add_sub_cancel_left] at this)
  rw [show s = ⟨s.s0, 0, 0, 0⟩ + ⟨0, s.s1, 0, 0⟩ + ⟨0, 0, s.s2, 0⟩ + ⟨0, 0, 0, s.s3⟩ by ext1 <;> simp,
    map_add, map_add, map_add, a0, a1, a2, a3]
  rfl

set_option maxRecDepth 100000 in
theorem chk0 : ∀ j < 64, horner chi (basis j) 257 0 = 0 := by decide +kernel
set_option maxRecDepth 100000 in
theorem chk1 : ∀ j < 64, horner chi (basis (64 + j)) 257 0 = 0 := by decide +kernel
set_option maxRecDepth 100000 in
theorem chk2 : ∀ j < 64, horner chi (basis (128 + j)) 257 0 = 0 := by decide +kernel
set_option maxRecDepth 100000 in
theorem chk3 : ∀ j < 64, horner chi (basis (192 + j)) 257 0 = 0 := by decide +kernel

/-- Cayley–Hamilton for `next`. -/
theorem act_chi : act chi = 0 := by
  apply E_zero_of_basis
  intro j hj
  have key : horner chi (basis j) 257 0 = 0 := by
    by_cases h0 : j < 64
    · exact chk0 j h0
    by_cases h1 : j < 128
    · have := chk1 (j - 64) (by omega); rwa [show 64 + (j - 64) = j by omega] at this
    by_cases h2 : j < 192
    · have := chk2 (j - 128) (by omega); rwa [show 128 + (j - 128) = j by omega] at this
    · have := chk3 (j - 192) (by omega); rwa [show 192 + (j - 192) = j by omega] at this
  rw [horner_eq, map_zero, zero_add] at key
  have hc : chi % 2 ^ 257 = chi := by decide +kernel
  rwa [hc] at key

end Verif.Random
