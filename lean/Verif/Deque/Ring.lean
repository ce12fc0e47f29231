import Verif.Deque.Model

/-! Ring buffers. -/
namespace Verif.Deque
variable {V : Type}

theorem hasSingleBit_pow (k : Nat) : hasSingleBit (2 ^ k) = true := by
  simp [hasSingleBit, Nat.and_two_pow_sub_one_eq_mod]

theorem idx_eq {c : Nat} (hc : ∃ k, c = 2 ^ k) (i : Nat) : i &&& (c - 1) = i % c := by
  obtain ⟨k, rfl⟩ := hc; exact Nat.and_two_pow_sub_one_eq_mod i k

theorem mod_ne {c a b : Nat} (h1 : a < b) (h2 : b < a + c) : a % c ≠ b % c := by
  intro h
  have hd : (b - a) % c = 0 := by
    have := Nat.sub_mod_eq_zero_of_mod_eq (m := b) (n := a) (k := c) h.symm
    exact this
  rw [Nat.mod_eq_of_lt (by omega)] at hd
  omega

theorem Buf.get_set_self (b : Buf V) (i : Int) (v : V) : (b.set i v).get i = v := by
  simp [Buf.set, Buf.get]

theorem Buf.get_set_ne {b : Buf V} (hc : ∃ k, b.cap = 2 ^ k) {i j : Int} (v : V) (hi : 0 ≤ i) (hj : 0 ≤ j)
    (hne : i ≠ j) (h1 : i - j < b.cap) (h2 : j - i < b.cap) : (b.set i v).get j = b.get j := by
  simp only [Buf.set, Buf.get]
  rw [if_neg]
  rw [idx_eq hc, idx_eq hc]
  rcases Int.lt_or_gt_of_ne hne with h | h
  · exact (mod_ne (by omega) (by omega)).symm
  · exact mod_ne (by omega) (by omega)

theorem copyLoop_cap (old new : Buf V) (i : Int) (k : Nat) : (copyLoop old new i k).cap = new.cap := by
  induction k generalizing new i with
  | zero => rfl
  | succ k ih => rw [copyLoop, ih]; rfl

theorem copyLoop_get {old : Buf V} (k : Nat) (new : Buf V) (hc : ∃ k, new.cap = 2 ^ k) (i : Int) (hi : 0 ≤ i)
    (hk : k ≤ new.cap) :
    (∀ j, i ≤ j → j < i + k → (copyLoop old new i k).get j = old.get j) ∧
    (∀ j, 0 ≤ j → j < i → i + k - j ≤ new.cap → (copyLoop old new i k).get j = new.get j) := by
  induction k generalizing new i with
  | zero => exact ⟨fun j _ _ => by omega, fun j _ _ _ => rfl⟩
  | succ k ih =>
    have hcap : (new.set i (old.get i)).cap = new.cap := rfl
    obtain ⟨h1, h2⟩ := ih (new.set i (old.get i)) hc (i + 1) (by omega) (by omega)
    rw [hcap] at h2
    constructor
    · intro j hj1 hj2
      by_cases hj : j = i
      · subst hj
        rw [copyLoop, h2 j hi (by omega) (by omega), Buf.get_set_self]
      · exact h1 j (by omega) (by omega)
    · intro j hj0 hj1 hj2
      rw [copyLoop, h2 j hj0 (by omega) (by omega), Buf.get_set_ne hc _ hi hj0 (by omega) (by omega) (by omega)]

theorem Buf.resize_cap (b : Buf V) (fresh : Nat → V) (bot top : Int) : (b.resize fresh bot top).cap = 2 * b.cap := by
  simp [Buf.resize, copyLoop_cap]

theorem Buf.resize_get {b : Buf V} (hc : ∃ k, b.cap = 2 ^ k) (fresh : Nat → V) {bot top : Int} (ht : 0 ≤ top)
    (htb : top ≤ bot) (hle : bot - top ≤ b.cap) {j : Int} (h1 : top ≤ j) (h2 : j < bot) :
    (b.resize fresh bot top).get j = b.get j := by
  have hc2 : ∃ k, ({ cap := 2 * b.cap, slot := fresh } : Buf V).cap = 2 ^ k := by
    obtain ⟨k, hk⟩ := hc
    exact ⟨k + 1, by simp [hk, Nat.pow_succ, Nat.mul_comm]⟩
  exact (copyLoop_get (old := b) (bot - top).toNat _ hc2 top ht (by dsimp only; omega)).1 j h1 (by omega)

end Verif.Deque
