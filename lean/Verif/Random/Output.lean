import Verif.Random.Props
import Mathlib.SetTheory.Cardinal.Finite
import Mathlib.Logic.Equiv.Fintype

/-!
C40: the numbers `operator()` returns. Over one full period every 64-bit number is returned 2^192 times, except 0 which is returned
2^192 - 1 times; so the range advertised by `min()` and `max()` (random.hpp:109-120, all of `std::uint64_t`) is the one the
generator really has.
-/
namespace Verif.Random

/-- The number returned by the `n`-th call (counted from 0) on a generator in state `s`. -/
def nth (s : St) (n : Nat) : BitVec 64 := output (next^[n] s)

theorem rotl7_inj {v w : BitVec 64} (h : rotl v 7 = rotl w 7) : v = w := by
  have key : ∀ (x : BitVec 64) (i : Nat), i < 64 → x.getLsbD i = (rotl x 7).getLsbD ((i + 7) % 64) := by
    intro x i hi
    unfold rotl
    rw [BitVec.getLsbD_or, BitVec.getLsbD_shiftLeft, BitVec.getLsbD_ushiftRight]
    by_cases h57 : i < 57
    · have e : (i + 7) % 64 = i + 7 := by omega
      rw [e]
      have h1 : x.getLsbD (64 - 7 + (i + 7)) = false := BitVec.getLsbD_of_ge _ _ (by omega)
      have h2 : i + 7 < 64 := by omega
      have h3 : ¬ i + 7 < 7 := by omega
      have h4 : i + 7 - 7 = i := by omega
      simp [h1, h2, h3, h4]
    · have e : (i + 7) % 64 = i - 57 := by omega
      rw [e]
      have h1 : i - 57 < 7 := by omega
      have h2 : 64 - 7 + (i - 57) = i := by omega
      rw [h2]
      simp [h1]
  apply BitVec.eq_of_getLsbD_eq
  intro i hi
  rw [key v i hi, key w i hi, h]

/-- Different second words give different numbers. -/
theorem output_inj {m m' : St} (h : output m = output m') : m.s1 = m'.s1 := by
  unfold output at h
  have h9 : ∀ x : BitVec 64, x * 9 * 0x8E38E38E38E38E39#64 = x := by
    intro x; rw [BitVec.mul_assoc, show (9 : BitVec 64) * 0x8E38E38E38E38E39#64 = 1#64 by decide, BitVec.mul_one]
  have h5 : ∀ x : BitVec 64, x * 5 * 0xCCCCCCCCCCCCCCCD#64 = x := by
    intro x; rw [BitVec.mul_assoc, show (5 : BitVec 64) * 0xCCCCCCCCCCCCCCCD#64 = 1#64 by decide, BitVec.mul_one]
  have h1 : rotl (m.s1 * 5) 7 = rotl (m'.s1 * 5) 7 := by rw [← h9 (rotl (m.s1 * 5) 7), h, h9]
  have h2 := rotl7_inj h1
  rw [← h5 m.s1, h2, h5]

theorem card_bv : Nat.card (BitVec 64) = 2 ^ 64 := by
  let eb : BitVec 64 ≃ Fin (2 ^ 64) := ⟨BitVec.toFin, BitVec.ofFin, fun _ => rfl, fun _ => rfl⟩
  rw [Nat.card_congr eb, Nat.card_eq_fintype_card, Fintype.card_fin]

/-- Every number is the output of some second word. -/
theorem output_surj (v : BitVec 64) : ∃ x, output ⟨0, x, 0, 0⟩ = v := by
  let eb : BitVec 64 ≃ Fin (2 ^ 64) := ⟨BitVec.toFin, BitVec.ofFin, fun _ => rfl, fun _ => rfl⟩
  have : Finite (BitVec 64) := Finite.of_equiv _ eb.symm
  have hi : Function.Injective fun x => output ⟨0, x, 0, 0⟩ := fun x y h => output_inj (m := ⟨0, x, 0, 0⟩) (m' := ⟨0, y, 0, 0⟩) h
  exact (Finite.injective_iff_surjective.1 hi) v

theorem output_s1 (m : St) : output m = output ⟨0, m.s1, 0, 0⟩ := rfl

/-- The states with a given output: the second word is determined, the others are free. -/
theorem card_output (v : BitVec 64) : Nat.card { m : St // output m = v } = 2 ^ 192 := by
  obtain ⟨x, hx⟩ := output_surj v
  let e : { m : St // output m = v } ≃ BitVec 64 × BitVec 64 × BitVec 64 :=
    { toFun := fun m => (m.1.s0, m.1.s2, m.1.s3)
      invFun := fun p => ⟨⟨p.1, x, p.2.1, p.2.2⟩, by rw [output_s1]; exact hx⟩
      left_inv := by
        rintro ⟨m, hm⟩
        have : m.s1 = x := output_inj (m' := ⟨0, x, 0, 0⟩) (hm.trans hx.symm)
        apply Subtype.ext
        subst this
        rfl
      right_inv := fun _ => rfl }
  rw [Nat.card_congr e, Nat.card_prod, Nat.card_prod, card_bv]
  decide

theorem output_zero_iff (m : St) : output m = 0 ↔ m.s1 = 0 := by
  have h0 : output ⟨0, 0, 0, 0⟩ = 0 := by decide
  constructor
  · intro h; exact output_inj (m' := ⟨0, 0, 0, 0⟩) (h.trans h0.symm)
  · intro h; rw [output_s1, h]; exact h0

/-- **C40**. From any state but the all-zero one, among the `2^256 - 1` calls of one period exactly `2^192` return `v`, for every
`v ≠ 0`, and `2^192 - 1` return 0. -/
theorem outputs_equidistributed (s : St) (hs : s ≠ ⟨0, 0, 0, 0⟩) (v : BitVec 64) :
    Nat.card { n : Nat // n < 2 ^ 256 - 1 ∧ nth s n = v } = if v = 0 then 2 ^ 192 - 1 else 2 ^ 192 := by
  have hnz : ∀ n, next^[n] s ≠ ⟨0, 0, 0, 0⟩ := by
    intro n
    induction n with
    | zero => exact hs
    | succ n ih => rw [Function.iterate_succ_apply']; exact fun h => ih ((zero_iff _).1 h)
  let f : { n : Nat // n < 2 ^ 256 - 1 ∧ nth s n = v } → { m : { m : St // output m = v } // m.1 ≠ ⟨0, 0, 0, 0⟩ } :=
    fun n => ⟨⟨next^[n.1] s, n.2.2⟩, hnz n.1⟩
  have hf : Function.Bijective f := by
    constructor
    · rintro ⟨a, ha⟩ ⟨b, hb⟩ h
      have h' : next^[a] s = next^[b] s := congrArg (fun z => z.1.1) h
      exact Subtype.ext (iter_inj s hs a b ha.1 hb.1 h')
    · rintro ⟨⟨m, hm⟩, hmz⟩
      obtain ⟨n, hn, e⟩ := single_cycle s m hs hmz
      refine ⟨⟨n, hn, ?_⟩, ?_⟩
      · unfold nth; rw [e]; exact hm
      · apply Subtype.ext; apply Subtype.ext; exact e
  rw [Nat.card_congr (Equiv.ofBijective f hf)]
  by_cases hv : v = 0
  · rw [if_pos hv]
    subst hv
    have hc := card_output 0
    have hfin : Finite { m : St // output m = 0 } := Nat.finite_of_card_ne_zero (by rw [hc]; exact Nat.ne_of_gt (Nat.two_pow_pos _))
    let z : { m : St // output m = 0 } := ⟨⟨0, 0, 0, 0⟩, by decide⟩
    have e : { m : { m : St // output m = 0 } // m.1 ≠ ⟨0, 0, 0, 0⟩ } ≃ { m : { m : St // output m = 0 } // m ≠ z } :=
      Equiv.subtypeEquivRight fun m => by
        constructor
        · intro h h'; exact h (congrArg Subtype.val h')
        · intro h h'; exact h (Subtype.ext h')
    rw [Nat.card_congr e]
    have : Fintype { m : St // output m = 0 } := Fintype.ofFinite _
    classical
    have h1 := Fintype.card_subtype_compl (fun m : { m : St // output m = 0 } => m = z)
    rw [Fintype.card_subtype_eq, ← Nat.card_eq_fintype_card, ← Nat.card_eq_fintype_card, hc] at h1
    exact h1
  · rw [if_neg hv]
    rw [← card_output v]
    refine Nat.card_congr (Equiv.subtypeUnivEquiv ?_)
    rintro ⟨m, hm⟩ h
    apply hv
    subst h
    rw [← hm]
    decide

/-- **C40**. Every number between `min()` and `max()` is returned within one period, from every legal state. -/
theorem outputs_full_range (s : St) (hs : s ≠ ⟨0, 0, 0, 0⟩) (v : BitVec 64) : ∃ n < 2 ^ 256 - 1, nth s n = v := by
  obtain ⟨x, hx⟩ := output_surj v
  by_cases h : x = 0
  · -- 0: take any state with second word 0
    obtain ⟨n, hn, e⟩ := single_cycle s ⟨1, x, 0, 0⟩ hs (by simp)
    exact ⟨n, hn, by unfold nth; rw [e, output_s1]; exact hx⟩
  · obtain ⟨n, hn, e⟩ := single_cycle s ⟨0, x, 0, 0⟩ hs (fun e => h (congrArg St.s1 e))
    exact ⟨n, hn, by unfold nth; rw [e]; exact hx⟩

/-- **C32/C40** for a default-constructed generator (random.hpp:172-177): its state is a legal one, so its period is the full
one and its outputs are equidistributed. -/
theorem default_full_period :
    (∀ n, next^[n] defaultSeed = defaultSeed ↔ (2 ^ 256 - 1) ∣ n) ∧
      ∀ v, Nat.card { n : Nat // n < 2 ^ 256 - 1 ∧ nth defaultSeed n = v } = if v = 0 then 2 ^ 192 - 1 else 2 ^ 192 :=
  have h : defaultSeed ≠ ⟨0, 0, 0, 0⟩ := by decide
  ⟨period_exact _ h, outputs_equidistributed _ h⟩

/-- The first outputs of a default-constructed generator (a value that can be compared with a run of the program). -/
example : nth defaultSeed 0 = rotl (0x2AA426A407C2B04F * 5) 7 * 9 ∧ nth defaultSeed 0 ≠ nth defaultSeed 1 := by
  decide

end Verif.Random
