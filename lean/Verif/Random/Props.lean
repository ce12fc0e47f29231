import Verif.Random.Order
import Mathlib.Data.BitVec
import Mathlib.Data.Fintype.Prod
import Mathlib.Data.Fintype.BigOperators

/-!
Property theorems for `lf::xoshiro` (C31, C32). `next` is the state update of `operator()`, `f^[n]` is `n` calls.
-/
namespace Verif.Random

/-- C31: `jump()` is exactly `2^128` calls of `operator()`, for every state. -/
theorem jump_is_two_pow_128_calls (s : St) : jump s = next^[2 ^ 128] s := by
  rw [jump, jumpImpl_eq, ← pw_jump, ← T_pow_apply]
  have h : T ^ (2 ^ 128) = act (powLoop (2 ^ 128) 129 1) :=
    act_pow act_chi (2 ^ 128) 129 _ (Nat.pow_lt_pow_right (by decide) (by decide)) rfl
  rw [h]

/-- C31: `long_jump()` is exactly `2^192` calls of `operator()`, for every state. -/
theorem long_jump_is_two_pow_192_calls (s : St) : longJump s = next^[2 ^ 192] s := by
  rw [longJump, jumpImpl_eq, ← pw_long_jump, ← T_pow_apply]
  have h : T ^ (2 ^ 192) = act (powLoop (2 ^ 192) 193 1) :=
    act_pow act_chi (2 ^ 192) 193 _ (Nat.pow_lt_pow_right (by decide) (by decide)) rfl
  rw [h]

/-- C32: `operator()` permutes the states. -/
theorem next_bijective : Function.Bijective next := by
  have h : ∀ s, next^[2 ^ 256 - 1] s = s := iter_full
  have e : 2 ^ 256 - 1 = (2 ^ 256 - 2) + 1 := by decide
  constructor
  · intro a b hab
    have := h a
    rw [e, Function.iterate_succ_apply, hab, ← Function.iterate_succ_apply, Nat.succ_eq_add_one, ← e, h b] at this
    exact this.symm
  · intro a
    refine ⟨next^[2 ^ 256 - 2] a, ?_⟩
    rw [← Function.iterate_succ_apply' next, Nat.succ_eq_add_one, ← e]
    exact h a

/-- C32: the all-zero state is absorbing and is reached from no other state. -/
theorem zero_iff (s : St) : next s = ⟨0, 0, 0, 0⟩ ↔ s = ⟨0, 0, 0, 0⟩ := by
  have hz : next ⟨0, 0, 0, 0⟩ = ⟨0, 0, 0, 0⟩ := next_zero
  constructor
  · intro h; exact next_bijective.1 (h.trans hz.symm)
  · rintro rfl; exact hz

/-- C32: every state other than the all-zero one has period exactly `2^256 - 1`. -/
theorem period_exact (s : St) (hs : s ≠ ⟨0, 0, 0, 0⟩) (n : Nat) :
    next^[n] s = s ↔ (2 ^ 256 - 1) ∣ n := period_iff s hs n

example : defaultSeed ≠ ⟨0, 0, 0, 0⟩ := by decide

/-- Two positions on the cycle of a non-zero state agree only if their distance is a multiple of the period. -/
theorem iter_inj (s : St) (hs : s ≠ ⟨0, 0, 0, 0⟩) (m n : Nat) (hm : m < 2 ^ 256 - 1) (hn : n < 2 ^ 256 - 1)
    (h : next^[m] s = next^[n] s) : m = n := by
  wlog hle : m ≤ n generalizing m n
  · exact (this n m hn hm h.symm (by omega)).symm
  obtain ⟨k, rfl⟩ := Nat.exists_eq_add_of_le hle
  rw [Function.iterate_add_apply] at h
  have := (next_bijective.1.iterate m) h
  have hd := (period_exact s hs k).1 this.symm
  have : k = 0 := Nat.eq_zero_of_dvd_of_lt hd (by omega)
  omega

/-- C32: all non-zero states lie on one cycle. -/
theorem single_cycle (s t : St) (hs : s ≠ ⟨0, 0, 0, 0⟩) (ht : t ≠ ⟨0, 0, 0, 0⟩) :
    ∃ n < 2 ^ 256 - 1, next^[n] s = t := by
  let e : St ≃ (BitVec 64 × BitVec 64) × (BitVec 64 × BitVec 64) :=
    ⟨fun s => ((s.s0, s.s1), (s.s2, s.s3)), fun p => ⟨p.1.1, p.1.2, p.2.1, p.2.2⟩, fun _ => rfl, fun _ => rfl⟩
  let eb : BitVec 64 ≃ Fin (2 ^ 64) := ⟨BitVec.toFin, BitVec.ofFin, fun _ => rfl, fun _ => rfl⟩
  let _ : Fintype (BitVec 64) := Fintype.ofEquiv _ eb.symm
  let _ : Fintype St := Fintype.ofEquiv _ e.symm
  have hb : Fintype.card (BitVec 64) = 2 ^ 64 := by
    rw [Fintype.card_congr eb, Fintype.card_fin]
  have hc : Fintype.card St = 2 ^ 256 := by
    rw [Fintype.card_congr e, Fintype.card_prod, Fintype.card_prod, hb]
    decide
  let Z := { x : St // x ≠ ⟨0, 0, 0, 0⟩ }
  have hZ : Fintype.card Z = 2 ^ 256 - 1 := by
    have h := Fintype.card_subtype_compl (fun x : St => x = ⟨0, 0, 0, 0⟩)
    rw [Fintype.card_subtype_eq, hc] at h
    convert h
  have hnz : ∀ n, next^[n] s ≠ ⟨0, 0, 0, 0⟩ := by
    intro n
    induction n with
    | zero => exact hs
    | succ n ih => rw [Function.iterate_succ_apply']; exact fun h => ih ((zero_iff _).1 h)
  let f : Fin (2 ^ 256 - 1) → Z := fun i => ⟨next^[i.val] s, hnz i.val⟩
  have hinj : Function.Injective f := by
    intro i j hij
    exact Fin.ext (iter_inj s hs i.val j.val i.isLt j.isLt (congrArg Subtype.val hij))
  have hbij : Function.Bijective f := by
    rw [Fintype.bijective_iff_injective_and_card]
    exact ⟨hinj, by rw [Fintype.card_fin, hZ]⟩
  obtain ⟨i, hi⟩ := hbij.2 ⟨t, ht⟩
  exact ⟨i.val, i.isLt, congrArg Subtype.val hi⟩

theorem jump_iter (a : Nat) (s : St) : jump^[a] s = next^[a * 2 ^ 128] s := by
  induction a with
  | zero => simp
  | succ a ih =>
    rw [Function.iterate_succ_apply', ih, jump_is_two_pow_128_calls, ← Function.iterate_add_apply]
    congr 1; ring

theorem longJump_iter (a : Nat) (s : St) : longJump^[a] s = next^[a * 2 ^ 192] s := by
  induction a with
  | zero => simp
  | succ a ih =>
    rw [Function.iterate_succ_apply', ih, long_jump_is_two_pow_192_calls, ← Function.iterate_add_apply]
    congr 1; ring

/-- C32: the streams started at `s, jump s, jump (jump s), …` do not meet during their first `2^128` outputs:
the `i`-th state of stream `a` and the `j`-th state of stream `b` coincide only if they are the same position.
(The bound `2^128 - 1` on the stream number is sharp: the very last state of stream `2^128 - 1` is the first of
stream `0` because the period is `2^256 - 1`.) -/
theorem jump_streams_disjoint (s : St) (hs : s ≠ ⟨0, 0, 0, 0⟩) (a b i j : Nat)
    (ha : a < 2 ^ 128 - 1) (hb : b < 2 ^ 128 - 1) (hi : i < 2 ^ 128) (hj : j < 2 ^ 128)
    (h : next^[i] (jump^[a] s) = next^[j] (jump^[b] s)) : a = b ∧ i = j := by
  rw [jump_iter, jump_iter, ← Function.iterate_add_apply, ← Function.iterate_add_apply] at h
  have := iter_inj s hs _ _ (by omega) (by omega) h
  omega

/-- C32: `long_jump` gives starting points whose first `2^64 - 1` `jump` streams do not meet. -/
theorem long_jump_streams_disjoint (s : St) (hs : s ≠ ⟨0, 0, 0, 0⟩) (c d a b i j : Nat)
    (hc : c < 2 ^ 64) (hd : d < 2 ^ 64) (ha : a < 2 ^ 64 - 1) (hb : b < 2 ^ 64 - 1)
    (hi : i < 2 ^ 128) (hj : j < 2 ^ 128)
    (h : next^[i] (jump^[a] (longJump^[c] s)) = next^[j] (jump^[b] (longJump^[d] s))) :
    c = d ∧ a = b ∧ i = j := by
  rw [longJump_iter, longJump_iter, jump_iter, jump_iter, ← Function.iterate_add_apply,
    ← Function.iterate_add_apply, ← Function.iterate_add_apply, ← Function.iterate_add_apply] at h
  have := iter_inj s hs _ _ (by omega) (by omega) h
  omega

example : next^[3] (jump^[2] defaultSeed) = next^[3] (jump^[2] defaultSeed) ∧
    jump defaultSeed ≠ defaultSeed := by
  exact ⟨rfl, by decide +kernel⟩

end Verif.Random
