/-
include/libfork/schedule/ext/event_count.hpp:150-194: the 64-bit word `m_val`, the epoch in the most significant 32 bits and the
number of waiters in the least significant ones (both byte orders give the same value: lines 161-171).
-/
namespace Verif.EventCount

/-- No code: 2^32. -/
@[irreducible] def P32 : Nat := 4294967296
/-- No code: 2^64. -/
@[irreducible] def P64 : Nat := 18446744073709551616

/-- event_count.hpp:179, 185: `fetch_add(k_add_epoch)`; `uint64_t` wraps. -/
@[irreducible] def addEpoch (v : Nat) : Nat := (P32 + v) % P64

/-- event_count.hpp:191: `fetch_add(k_add_waiter)`. -/
@[irreducible] def addWaiter (v : Nat) : Nat := (1 + v) % P64

/-- event_count.hpp:200, 212: `fetch_add(k_sub_waiter)`, `k_sub_waiter` is `uint64_t(-1)`. -/
@[irreducible] def subWaiter (v : Nat) : Nat := (P64 - 1 + v) % P64

/-- event_count.hpp:193: `uint32_t(prev >> k_epoch_shift)`, and the 32-bit object `epoch()` refers to (lines 150-152). -/
@[irreducible] def epochOf (v : Nat) : Nat := v / P32 % P32

/-- event_count.hpp:179, 185, 202, 214: `& k_waiter_mask`. -/
@[irreducible] def waitersOf (v : Nat) : Nat := v % P32

/-- The word says: `n` notifications so far, `c` waiters. No code: the meaning of event_count.hpp:175. -/
@[irreducible] def Rep (v n c : Nat) : Prop := v = n % P32 * P32 + c ∧ c < P32

theorem Rep.epoch {v n c : Nat} (h : Rep v n c) : epochOf v = n % P32 := by
  unfold Rep at h; obtain ⟨rfl, hc⟩ := h; unfold epochOf P32 at *; omega

theorem Rep.waiters {v n c : Nat} (h : Rep v n c) : waitersOf v = c := by
  unfold Rep at h; obtain ⟨rfl, hc⟩ := h; unfold waitersOf P32 at *; omega

theorem Rep.addEpoch {v n c : Nat} (h : Rep v n c) : Rep (addEpoch v) (n + 1) c := by
  unfold Rep at *; obtain ⟨rfl, hc⟩ := h; unfold EventCount.addEpoch P32 P64 at *; omega

theorem Rep.addWaiter {v n c : Nat} (h : Rep v n c) (hc : c + 1 < P32) : Rep (addWaiter v) n (c + 1) := by
  unfold Rep at *; obtain ⟨rfl, _⟩ := h; unfold EventCount.addWaiter P32 P64 at *; omega

theorem Rep.subWaiter {v n c : Nat} (h : Rep v n (c + 1)) : Rep (subWaiter v) n c := by
  unfold Rep at *; obtain ⟨rfl, hc⟩ := h; unfold EventCount.subWaiter P32 P64 at *; omega

/-- Two epochs less than 2^32 notifications apart differ as 32-bit numbers. -/
theorem epoch_ne {n m : Nat} (h1 : m < n) (h2 : n < m + P32) : n % P32 ≠ m % P32 := by
  unfold P32 at *; omega

end Verif.EventCount
