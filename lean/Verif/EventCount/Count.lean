/-! Counting the threads below `N` with a property. -/
namespace Verif.EventCount

/-- The number of threads below `N` for which `f` holds. -/
def num (N : Nat) (f : Nat → Bool) : Nat := (List.range N).countP f

theorem num_succ (N : Nat) (f : Nat → Bool) : num (N + 1) f = num N f + (if f N then 1 else 0) := by
  simp [num, List.range_succ, List.countP_append, List.countP_cons]

theorem num_congr {N : Nat} {f g : Nat → Bool} (h : ∀ t, t < N → f t = g t) : num N f = num N g := by
  unfold num
  exact List.countP_congr fun t ht => by rw [h t (List.mem_range.1 ht)]

theorem num_le (N : Nat) (f : Nat → Bool) : num N f ≤ N := by
  unfold num
  exact Nat.le_trans List.countP_le_length (by simp)

theorem num_pos {N : Nat} {f : Nat → Bool} : 0 < num N f ↔ ∃ t, t < N ∧ f t = true := by
  unfold num
  rw [List.countP_pos_iff]
  simp

theorem num_zero {N : Nat} {f : Nat → Bool} : num N f = 0 ↔ ∀ t, t < N → f t = false := by
  have := @num_pos N f
  constructor
  · intro h t ht
    cases hf : f t with
    | false => rfl
    | true => have := this.2 ⟨t, ht, hf⟩; omega
  · intro h
    by_cases h0 : num N f = 0
    · exact h0
    · obtain ⟨t, ht, hf⟩ := this.1 (by omega)
      rw [h t ht] at hf; cases hf

/-- One thread changes. -/
theorem num_change {N t : Nat} {f g : Nat → Bool} (ht : t < N) (h : ∀ u, u ≠ t → f u = g u) :
    num N g + (if f t then 1 else 0) = num N f + (if g t then 1 else 0) := by
  induction N with
  | zero => omega
  | succ N ih =>
    rw [num_succ, num_succ]
    by_cases e : t = N
    · subst e
      rw [num_congr (f := f) (g := g) fun u hu => h u (by omega)]
      omega
    · have h1 := ih (by omega)
      rw [h N (Ne.symm e)]
      omega

/-- If `f` fails for one thread there are fewer than `N`. -/
theorem num_lt {N t : Nat} {f : Nat → Bool} (ht : t < N) (h : f t = false) : num N f < N := by
  have h1 := num_change (N := N) (t := t) (f := f) (g := fun u => if u = t then true else f u) ht (fun u hu => by simp [hu])
  have h2 := num_le N (fun u => if u = t then true else f u)
  simp only [h, if_true, Bool.false_eq_true, if_false] at h1
  omega

end Verif.EventCount
