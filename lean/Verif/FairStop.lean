import Verif.Fair

/-! A schedule in which only so many steps can be taken comes to rest. (Part of the small library of Verif.Fair.) -/
namespace Verif.Fair
variable {σ α : Type} {S : Sys σ α}

/-- `X k s`: `k` steps have led to `s`; never more than `B`. -/
theorem Run.stops (r : Run S) (X : Nat → σ → Prop) {B : Nat} (h0 : ∃ k, X k (r.st 0))
    (hs : ∀ k a s s', X k s → S.step a s s' → X (k + 1) s') (hB : ∀ k s, X k s → k ≤ B) :
    ∃ t, ∀ u, t ≤ u → r.who u = none ∧ r.st u = r.st t := by
  have hx : ∀ u t k, t ≤ u → X k (r.st t) → ∃ k', k ≤ k' ∧ X k' (r.st u) := by
    intro u
    induction u with
    | zero => intro t k h1 h2; have : t = 0 := by omega
              subst this; exact ⟨k, Nat.le_refl _, h2⟩
    | succ u ih =>
      intro t k h1 h2
      by_cases e : t = u + 1
      · subst e; exact ⟨k, Nat.le_refl _, h2⟩
      · obtain ⟨k', h3, h4⟩ := ih t k (by omega) h2
        rcases r.next u with ⟨_, e⟩ | ⟨a, _, st⟩
        · exact ⟨k', h3, by rw [e]; exact h4⟩
        · exact ⟨k' + 1, by omega, hs _ _ _ _ h4 st⟩
  have key : ∀ d k t, B ≤ k + d → X k (r.st t) → ∃ t', ∀ u, t' ≤ u → r.who u = none := by
    intro d
    induction d with
    | zero =>
      intro k t hd hk
      refine ⟨t, fun u hu => ?_⟩
      rcases r.next u with ⟨e, _⟩ | ⟨a, _, st⟩
      · exact e
      · obtain ⟨k', h3, h4⟩ := hx u t k hu hk
        have := hB _ _ (hs _ _ _ _ h4 st)
        omega
    | succ d ih =>
      intro k t hd hk
      by_cases h : ∃ u, t ≤ u ∧ r.who u ≠ none
      · obtain ⟨u, hu, hn⟩ := h
        obtain ⟨k', h3, h4⟩ := hx u t k hu hk
        rcases r.next u with ⟨e, _⟩ | ⟨a, _, st⟩
        · exact absurd e hn
        · exact ih (k' + 1) (u + 1) (by omega) (hs _ _ _ _ h4 st)
      · exact ⟨t, fun u hu => Classical.not_not.1 fun e => h ⟨u, hu, e⟩⟩
  obtain ⟨k, hk⟩ := h0
  obtain ⟨t, ht⟩ := key B k 0 (by omega) hk
  refine ⟨t, fun u hu => ⟨ht u hu, ?_⟩⟩
  induction u with
  | zero => have : t = 0 := by omega
            rw [this]
  | succ u ih =>
    by_cases e : t = u + 1
    · rw [e]
    · rw [← ih (by omega)]
      rcases r.next u with ⟨_, e⟩ | ⟨a, e, _⟩
      · exact e
      · rw [ht u (by omega)] at e; cases e

end Verif.Fair
