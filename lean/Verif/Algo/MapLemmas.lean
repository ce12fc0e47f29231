import Verif.Algo.Model
import Verif.Algo.LangLemmas

/-! Lemmas about `map` and `for_each`. -/
namespace Verif.Algo
variable {V E : Type}

/-- What a complete run of an element-wise algorithm over `len` elements from `src` to `dst` did. -/
structure MapPost (g : V → Except E V) (src dst len : Nat) (m : Mem Loc V) (o : Out E) (m' : Mem Loc V) : Prop where
  frame : ∀ l, (∀ i < len, l ≠ .cell (dst + i)) → m' l = m l
  cells : ∀ i < len, g (m (.cell (src + i))) = .ok (m' (.cell (dst + i))) ∨
    (m' (.cell (dst + i)) = m (.cell (dst + i)) ∧ o ≠ .ok)
  exn : ∀ e, o = .exn e → ∃ i < len, g (m (.cell (src + i))) = .error e
  noub : o ≠ .ub

/-- The ranges are the same or do not overlap (map.hpp:208). -/
def Alias (src dst len : Nat) : Prop := src = dst ∨ ∀ i < len, ∀ j < len, src + i ≠ dst + j

theorem Alias.left {src dst len k} (h : Alias src dst len) (hk : k ≤ len) : Alias src dst k :=
  h.imp id (fun h i hi j hj => h i (by omega) j (by omega))

theorem Alias.right {src dst len k} (h : Alias src dst len) (hk : k ≤ len) :
    Alias (src + k) (dst + k) (len - k) :=
  h.imp (fun h => by omega) (fun h i hi j hj => by have := h (k + i) (by omega) (k + j) (by omega); omega)

theorem MapPost.src_unchanged {g : V → Except E V} {src dst len k m o m1} (ha : Alias src dst len) (hk : k ≤ len)
    (h : MapPost g src dst k m o m1) (i : Nat) (hi : k ≤ i) (hi2 : i < len) :
    m1 (.cell (src + i)) = m (.cell (src + i)) := by
  apply h.frame
  intro j hj heq
  injection heq with heq
  rcases ha with ha | ha
  · omega
  · exact ha i hi2 j (by omega) heq

/-- Two adjacent pieces, one after the other; `o` is any outcome that is `ok` only if both are, is `ub` only if one is,
and is an exception only if one of them is that exception. -/
theorem MapPost.append {g : V → Except E V} {src dst len k m o1 m1 o2 m2 o} (ha : Alias src dst len) (hk : k ≤ len)
    (h1 : MapPost g src dst k m o1 m1) (h2 : MapPost g (src + k) (dst + k) (len - k) m1 o2 m2)
    (hok : o = .ok → o1 = .ok ∧ o2 = .ok) (hex : ∀ e, o = .exn e → o1 = .exn e ∨ o2 = .exn e)
    (hub : o ≠ .ub) : MapPost g src dst len m o m2 := by
  refine ⟨?_, ?_, ?_, hub⟩
  · intro l hl
    rw [h2.frame l, h1.frame l]
    · exact fun i hi => hl i (by omega)
    · intro i hi; have := hl (k + i) (by omega); rwa [← Nat.add_assoc] at this
  · intro i hi
    by_cases hik : i < k
    · have e : m2 (.cell (dst + i)) = m1 (.cell (dst + i)) := by
        apply h2.frame; intro j hj heq; injection heq; omega
      rw [e]
      rcases h1.cells i hik with h | ⟨h, ho⟩
      · exact Or.inl h
      · exact Or.inr ⟨h, fun hh => ho (hok hh).1⟩
    · have hc := h2.cells (i - k) (by omega)
      rw [show src + k + (i - k) = src + i by omega, show dst + k + (i - k) = dst + i by omega] at hc
      rw [h1.src_unchanged ha hk i (by omega) hi] at hc
      rcases hc with h | ⟨h, ho⟩
      · exact Or.inl h
      · refine Or.inr ⟨?_, fun hh => ho (hok hh).2⟩
        rw [h]; apply h1.frame; intro j hj heq; injection heq; omega
  · intro e he
    rcases hex e he with h | h
    · obtain ⟨i, hi, hg⟩ := h1.exn e h
      exact ⟨i, by omega, hg⟩
    · obtain ⟨i, hi, hg⟩ := h2.exn e h
      refine ⟨k + i, by omega, ?_⟩
      rw [← h1.src_unchanged ha hk (k + i) (by omega) (by omega), ← Nat.add_assoc]; exact hg

theorem joinOut_props {o1 o2 o : Out E} (h : JoinOut o1 o2 o) (h1 : o1 ≠ .ub) (h2 : o2 ≠ .ub) :
    (o = .ok → o1 = .ok ∧ o2 = .ok) ∧ (∀ e, o = .exn e → o1 = .exn e ∨ o2 = .exn e) ∧ o ≠ .ub := by
  cases h <;> simp_all

theorem MapPost.par {g : V → Except E V} {src dst len k m o1 m1 o2 m2 o} (ha : Alias src dst len) (hk : k ≤ len)
    (h1 : MapPost g src dst k m o1 m1) (h2 : MapPost g (src + k) (dst + k) (len - k) m1 o2 m2)
    (hj : JoinOut o1 o2 o) : MapPost g src dst len m o m2 := by
  obtain ⟨a, b, c⟩ := joinOut_props hj h1.noub h2.noub
  exact h1.append ha hk h2 a b c

/-- An aborted prefix. -/
theorem MapPost.abort {g : V → Except E V} {src dst len k m o m1} (hk : k ≤ len)
    (h1 : MapPost g src dst k m o m1) (ho : o ≠ .ok) : MapPost g src dst len m o m1 := by
  refine ⟨fun l hl => h1.frame l (fun i hi => hl i (by omega)), ?_, ?_, h1.noub⟩
  · intro i hi
    by_cases hik : i < k
    · exact h1.cells i hik
    · refine Or.inr ⟨?_, ho⟩
      apply h1.frame; intro j hj heq; injection heq; omega
  · intro e he
    obtain ⟨i, hi, hg⟩ := h1.exn e he
    exact ⟨i, by omega, hg⟩

theorem MapPost.nil (g : V → Except E V) (src dst : Nat) (m : Mem Loc V) : MapPost g src dst 0 m .ok m :=
  ⟨fun _ _ => rfl, fun _ h => by omega, fun _ h => (by cases h), by simp⟩

theorem MapPost.atom {g : V → Except E V} {src dst : Nat} {m m' : Mem Loc V} {o : Out E}
    (h : Run (.atom1 (.cell dst) (.cell src) g) m o m') : MapPost g src dst 1 m o m' := by
  cases h with
  | atomOk hf =>
    refine ⟨fun l hl => ?_, fun i hi => ?_, fun e he => (by cases he), by simp⟩
    · have := hl 0 (by omega); simp only [Nat.add_zero] at this; simp [upd, this]
    · have : i = 0 := by omega
      subst this; left; simpa [upd] using hf
  | atomErr hf =>
    refine ⟨fun _ _ => rfl, fun i hi => Or.inr ⟨rfl, by simp⟩, fun e he => ⟨0, by omega, ?_⟩, by simp⟩
    cases he; simpa using hf

/-- The part of an element-wise program's syntax that race-freedom needs. -/
structure MapFoot (p : Prog V E) (src dst len : Nat) : Prop where
  writes : ∀ l, Writes p l → ∃ i < len, l = .cell (dst + i)
  reads : ∀ l, Reads p l → ∃ i < len, l = .cell (src + i)

theorem MapFoot.halt (o : Out E) (src dst len : Nat) : MapFoot (V := V) (.halt o) src dst len :=
  ⟨fun _ h => h.elim, fun _ h => h.elim⟩

theorem MapFoot.atom (g : V → Except E V) (src dst : Nat) :
    MapFoot (.atom1 (.cell dst) (.cell src) g) src dst 1 :=
  ⟨fun l h => ⟨0, by omega, h⟩, fun l h => by obtain ⟨i, h⟩ := h; exact ⟨0, by omega, h.symm⟩⟩

theorem MapFoot.seq {p q : Prog V E} {src dst len k} (hk : k ≤ len) (h1 : MapFoot p src dst k)
    (h2 : MapFoot q (src + k) (dst + k) (len - k)) : MapFoot (.seq p q) src dst len := by
  refine ⟨fun l h => ?_, fun l h => ?_⟩
  · rcases h with h | h
    · obtain ⟨i, hi, e⟩ := h1.writes l h; exact ⟨i, by omega, e⟩
    · obtain ⟨i, hi, e⟩ := h2.writes l h; exact ⟨k + i, by omega, by rw [e, Nat.add_assoc]⟩
  · rcases h with h | h
    · obtain ⟨i, hi, e⟩ := h1.reads l h; exact ⟨i, by omega, e⟩
    · obtain ⟨i, hi, e⟩ := h2.reads l h; exact ⟨k + i, by omega, by rw [e, Nat.add_assoc]⟩

theorem MapFoot.par {p q : Prog V E} {src dst len k} (hk : k ≤ len) (h1 : MapFoot p src dst k)
    (h2 : MapFoot q (src + k) (dst + k) (len - k)) : MapFoot (.par p q) src dst len := by
  have := MapFoot.seq hk h1 h2
  exact ⟨this.writes, this.reads⟩

theorem MapFoot.noConflict {p q : Prog V E} {src dst len k} (ha : Alias src dst len) (hk : k ≤ len)
    (h1 : MapFoot p src dst k) (h2 : MapFoot q (src + k) (dst + k) (len - k)) : NoConflict p q := by
  refine ⟨fun l h => ⟨fun hr => ?_, fun hw => ?_⟩, fun l h hr => ?_⟩
  · obtain ⟨i, hi, e⟩ := h1.writes l h
    obtain ⟨j, hj, e'⟩ := h2.reads l hr
    rw [e] at e'; injection e' with e'
    rcases ha with ha | ha
    · omega
    · exact ha (k + j) (by omega) i (by omega) (by omega)
  · obtain ⟨i, hi, e⟩ := h1.writes l h
    obtain ⟨j, hj, e'⟩ := h2.writes l hw
    rw [e] at e'; injection e' with e'; omega
  · obtain ⟨i, hi, e⟩ := h2.writes l h
    obtain ⟨j, hj, e'⟩ := h1.reads l hr
    rw [e] at e'; injection e' with e'
    rcases ha with ha | ha
    · omega
    · exact ha j (by omega) (k + i) (by omega) (by omega)

/-! #### the chunk loop -/

theorem mapLoop_foot (g : V → Except E V) (src dst k : Nat) : MapFoot (mapLoop g src dst k) src dst k := by
  induction k generalizing src dst with
  | zero => exact .halt _ _ _ _
  | succ k ih => exact .seq (k := 1) (by omega) (.atom g src dst) (by simpa using ih (src + 1) (dst + 1))

theorem mapLoop_raceFree (g : V → Except E V) (src dst k : Nat) : RaceFree (mapLoop g src dst k) := by
  induction k generalizing src dst with
  | zero => trivial
  | succ k ih => exact ⟨trivial, ih _ _⟩

theorem mapLoop_post (g : V → Except E V) (src dst k : Nat) (ha : Alias src dst k) {m o m'}
    (h : Run (mapLoop g src dst k) m o m') : MapPost g src dst k m o m' := by
  induction k generalizing src dst m o m' with
  | zero => cases h; exact .nil _ _ _ _
  | succ k ih =>
    cases h with
    | seqOk h1 h2 =>
      have := ha.right (k := 1) (by omega)
      have hp := ih (src + 1) (dst + 1) (by simpa using this) h2
      exact (MapPost.atom h1).append ha (by omega) (by simpa using hp) (fun h => ⟨rfl, h⟩) (fun e h => Or.inr h) hp.noub
    | seqAbort h1 ho => exact (MapPost.atom h1).abort (by omega) ho

/-! #### the recursions -/

theorem mapN_all (g : V → Except E V) (n src dst len : Nat) (hn : 0 < n) :
    MapFoot (mapN g n src dst len) src dst len ∧
    (Alias src dst len → RaceFree (mapN g n src dst len) ∧
      ∀ m o m', Run (mapN g n src dst len) m o m' → MapPost g src dst len m o m') := by
  induction len using Nat.strongRecOn generalizing src dst with
  | ind len ih =>
    rw [mapN, if_neg (by omega)]
    by_cases h0 : len = 0
    · subst h0
      simp only [if_true]
      exact ⟨.halt _ _ _ _, fun _ => ⟨trivial, fun m o m' h => by cases h; exact .nil _ _ _ _⟩⟩
    rw [if_neg h0]
    by_cases h1 : len ≤ n
    · rw [if_pos h1]
      exact ⟨mapLoop_foot _ _ _ _, fun ha => ⟨mapLoop_raceFree _ _ _ _, fun m o m' h => mapLoop_post _ _ _ _ ha h⟩⟩
    · rw [if_neg h1]
      have hk : len / 2 ≤ len := by omega
      obtain ⟨f1, r1⟩ := ih (len / 2) (by omega) src dst
      obtain ⟨f2, r2⟩ := ih (len - len / 2) (by omega) (src + len / 2) (dst + len / 2)
      refine ⟨.par hk f1 f2, fun ha => ?_⟩
      obtain ⟨c1, p1⟩ := r1 (ha.left hk)
      obtain ⟨c2, p2⟩ := r2 (ha.right hk)
      refine ⟨⟨MapFoot.noConflict ha hk f1 f2, c1, c2⟩, fun m o m' h => ?_⟩
      cases h with
      | par h1 h2 hj => exact MapPost.par ha hk (p1 _ _ _ h1) (p2 _ _ _ h2) hj

theorem mapOne_all (g : V → Except E V) (src dst len : Nat) :
    MapFoot (mapOne g src dst len) src dst len ∧
    (Alias src dst len → RaceFree (mapOne g src dst len) ∧
      ∀ m o m', Run (mapOne g src dst len) m o m' → MapPost g src dst len m o m') := by
  induction len using Nat.strongRecOn generalizing src dst with
  | ind len ih =>
    rw [mapOne]
    by_cases h0 : len = 0
    · subst h0
      simp only [if_true]
      exact ⟨.halt _ _ _ _, fun _ => ⟨trivial, fun m o m' h => by cases h; exact .nil _ _ _ _⟩⟩
    rw [if_neg h0]
    by_cases h1 : len = 1
    · rw [if_pos h1]; subst h1
      exact ⟨.atom _ _ _, fun ha => ⟨trivial, fun m o m' h => .atom h⟩⟩
    · rw [if_neg h1]
      have hk : len / 2 ≤ len := by omega
      obtain ⟨f1, r1⟩ := ih (len / 2) (by omega) src dst
      obtain ⟨f2, r2⟩ := ih (len - len / 2) (by omega) (src + len / 2) (dst + len / 2)
      refine ⟨.par hk f1 f2, fun ha => ?_⟩
      obtain ⟨c1, p1⟩ := r1 (ha.left hk)
      obtain ⟨c2, p2⟩ := r2 (ha.right hk)
      refine ⟨⟨MapFoot.noConflict ha hk f1 f2, c1, c2⟩, fun m o m' h => ?_⟩
      cases h with
      | par h1 h2 hj => exact MapPost.par ha hk (p1 _ _ _ h1) (p2 _ _ _ h2) hj

/-! #### `for_each` is the in-place instance -/

theorem forLoop_eq (g : V → Except E V) (head k : Nat) : forLoop g head k = mapLoop g head head k := by
  induction k generalizing head with
  | zero => rfl
  | succ k ih => simp [forLoop, mapLoop, ih]

theorem forN_eq (g : V → Except E V) (n head len : Nat) : forN g n head len = mapN g n head head len := by
  induction len using Nat.strongRecOn generalizing head with
  | ind len ih =>
    rw [forN, mapN]
    by_cases hn : n = 0
    · simp [hn]
    by_cases h0 : len = 0
    · simp [h0]
    by_cases h1 : len ≤ n
    · simp [hn, h0, h1, forLoop_eq]
    · simp only [hn, h0, h1, if_false]
      rw [ih _ (by omega), ih _ (by omega)]

theorem forOne_eq (g : V → Except E V) (head len : Nat) : forOne g head len = mapOne g head head len := by
  induction len using Nat.strongRecOn generalizing head with
  | ind len ih =>
    rw [forOne, mapOne]
    by_cases h0 : len = 0
    · simp [h0]
    by_cases h1 : len = 1
    · simp [h1]
    · simp only [h0, h1, if_false]
      rw [ih _ (by omega), ih _ (by omega)]

end Verif.Algo
