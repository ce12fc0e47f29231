import Mathlib.Data.List.Nodup
import Mathlib.Tactic.Positivity
import Mathlib.Algebra.Order.Ring.Unbundled.Rat
import Mathlib.Algebra.Order.Field.Rat
import Verif.Numa.Model

/-!
C33 and C34: the victim tables and `try_steal`.
-/
namespace Verif.Numa

/-! ### Lemmas -/

theorem setInsert_sorted {d : Int} {u : List Int} (h : u.Pairwise (· < ·)) : (setInsert d u).Pairwise (· < ·) ∧
    ∀ x, x ∈ setInsert d u ↔ x = d ∨ x ∈ u := by
  induction u with
  | nil => simp [setInsert]
  | cons a u ih =>
    have ⟨h1, h2⟩ := List.pairwise_cons.1 h
    have ⟨i1, i2⟩ := ih h2
    unfold setInsert
    split
    · refine ⟨List.pairwise_cons.2 ⟨?_, h⟩, by simp⟩
      intro x hx
      rcases List.mem_cons.1 hx with rfl | hx
      · assumption
      · have := h1 x hx; omega
    · split
      · refine ⟨h, fun x => ?_⟩
        subst_vars; simp
      · refine ⟨List.pairwise_cons.2 ⟨?_, i1⟩, fun x => ?_⟩
        · intro x hx
          rcases (i2 x).1 hx with rfl | hx
          · omega
          · exact h1 x hx
        · simp only [List.mem_cons, i2]; grind

theorem uniques_fold (dist : Nat → Nat → Int) (i : Nat) (l : List Nat) (u : List Int) (h : u.Pairwise (· < ·)) :
    (l.foldl (fun u j => if i ≠ j then setInsert (dist i j) u else u) u).Pairwise (· < ·) ∧
    ∀ x, x ∈ l.foldl (fun u j => if i ≠ j then setInsert (dist i j) u else u) u ↔
      x ∈ u ∨ ∃ j ∈ l, i ≠ j ∧ dist i j = x := by
  induction l generalizing u with
  | nil => simp [h]
  | cons j l ih =>
    simp only [List.foldl_cons]
    by_cases hj : i = j
    · simp only [hj, ne_eq, not_true_eq_false, if_false]
      have := ih u h
      subst hj
      simp only [ne_eq] at this
      refine ⟨this.1, fun x => ?_⟩
      rw [this.2]
      simp
    · have hs := setInsert_sorted (d := dist i j) h
      simp only [ne_eq, hj, not_false_eq_true, if_true]
      have := ih _ hs.1
      simp only [ne_eq] at this
      refine ⟨this.1, fun x => ?_⟩
      rw [this.2, hs.2]
      simp only [List.mem_cons]
      grind

theorem uniques_spec (dist : Nat → Nat → Int) (n i : Nat) : (uniques dist n i).Pairwise (· < ·) ∧
    ∀ x, x ∈ uniques dist n i ↔ ∃ j, j < n ∧ i ≠ j ∧ dist i j = x := by
  have := uniques_fold dist i (List.range n) [] .nil
  refine ⟨this.1, fun x => ?_⟩
  unfold uniques
  rw [this.2]
  simp

theorem setPos_get {d : Int} {u : List Int} (h : u.Pairwise (· < ·)) (hd : d ∈ u) (k : Nat) :
    u[k]? = some d ↔ k = setPos d u := by
  induction u generalizing k with
  | nil => simp at hd
  | cons a u ih =>
    have ⟨h1, h2⟩ := List.pairwise_cons.1 h
    unfold setPos
    by_cases ha : a = d
    · subst ha
      cases k with
      | zero => simp
      | succ k =>
        simp only [List.getElem?_cons_succ, if_true, Nat.add_eq_zero_iff, Nat.succ_ne_self, and_false, iff_false]
        intro hx
        have := h1 a (List.mem_of_getElem? hx)
        omega
    · have hd' : d ∈ u := by simpa [Ne.symm ha] using hd
      cases k with
      | zero => simp [ha]
      | succ k =>
        simp only [List.getElem?_cons_succ, ha, if_false]
        rw [ih h2 hd' k]
        omega

theorem setPos_lt {d : Int} {u : List Int} (hd : d ∈ u) : setPos d u < u.length := by
  induction u with
  | nil => simp at hd
  | cons a u ih =>
    unfold setPos
    split
    · simp
    · rename_i ha
      have := ih (by simpa [Ne.symm ha] using hd)
      simp; omega

/-- Pushing the elements of `l` at positions `pos`: list `k` receives those of position `k`, in order. -/
theorem push_fold {α : Type} (pos : Nat → Nat) (val : Nat → α) (l : List Nat) (t : List (List α))
    (hp : ∀ j ∈ l, pos j < t.length) :
    (l.foldl (fun t j => pushAt (pos j) (val j) t) t).length = t.length ∧
    ∀ k, k < t.length → (l.foldl (fun t j => pushAt (pos j) (val j) t) t)[k]? =
      (t[k]?).map (· ++ (l.filter (fun j => pos j = k)).map val) := by
  induction l generalizing t with
  | nil => simp
  | cons j l ih =>
    have hl : (pushAt (pos j) (val j) t).length = t.length := by simp [pushAt]
    have := ih (pushAt (pos j) (val j) t) (fun i hi => by rw [hl]; exact hp i (by simp [hi]))
    simp only [List.foldl_cons]
    refine ⟨by rw [this.1, hl], fun k hk => ?_⟩
    rw [this.2 k (by omega)]
    simp only [pushAt, List.getElem?_modify]
    by_cases hjk : pos j = k
    · subst hjk
      cases t[pos j]? <;> simp
    · simp only [hjk, if_false, List.filter_cons, decide_false, Bool.false_eq_true]
      simp

/-- The position at which `neighbors` pushes element `j`. -/
def posOf (dist : Nat → Nat → Int) (n i j : Nat) : Nat :=
  if i = j then 0 else 1 + setPos (dist i j) (uniques dist n i)

/-- The index table of node `i`: itself, then for every distance, ascending, the nodes at that distance. -/
def table (dist : Nat → Nat → Int) (n i : Nat) : List (List Nat) :=
  [i] :: (uniques dist n i).map fun d => (List.range n).filter fun j => i ≠ j ∧ dist i j = d

theorem neighbors_eq {α : Type} (dist : Nat → Nat → Int) (data : Array α) (i : Nat) (hi : i < data.size)
    (dflt : α) : neighbors dist data i = (table dist data.size i).map (·.map fun j => data.getD j dflt) := by
  have hu := uniques_spec dist data.size i
  have hpos : ∀ j ∈ List.range data.size, posOf dist data.size i j < (List.replicate (1 + (uniques dist data.size i).length) ([] : List α)).length := by
    intro j hj
    simp only [List.mem_range] at hj
    simp only [List.length_replicate, posOf]
    split
    · omega
    · rename_i hne
      have := setPos_lt ((hu.2 (dist i j)).2 ⟨j, hj, hne, rfl⟩)
      omega
  have h1 : neighbors dist data i = (List.range data.size).foldl
      (fun t j => pushAt (posOf dist data.size i j) (data.getD j dflt) t)
      (List.replicate (1 + (uniques dist data.size i).length) []) := by
    unfold neighbors
    apply List.foldl_ext
    intro t j hj
    simp only [List.mem_range] at hj
    simp only [Array.getElem?_eq_getElem hj, Array.getD_eq_getD_getElem?, Option.getD_some, posOf]
    split <;> rfl
  have h2 := push_fold (posOf dist data.size i) (fun j => data.getD j dflt) (List.range data.size) _ hpos
  rw [← h1] at h2
  simp only [List.length_replicate] at h2
  apply List.ext_getElem?
  intro k
  by_cases hk : k < 1 + (uniques dist data.size i).length
  · rw [h2.2 k hk, List.getElem?_replicate_of_lt hk]
    simp only [Option.map_some, List.nil_append, table, List.map_cons, List.map_map]
    cases k with
    | zero =>
      simp only [List.getElem?_cons_zero, Option.some.injEq, List.map_nil]
      have : (List.range data.size).filter (fun j => decide (posOf dist data.size i j = 0)) = [i] := by
        have e : (fun j => decide (posOf dist data.size i j = 0)) = fun j => j == i := by
          funext j
          simp only [posOf]
          by_cases h : i = j
          · simp [h]
          · have h' : ¬ j = i := fun h' => h h'.symm
            simp [h, h']
        rw [e]
        have : (List.range data.size).filter (· == i) = List.replicate ((List.range data.size).count i) i :=
          List.filter_beq i
        rw [this, List.count_eq_one_of_mem List.nodup_range (by simpa using hi)]
        rfl
      rw [this]; rfl
    | succ k =>
      simp only [List.getElem?_cons_succ, List.getElem?_map]
      have hk' : k < (uniques dist data.size i).length := by omega
      rw [List.getElem?_eq_getElem hk']
      simp only [Option.map_some, Option.some.injEq, Function.comp]
      congr 1
      apply List.filter_congr
      intro j hj
      simp only [List.mem_range] at hj
      simp only [posOf]
      by_cases hij : i = j
      · simp [hij]
      · have hd := (hu.2 (dist i j)).2 ⟨j, hj, hij, rfl⟩
        have := setPos_get hu.1 hd k
        rw [List.getElem?_eq_getElem hk', Option.some.injEq] at this
        simp only [hij, if_false, ne_eq, not_false_eq_true, true_and]
        apply decide_eq_decide.2
        constructor
        · intro h; exact (this.2 (by omega)).symm
        · intro h; have := this.1 h.symm; omega
  · have hl1 : (neighbors dist data i).length ≤ k := by omega
    have hl2 : ((table dist data.size i).map (·.map fun j => data.getD j dflt)).length ≤ k := by
      simp [table]; omega
    rw [List.getElem?_eq_none hl1, List.getElem?_eq_none hl2]

/-! ### C33 -/

/-- **C33** as a statement about one node's neighbour lists, given as lists of worker indices, in a pool of `n` workers:
first the worker itself, then every other worker exactly once, no list empty, the workers of one list at one distance and
the distances of successive lists increasing. -/
structure Complete (dist : Nat → Nat → Int) (n i : Nat) (tbl : List (List Nat)) : Prop where
  self : tbl.head? = some [i]
  once : tbl.flatten.Perm (List.range n)
  nonempty : ∀ g ∈ tbl, g ≠ []
  equidistant : ∀ g ∈ tbl.tail, ∀ x ∈ g, ∀ y ∈ g, dist i x = dist i y
  further : tbl.tail.Pairwise fun g h => ∀ x ∈ g, ∀ y ∈ h, dist i x < dist i y

theorem table_complete (dist : Nat → Nat → Int) (n i : Nat) (hi : i < n) : Complete dist n i (table dist n i) := by
  have hu := uniques_spec dist n i
  have hmem : ∀ d x, x ∈ (List.range n).filter (fun j => decide (i ≠ j ∧ dist i j = d)) ↔ x < n ∧ i ≠ x ∧ dist i x = d := by
    intro d x; simp [List.mem_filter]
  refine ⟨rfl, ?_, ?_, ?_, ?_⟩
  · rw [List.perm_ext_iff_of_nodup ?_ List.nodup_range]
    · intro x
      simp only [table, List.flatten_cons, List.mem_append, List.mem_singleton, List.mem_flatten, List.mem_map,
        List.mem_range]
      constructor
      · rintro (rfl | ⟨_, ⟨d, _, rfl⟩, hx⟩)
        · exact hi
        · exact ((hmem d x).1 hx).1
      · intro hx
        by_cases h : i = x
        · exact .inl h.symm
        · exact .inr ⟨_, ⟨dist i x, (hu.2 _).2 ⟨x, hx, h, rfl⟩, rfl⟩, (hmem _ _).2 ⟨hx, h, rfl⟩⟩
    · simp only [table, List.flatten_cons, List.singleton_append, List.nodup_cons]
      refine ⟨?_, ?_⟩
      · simp only [List.mem_flatten, List.mem_map]
        rintro ⟨_, ⟨d, _, rfl⟩, hx⟩
        exact ((hmem d i).1 hx).2.1 rfl
      · rw [List.nodup_flatten]
        refine ⟨?_, ?_⟩
        · intro l hl
          obtain ⟨d, _, rfl⟩ := List.mem_map.1 hl
          exact List.nodup_range.filter _
        · rw [List.pairwise_map]
          refine hu.1.imp ?_
          intro a b hab x hxa hxb
          have h1 := ((hmem a x).1 hxa).2.2
          have h2 := ((hmem b x).1 hxb).2.2
          omega
  · intro g hg
    simp only [table, List.mem_cons, List.mem_map] at hg
    rcases hg with rfl | ⟨d, hd, rfl⟩
    · simp
    · obtain ⟨j, h1, h2, h3⟩ := (hu.2 d).1 hd
      exact List.ne_nil_of_mem ((hmem d j).2 ⟨h1, h2, h3⟩)
  · intro g hg x hx y hy
    simp only [table, List.tail_cons, List.mem_map] at hg
    obtain ⟨d, hd, rfl⟩ := hg
    rw [((hmem d x).1 hx).2.2, ((hmem d y).1 hy).2.2]
  · simp only [table, List.tail_cons]
    rw [List.pairwise_map]
    refine hu.1.imp ?_
    intro a b hab x hxa y hyb
    rw [((hmem a x).1 hxa).2.2, ((hmem b y).1 hyb).2.2]
    exact hab

/-- **C33.** `distribute` over a topology: one node per worker, and the neighbour lists of worker `i` are, worker for
worker, a complete table. -/
theorem distribute_complete {α : Type} [Inhabited α] (dist : Nat → Nat → Int) (data : Array α) :
    (distribute dist data).length = data.size ∧
    ∀ i, i < data.size → ∃ tbl, Complete dist data.size i tbl ∧
      (distribute dist data)[i]? = some (tbl.map (·.map fun j => data[j]!)) := by
  refine ⟨by simp [distribute], fun i hi => ⟨table dist data.size i, table_complete dist _ i hi, ?_⟩⟩
  simp only [distribute, List.getElem?_map, List.getElem?_range hi, Option.map_some, Option.some.injEq]
  rw [neighbors_eq dist data i hi default]
  rfl

/-- **C33**, without hwloc: all the workers being distinct objects, every worker's lists are itself and then all the others,
once each (one list, as all are equally far), and the second list is there only if there are others. -/
theorem distribute_flat_complete {α : Type} [DecidableEq α] (data : List α) (hd : data.Nodup) :
    (distributeFlat data).length = data.length ∧
    ∀ i (hi : i < data.length), ∃ nb, (distributeFlat data)[i]? = some nb ∧
      nb.head? = some [data[i]] ∧ nb.flatten.Perm data ∧ nb.length ≤ 2 ∧ ∀ g ∈ nb, g ≠ [] := by
  refine ⟨by simp [distributeFlat], fun i hi => ⟨if data.length > 1 then [[data[i]], data.filter (· ≠ data[i])] else [[data[i]]],
    by simp only [distributeFlat, List.getElem?_map, List.getElem?_eq_getElem hi, Option.map_some], ?_⟩⟩
  have hp : (data[i] :: data.filter (· ≠ data[i])).Perm data := by
    rw [List.perm_ext_iff_of_nodup ?_ hd]
    · intro x
      simp only [List.mem_cons, List.mem_filter, ne_eq, decide_eq_true_eq]
      constructor
      · rintro (rfl | h)
        · exact List.getElem_mem hi
        · exact h.1
      · intro h
        by_cases hx : x = data[i]
        · exact .inl hx
        · exact .inr ⟨h, hx⟩
    · simp only [List.nodup_cons, List.mem_filter, ne_eq, not_true_eq_false, decide_false, Bool.false_eq_true, and_false,
        not_false_eq_true, true_and]
      exact hd.filter _
  split
  · refine ⟨rfl, by simpa using hp, by simp, ?_⟩
    intro g hg
    simp only [List.mem_cons, List.not_mem_nil, or_false] at hg
    rcases hg with rfl | rfl
    · simp
    · intro h
      rw [h] at hp
      have := hp.length_eq
      simp only [List.length_cons, List.length_nil] at this
      omega
  · refine ⟨rfl, ?_, by simp, by simp⟩
    have : data.length = 1 := by omega
    obtain ⟨x, rfl⟩ := List.length_eq_one_iff.1 this
    have : i = 0 := by simp at hi; exact hi
    subst this
    simp

/-- The distance used is symmetric, non-negative and zero only between handles covered by one object, for every tree in
which a common ancestor lies at most as deep as both objects, and as deep as one of two different ones only if it is
that one. -/
theorem distance_sane (depth : Nat → Int) (anc : Nat → Nat → Int) (i j : Nat) (hs : anc i j = anc j i)
    (h1 : anc i j ≤ depth i) (h2 : anc i j ≤ depth j) :
    distance depth anc i j = distance depth anc j i ∧ 0 ≤ distance depth anc i j ∧
    (distance depth anc i j = 0 ↔ depth i = anc i j ∧ depth j = anc i j) := by
  simp only [distance, ← hs]
  omega

theorem numa_fold (gp keys out : List Nat) (hk : keys.Nodup) (pre : List Nat)
    (ho : out = pre.map keys.idxOf) (hp : ∀ x, x ∈ keys ↔ x ∈ pre) :
    ∃ keys', (gp.foldl (fun (st : List Nat × List Nat) g =>
      let keys := if g ∈ st.1 then st.1 else st.1 ++ [g]
      (keys, st.2 ++ [keys.idxOf g])) (keys, out)) = (keys', (pre ++ gp).map keys'.idxOf) ∧
      keys'.Nodup ∧ ∀ x, x ∈ keys' ↔ x ∈ pre ++ gp := by
  induction gp generalizing keys out pre with
  | nil => exact ⟨keys, by simp [ho], hk, by simpa using hp⟩
  | cons g gp ih =>
    simp only [List.foldl_cons]
    by_cases hg : g ∈ keys
    · simp only [hg, if_true]
      have := ih keys (out ++ [keys.idxOf g]) hk (pre ++ [g]) (by simp [ho]) (by
        intro x; rw [hp]; simp only [List.mem_append, List.mem_singleton]
        constructor
        · exact .inl
        · rintro (h | rfl)
          · exact h
          · exact (hp _).1 hg)
      simpa using this
    · simp only [hg, if_false]
      have := ih (keys ++ [g]) (out ++ [(keys ++ [g]).idxOf g]) (by
          rw [List.nodup_append]; simp [hk]; intro a ha h; subst h; exact hg ha) (pre ++ [g]) (by
          simp only [ho, List.map_append, List.map_cons, List.map_nil, List.append_cancel_right_eq]
          apply List.map_congr_left
          intro x hx
          rw [List.idxOf_append_of_mem ((hp x).2 hx)]) (by
          intro x; simp only [List.mem_append, List.mem_singleton, hp])
      simpa using this

/-- The numa numbers that `split` hands out: equal exactly for handles of one numa node, and gapless from zero (so that
they may index a vector with one entry per numa node). -/
theorem numa_numbers_dense (gp : List Nat) : (numaNumbers gp).length = gp.length ∧
    (∀ i j (hi : i < gp.length) (hj : j < gp.length),
      (numaNumbers gp)[i]? = (numaNumbers gp)[j]? ↔ gp[i] = gp[j]) ∧
    ∀ x ∈ numaNumbers gp, ∀ y, y < x → y ∈ numaNumbers gp := by
  obtain ⟨keys, h1, h2, h3⟩ := numa_fold gp [] [] (by simp) [] rfl (by simp)
  have e : numaNumbers gp = gp.map keys.idxOf := by
    unfold numaNumbers; rw [h1]; simp
  simp only [List.nil_append] at h3
  rw [e]
  refine ⟨by simp, ?_, ?_⟩
  · intro i j hi hj
    simp only [List.getElem?_map, List.getElem?_eq_getElem hi, List.getElem?_eq_getElem hj, Option.map_some, Option.some.injEq]
    constructor
    · intro h
      exact (List.idxOf_inj ((h3 _).2 (List.getElem_mem hi))).1 h
    · intro h; rw [h]
  · intro x hx y hy
    obtain ⟨g, hg, rfl⟩ := List.mem_map.1 hx
    have hl : keys.idxOf g < keys.length := List.idxOf_lt_length_of_mem ((h3 g).2 hg)
    refine List.mem_map.2 ⟨keys[y], (h3 _).1 (List.getElem_mem _), ?_⟩
    exact h2.idxOf_getElem y (by omega)

/-! ### C34 -/

theorem attempt_spec {α τ : Type} (steal : Nat → α → Option τ) (k : Nat) (vs : List α) :
    (attempt steal k vs).1 <+: vs ∧
    (∀ t, (attempt steal k vs).2 = some t → ∃ j v, (attempt steal k vs).1[j]? = some v ∧
      j + 1 = (attempt steal k vs).1.length ∧ steal (k + j) v = some t ∧
      ∀ i w, i < j → (attempt steal k vs).1[i]? = some w → steal (k + i) w = none) ∧
    ((attempt steal k vs).2 = none → (attempt steal k vs).1 = vs ∧
      ∀ i w, vs[i]? = some w → steal (k + i) w = none) := by
  induction vs generalizing k with
  | nil => simp [attempt]
  | cons v vs ih =>
    obtain ⟨i1, i2, i3⟩ := ih (k + 1)
    unfold attempt
    cases hs : steal k v with
    | some t =>
      refine ⟨by simp, ?_, by simp⟩
      intro t' ht
      simp only [Option.some.injEq] at ht
      exact ⟨0, v, by simp, by simp, by simpa [ht] using hs, by simp⟩
    | none =>
      refine ⟨by simpa using i1, ?_, ?_⟩
      · intro t ht
        obtain ⟨j, w, h1, h2, h3, h4⟩ := i2 t ht
        refine ⟨j + 1, w, by simpa using h1, by simp [h2], by rw [show k + (j + 1) = k + 1 + j by omega]; exact h3, ?_⟩
        intro i x hi hx
        cases i with
        | zero => simp at hx; subst hx; exact hs
        | succ i =>
          rw [show k + (i + 1) = k + 1 + i by omega]
          exact h4 i x (by omega) (by simpa using hx)
      · intro hn
        obtain ⟨h1, h2⟩ := i3 hn
        refine ⟨by simp [h1], ?_⟩
        intro i w hi
        cases i with
        | zero => simp at hi; subst hi; exact hs
        | succ i =>
          rw [show k + (i + 1) = k + 1 + i by omega]
          exact h2 i w (by simpa using hi)

/-- What is known about the randomness of `try_steal`: shuffling permutes, and a number drawn from a distribution over the
other workers is an index of one of them. -/
structure Draws {α : Type} (nb : List (List α)) (shuffle : List α → List α) (pick : Nat → Nat) : Prop where
  shuffle : ∀ l, (shuffle l).Perm l
  pick : nb.tail.flatten ≠ [] → ∀ i, pick i < nb.tail.flatten.length

theorem filterMap_picks {α : Type} (l : List α) (pick : Nat → Nat) (h : ∀ i, pick i < l.length) (r : List Nat) :
    (r.filterMap fun i => l[pick i]?).length = r.length ∧ ∀ v ∈ r.filterMap (fun i => l[pick i]?), v ∈ l := by
  constructor
  · induction r with
    | nil => rfl
    | cons x r ih => simp [List.filterMap_cons, List.getElem?_eq_getElem (h x), ih]
  · intro v hv
    obtain ⟨i, _, hi⟩ := List.mem_filterMap.1 hv
    exact List.mem_of_getElem? hi

/-- **C34.** `try_steal` makes at most `closest + 1024 + 32 · others` attempts, only on other workers of the table; it returns
a task exactly if its last attempt succeeded, and then that attempt's task, all earlier attempts having failed (so no stolen
task is ever dropped); it gives up only after all attempts failed: that many attempts if there is another worker, the first of
them on every one of the closest workers once. -/
theorem try_steal_spec {α τ : Type} (nb : List (List α)) (shuffle : List α → List α) (pick : Nat → Nat)
    (steal : Nat → α → Option τ) (hd : Draws nb shuffle pick) :
    let victims := (trySteal nb shuffle pick steal).1
    let result := (trySteal nb shuffle pick steal).2
    let closest := nb.getD 1 []
    let others := nb.tail.flatten
    victims.length ≤ closest.length + (1024 + 32 * others.length) ∧
    (∀ v ∈ victims, v ∈ others) ∧
    (∀ t, result = some t → ∃ j v, victims[j]? = some v ∧ j + 1 = victims.length ∧ steal j v = some t ∧
      ∀ i w, i < j → victims[i]? = some w → steal i w = none) ∧
    (result = none → (∀ i w, victims[i]? = some w → steal i w = none) ∧
      (others ≠ [] → victims.length = closest.length + (1024 + 32 * others.length)) ∧
      (victims.take closest.length).Perm closest) := by
  have hn : neigh nb = nb.tail.flatten := by simp [neigh]
  have hsub : ∀ w ∈ nb.getD 1 [], w ∈ nb.tail.flatten := by
    intro w hw
    match nb, hw with
    | [], hw => simp at hw
    | [_], hw => simp at hw
    | _ :: b :: _, hw => simp at hw; simp [hw]
  have hsh := hd.shuffle (close nb)
  simp only [trySteal, hn]
  by_cases he : nb.tail.flatten = []
  · simp only [he, List.isEmpty_nil, if_true]
    refine ⟨by simp, by simp, by simp, fun _ => ⟨by simp, by simp, ?_⟩⟩
    have : nb.getD 1 [] = [] := by
      apply List.eq_nil_iff_forall_not_mem.2
      intro w hw
      have := hsub w hw
      simp [he] at this
    rw [this]; simp
  · have hb : nb.tail.flatten.isEmpty = false := by simpa using he
    simp only [hb, Bool.false_eq_true, if_false]
    obtain ⟨f1, f2⟩ := filterMap_picks nb.tail.flatten pick (hd.pick he)
      (List.range (kMinStealAttempts + kStealAttemptsPerTarget * nb.tail.flatten.length))
    obtain ⟨s1, s2, s3⟩ := attempt_spec steal 0 (shuffle (close nb) ++
      (List.range (kMinStealAttempts + kStealAttemptsPerTarget * nb.tail.flatten.length)).filterMap
        fun i => nb.tail.flatten[pick i]?)
    have hlen : (shuffle (close nb) ++ (List.range (kMinStealAttempts + kStealAttemptsPerTarget *
        nb.tail.flatten.length)).filterMap fun i => nb.tail.flatten[pick i]?).length =
        (nb.getD 1 []).length + (1024 + 32 * nb.tail.flatten.length) := by
      rw [List.length_append, f1, hsh.length_eq, List.length_range]; rfl
    refine ⟨?_, ?_, ?_, ?_⟩
    · have := s1.length_le
      omega
    · intro v hv
      have := s1.subset hv
      rcases List.mem_append.1 this with h | h
      · exact hsub v (hsh.subset h)
      · exact f2 v h
    · simpa using s2
    · intro h
      obtain ⟨h1, h2⟩ := s3 h
      refine ⟨?_, ?_, ?_⟩
      · rw [h1]; simpa using h2
      · intro _
        rw [h1, hlen]
      · rw [h1, List.take_left' (show (shuffle (close nb)).length = (nb.getD 1 []).length from hsh.length_eq)]
        exact hsh

/-- **C34.** Every other worker can be drawn, with a weight that depends only on its distance rank `r` and on how many
workers are at that rank: `1 / (count · r²)`. -/
theorem steal_weights {α : Type} (nb : List (List α)) :
    (weights nb).length = nb.tail.flatten.length ∧
    ∀ (k : Nat) (v : α), nb.tail.flatten[k]? = some v → ∃ (r : Nat) (group : List α), 0 < r ∧ nb[r]? = some group ∧ v ∈ group ∧
      (weights nb)[k]? = some (1 / ((group.length : Rat) * r * r)) ∧ 0 < 1 / ((group.length : Rat) * r * r) := by
  have gen : ∀ (tl : List (List α)) (n : Nat), 0 < n →
      ((tl.zipIdx n).flatMap fun g => g.1.map fun _ => 1 / ((g.1.length : Rat) * g.2 * g.2)).length = tl.flatten.length ∧
      ∀ (k : Nat) (v : α), tl.flatten[k]? = some v → ∃ (r : Nat) (group : List α), n ≤ r ∧ tl[r - n]? = some group ∧ v ∈ group ∧
        ((tl.zipIdx n).flatMap fun g => g.1.map fun _ => 1 / ((g.1.length : Rat) * g.2 * g.2))[k]? =
          some (1 / ((group.length : Rat) * r * r)) ∧ 0 < 1 / ((group.length : Rat) * r * r) := by
    intro tl
    induction tl with
    | nil => intro n _; simp
    | cons g tl ih =>
      intro n hn
      obtain ⟨i1, i2⟩ := ih (n + 1) (by omega)
      simp only [List.zipIdx_cons, List.flatMap_cons, List.flatten_cons, List.length_append, List.length_map, i1, true_and]
      intro k v hk
      by_cases hl : k < g.length
      · rw [List.getElem?_append_left hl] at hk
        have hv := List.mem_of_getElem? hk
        have hg : 0 < g.length := by omega
        refine ⟨n, g, Nat.le_refl _, by simp, hv, ?_, by positivity⟩
        rw [List.getElem?_append_left (by simpa using hl)]
        simp [hl]
      · rw [List.getElem?_append_right (by omega)] at hk
        obtain ⟨r, group, h1, h2, h3, h4, h5⟩ := i2 _ _ hk
        refine ⟨r, group, by omega, ?_, h3, ?_, h5⟩
        · rw [show r - n = (r - (n + 1)) + 1 by omega]; simpa using h2
        · rw [List.getElem?_append_right (by simpa using hl)]
          simpa using h4
  have h := gen nb.tail 1 (by omega)
  unfold weights
  rw [List.drop_one]
  refine ⟨h.1, fun k v hk => ?_⟩
  obtain ⟨r, group, h1, h2, h3⟩ := h.2 k v hk
  refine ⟨r, group, by omega, ?_, h3⟩
  rw [← h2, List.getElem?_tail]
  congr 1; omega

/-- **C34.** A lone worker makes no attempt, and a worker never picks itself: its own index is in none of the lists the
victims come from. -/
theorem never_self {dist : Nat → Nat → Int} {n i : Nat} {tbl : List (List Nat)} (h : Complete dist n i tbl) :
    i ∉ tbl.tail.flatten ∧ ∀ j, j < n → j ≠ i → j ∈ tbl.tail.flatten := by
  have hself := h.self
  have honce := h.once
  match tbl, hself with
  | g :: tl, hself =>
    simp only [List.head?_cons, Option.some.injEq] at hself
    subst hself
    simp only [List.tail_cons, List.flatten_cons, List.singleton_append] at *
    have hnd := honce.nodup_iff.2 List.nodup_range
    refine ⟨(List.nodup_cons.1 hnd).1, fun j hj hne => ?_⟩
    have := honce.mem_iff.2 (List.mem_range.2 hj)
    simpa [hne] using this

/-! ### Concrete cases -/

example : distribute (fun i j => if i / 2 = j / 2 then 1 else 2) #[10, 11, 12, 13] =
    [[[10], [11], [12, 13]], [[11], [10], [12, 13]], [[12], [13], [10, 11]], [[13], [12], [10, 11]]] := by decide

example : distributeFlat [10, 11, 12] = [[[10], [11, 12]], [[11], [10, 12]], [[12], [10, 11]]] := by decide

example : distributeFlat [10] = [[[10]]] := by decide

example : numaNumbers [7, 7, 3, 7, 3, 9] = [0, 0, 1, 0, 1, 2] := by decide

example : Draws [[10], [11], [12, 13]] List.reverse (fun i => if i % 2 = 0 then 2 else 0) :=
  ⟨fun l => l.reverse_perm, fun _ i => by split <;> simp⟩

example : (trySteal [[10], [11], [12, 13]] List.reverse (fun i => if i % 2 = 0 then 2 else 0)
    (fun k v => if k = 4 then some (v, 99) else none)) = ([11, 13, 11, 13, 11], some (11, 99)) := by
  decide +kernel

example : weights [[10], [11], [12, 13]] = [1, 1 / 8, 1 / 8] := by decide +kernel

end Verif.Numa
