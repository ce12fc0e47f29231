import Verif.Algo.FoldLemmas

/-!
Property theorems for `lf::map`, `lf::for_each` and `lf::fold` (C26, C27, C28 and the map part of C30).

`Steps p m (.halt o) m'` is a complete execution of the program in some interleaving of the forked tasks: it starts in
memory `m`, ends with outcome `o` (normal, exception, failed LF_ASSERT) in memory `m'`.
-/
namespace Verif.Algo
variable {V E : Type}

/-- The overloads of `lf::map` over `len` elements at `src`, output at `dst`, chunk size `n`. -/
inductive IsMap (g : V → Except E V) (n src dst len : Nat) : Prog V E → Prop where
  | chunked : IsMap g n src dst len (mapN g n src dst len)
  | unchunked : IsMap g n src dst len (mapOne g src dst len)
  | range : IsMap g n src dst len (mapRange g n src dst len)

/-- The overloads of `lf::for_each`. -/
inductive IsForEach (g : V → Except E V) (n head len : Nat) : Prog V E → Prop where
  | chunked : IsForEach g n head len (forN g n head len)
  | unchunked : IsForEach g n head len (forOne g head len)
  | range : IsForEach g n head len (forRange g n head len)

/-- Same range or non-overlapping ranges (map.hpp:208). -/
def SameOrApart (src dst len : Nat) : Prop := src = dst ∨ src + len ≤ dst ∨ dst + len ≤ src

theorem SameOrApart.alias {src dst len} (h : SameOrApart src dst len) : Alias src dst len := by
  rcases h with h | h | h
  · exact Or.inl h
  · exact Or.inr (fun i hi j hj => by omega)
  · exact Or.inr (fun i hi j hj => by omega)

theorem isMap_all {g : V → Except E V} {n src dst len : Nat} (hn : 0 < n) (ha : SameOrApart src dst len)
    {p : Prog V E} (hp : IsMap g n src dst len p) :
    RaceFree p ∧ ∀ m o m', Run p m o m' → MapPost g src dst len m o m' := by
  cases hp with
  | chunked => exact (mapN_all g n src dst len hn).2 ha.alias
  | unchunked => exact (mapOne_all g src dst len).2 ha.alias
  | range =>
    unfold mapRange
    rw [if_neg (by omega)]
    split
    · exact (mapOne_all g src dst len).2 ha.alias
    · exact (mapN_all g n src dst len hn).2 ha.alias

theorem isForEach_isMap {g : V → Except E V} {n head len : Nat} {p : Prog V E} (h : IsForEach g n head len p) :
    IsMap g n head head len p := by
  cases h with
  | chunked => rw [forN_eq]; exact .chunked
  | unchunked => rw [forOne_eq]; exact .unchunked
  | range =>
    have : forRange g n head len = mapRange g n head head len := by
      unfold forRange mapRange; rw [forN_eq, forOne_eq]
    rw [this]; exact .range

/-- C30 (map): parallel branches of `map` never touch a location the other writes. -/
theorem map_race_free {g : V → Except E V} {n src dst len : Nat} (hn : 0 < n) (ha : SameOrApart src dst len)
    {p : Prog V E} (hp : IsMap g n src dst len p) : RaceFree p := (isMap_all hn ha hp).1

/-- C27: if the function does not throw on the input elements, every execution of `map` ends normally, output `i` is
the function of input `i` (the input as it was before the call, also for an in-place map), and nothing else
changes. -/
theorem map_correct {g : V → Except E V} {n src dst len : Nat} (hn : 0 < n) (ha : SameOrApart src dst len)
    {p : Prog V E} (hp : IsMap g n src dst len p) {m m' : Mem Loc V} {o : Out E}
    (hg : ∀ i < len, ∃ v, g (m (.cell (src + i))) = .ok v) (hx : Steps p m (.halt o) m') :
    o = .ok ∧ (∀ i < len, g (m (.cell (src + i))) = .ok (m' (.cell (dst + i)))) ∧
    (∀ l, (∀ i < len, l ≠ .cell (dst + i)) → m' l = m l) := by
  obtain ⟨hr, hpost⟩ := isMap_all hn ha hp
  have P := hpost _ _ _ (run_of_steps hr hx)
  have ho : o = .ok := by
    cases o with
    | ok => rfl
    | exn e =>
      obtain ⟨i, hi, h⟩ := P.exn e rfl
      obtain ⟨v, hv⟩ := hg i hi
      rw [hv] at h; cases h
    | ub => exact absurd rfl P.noub
  refine ⟨ho, fun i hi => ?_, P.frame⟩
  rcases P.cells i hi with h | ⟨_, h⟩
  · exact h
  · exact absurd ho h

/-- C27, exceptions: `map` throws if and only if the function throws on some input element, the exception is one thrown
on an input element, an output is either untouched or the right value, and nothing outside the output changes. -/
theorem map_exceptions {g : V → Except E V} {n src dst len : Nat} (hn : 0 < n) (ha : SameOrApart src dst len)
    {p : Prog V E} (hp : IsMap g n src dst len p) {m m' : Mem Loc V} {o : Out E} (hx : Steps p m (.halt o) m') :
    ((∃ e, o = .exn e) ↔ ∃ i < len, ∃ e, g (m (.cell (src + i))) = .error e) ∧
    (∀ e, o = .exn e → ∃ i < len, g (m (.cell (src + i))) = .error e) ∧
    (∀ i < len, g (m (.cell (src + i))) = .ok (m' (.cell (dst + i))) ∨
      m' (.cell (dst + i)) = m (.cell (dst + i))) ∧
    (∀ l, (∀ i < len, l ≠ .cell (dst + i)) → m' l = m l) ∧ o ≠ .ub := by
  obtain ⟨hr, hpost⟩ := isMap_all hn ha hp
  have P := hpost _ _ _ (run_of_steps hr hx)
  refine ⟨⟨?_, ?_⟩, P.exn, fun i hi => (P.cells i hi).imp id And.left, P.frame, P.noub⟩
  · rintro ⟨e, he⟩
    obtain ⟨i, hi, h⟩ := P.exn e he
    exact ⟨i, hi, e, h⟩
  · rintro ⟨i, hi, e, he⟩
    cases o with
    | ok =>
      rcases P.cells i hi with h | ⟨_, h⟩
      · rw [he] at h; cases h
      · exact absurd rfl h
    | exn e => exact ⟨e, rfl⟩
    | ub => exact absurd rfl P.noub

/-- C28: `for_each` applies the function exactly once to each of the `len` elements and touches nothing else: the new
value of each element is the function applied once to its old value (for every type of element and every
function). -/
theorem for_each_exactly_once {g : V → Except E V} {n head len : Nat} (hn : 0 < n) {p : Prog V E}
    (hp : IsForEach g n head len p) {m m' : Mem Loc V} {o : Out E}
    (hg : ∀ i < len, ∃ v, g (m (.cell (head + i))) = .ok v) (hx : Steps p m (.halt o) m') :
    o = .ok ∧ (∀ i < len, g (m (.cell (head + i))) = .ok (m' (.cell (head + i)))) ∧
    (∀ l, (∀ i < len, l ≠ .cell (head + i)) → m' l = m l) :=
  map_correct hn (Or.inl rfl) (isForEach_isMap hp) hg hx

/-- C28, exceptions: each element is visited at most once even if some visit throws, and `for_each` throws exactly if
some visit does. -/
theorem for_each_exceptions {g : V → Except E V} {n head len : Nat} (hn : 0 < n) {p : Prog V E}
    (hp : IsForEach g n head len p) {m m' : Mem Loc V} {o : Out E} (hx : Steps p m (.halt o) m') :
    ((∃ e, o = .exn e) ↔ ∃ i < len, ∃ e, g (m (.cell (head + i))) = .error e) ∧
    (∀ e, o = .exn e → ∃ i < len, g (m (.cell (head + i))) = .error e) ∧
    (∀ i < len, g (m (.cell (head + i))) = .ok (m' (.cell (head + i))) ∨
      m' (.cell (head + i)) = m (.cell (head + i))) ∧
    (∀ l, (∀ i < len, l ≠ .cell (head + i)) → m' l = m l) ∧ o ≠ .ub :=
  map_exceptions hn (Or.inl rfl) (isForEach_isMap hp) hx

/-- Every execution of any of these programs is finite: a complete one exists from every memory, and `step_size` bounds
the length of all of them by the size of the program. -/
theorem executions_complete (p : Prog V E) (m : Mem Loc V) : ∃ o m', Steps p m (.halt o) m' := completes p m

/-- C26: `fold` of an empty range is empty. -/
theorem fold_empty (proj : V → Except E V) (bop : V → V → Except E V) (n head : Nat) :
    foldTop proj bop n head 0 = none := rfl

/-- Everything `fold` does on a non-empty range, for any operator (associative or not, throwing or not): it never fails
an assertion, changes none of the user's cells, a normal result is the value of some bracketing of the projected
elements in order, and an exception is one thrown by the projection of an element or by combining two adjacent
sub-ranges. The parallel branches do not conflict. -/
theorem fold_bracketing (proj : V → Except E V) (bop : V → V → Except E V) (n head len : Nat) (hn : 0 < n)
    (hlen : 0 < len) : ∃ p, foldTop proj bop n head len = some p ∧ RaceFree p ∧
      ∀ m o m', Steps p m (.halt o) m' →
        (∀ a, m' (.cell a) = m (.cell a)) ∧ o ≠ .ub ∧
        (o = .ok → Bracketed proj bop (cells m head len) (m' .res)) ∧
        (∀ e, o = .exn e → Thrown proj bop (cells m head len) e) := by
  unfold foldTop
  rw [if_neg (by omega)]
  have aux : ∀ p, (RaceFree p ∧ ∀ m o m', Run p m o m' → FoldPost proj bop .res [] head len m o m') →
      RaceFree p ∧ ∀ m o m', Steps p m (.halt o) m' →
        (∀ a, m' (.cell a) = m (.cell a)) ∧ o ≠ .ub ∧
        (o = .ok → Bracketed proj bop (cells m head len) (m' .res)) ∧
        (∀ e, o = .exn e → Thrown proj bop (cells m head len) e) := by
    rintro p ⟨hr, hp⟩
    refine ⟨hr, fun m o m' h => ?_⟩
    have P := hp _ _ _ (run_of_steps hr h)
    refine ⟨fun a => P.frame _ (by simp) ?_, P.noub, P.ok, P.exn⟩
    rintro ⟨_, _, h⟩; cases h
  split
  · exact ⟨_, rfl, aux _ (foldOne_all len hlen .res [] head).2⟩
  · exact ⟨_, rfl, aux _ (foldN_all n (by omega) len hlen .res [] head).2⟩

/-- C26: for a non-empty range, any chunk size and any schedule, `fold` with an associative operator returns the left
fold of the projected elements. -/
theorem fold_correct (pr : V → V) (op : V → V → V) (assoc : ∀ a b c, op (op a b) c = op a (op b c))
    (n head len : Nat) (hn : 0 < n) (hlen : 0 < len) :
    ∃ p : Prog V E, foldTop (fun x => .ok (pr x)) (fun a b => .ok (op a b)) n head len = some p ∧
      ∀ m o m', Steps p m (.halt o) m' →
        o = .ok ∧ (∀ a, m' (.cell a) = m (.cell a)) ∧
        m' .res = ((cells m (head + 1) (len - 1)).map pr).foldl op (pr (m (.cell head))) := by
  obtain ⟨p, hp, _, h⟩ := fold_bracketing (E := E) (fun x => .ok (pr x)) (fun a b => .ok (op a b)) n head len hn hlen
  refine ⟨p, hp, fun m o m' hx => ?_⟩
  obtain ⟨h1, h2, h3, h4⟩ := h m o m' hx
  have ho : o = .ok := by
    cases o with
    | ok => rfl
    | ub => exact absurd rfl h2
    | exn e =>
      have ht := h4 e rfl
      generalize cells m head len = zs at ht
      cases ht with
      | proj h => cases h
      | bop _ _ h => cases h
  refine ⟨ho, h1, ?_⟩
  obtain ⟨x, xs, he, hv⟩ := (h3 ho).total (pr := pr) (op := op) (fun _ => rfl) (fun _ _ => rfl) assoc
  rw [cells_split m head 1 len (by omega), cells_one] at he
  injection he with he1 he2
  rw [hv, ← he1, ← he2]
  rfl

/-- C26, exceptions (synchronous operator): if the projection throws on an element of the range, `fold` throws. -/
theorem fold_throws (proj : V → Except E V) (bop : V → V → Except E V) (n head len i : Nat) (hn : 0 < n)
    (hi : i < len) : ∃ p, foldTop proj bop n head len = some p ∧
      ∀ m o m' e, Steps p m (.halt o) m' → proj (m (.cell (head + i))) = .error e →
        ∃ e', o = .exn e' ∧ Thrown proj bop (cells m head len) e' := by
  obtain ⟨p, hp, _, h⟩ := fold_bracketing proj bop n head len hn (by omega)
  refine ⟨p, hp, fun m o m' e hx he => ?_⟩
  obtain ⟨_, h2, h3, h4⟩ := h m o m' hx
  cases o with
  | ub => exact absurd rfl h2
  | exn e' => exact ⟨e', rfl, h4 e' rfl⟩
  | ok =>
    obtain ⟨y, hy⟩ := (h3 rfl).proj_ok (m (.cell (head + i)))
      (by unfold cells; exact List.mem_map.2 ⟨i, List.mem_range.2 hi, rfl⟩)
    rw [he] at hy; cases hy

/-! ### The hypotheses are satisfiable, on executions that really fork -/

example : SameOrApart 10 10 7 ∧ SameOrApart 0 7 7 ∧ ¬ SameOrApart 0 3 7 := by
  unfold SameOrApart; omega

/-- A chunked in-place map over five cells has a complete execution and it adds one to each cell. -/
example : ∃ m' : Mem Loc Nat, Steps (E := Empty) (mapN (fun x => .ok (x + 1)) 2 0 0 5)
    (fun l => match l with | .cell a => a | _ => 0) (.halt .ok) m' ∧ m' (.cell 4) = 5 := by
  obtain ⟨o, m', h⟩ := completes (E := Empty) (mapN (fun x => .ok (x + 1)) 2 0 0 5)
    (fun l => match l with | .cell a => a | _ => 0)
  obtain ⟨h1, h2, _⟩ := map_correct (g := fun x => .ok (x + 1)) (n := 2) (src := 0) (dst := 0) (len := 5)
     (by omega) (Or.inl rfl) .chunked (fun i _ => ⟨_, rfl⟩) h
  subst h1
  exact ⟨m', h, by have := h2 4 (by omega); simpa using (Except.ok.inj this).symm⟩

/-- An associative but not commutative operator: list concatenation. -/
example : ∃ p : Prog (List Nat) Empty, foldTop (fun x => .ok x) (fun a b => .ok (a ++ b)) 2 0 5 = some p ∧
    ∃ m' : Mem Loc (List Nat), Steps p (fun l => match l with | .cell a => [a] | _ => []) (.halt .ok) m' ∧
      m' .res = [0, 1, 2, 3, 4] := by
  obtain ⟨p, hp, h⟩ := fold_correct (E := Empty) (fun x : List Nat => x) (· ++ ·)
    (fun a b c => List.append_assoc a b c) 2 0 5 (by omega) (by omega)
  obtain ⟨o, m', hx⟩ := completes p (fun l => match l with | .cell a => [a] | _ => [])
  obtain ⟨rfl, _, hr⟩ := h _ _ _ hx
  exact ⟨p, hp, m', hx, hr⟩

end Verif.Algo
