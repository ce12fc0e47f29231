import Verif.Algo.ScanLemmas
import Verif.Algo.Props

/-!
Property theorems for `lf::scan` (C29) and freedom from data races of all the algorithms (C30).

`rdy` is the schedule-dependent answer of the sync fork at each node of the up-sweep; every theorem holds for every
such function, and for every interleaving of the tasks.
-/
namespace Verif.Algo
variable {V E : Type}

theorem SameOrApart.idx {src dst len} (h : SameOrApart src dst len) :
    ∀ i < len, ∀ j < len, src + i = dst + j → i = j := by
  intro i hi j hj he
  rcases h with h | h | h <;> omega

theorem scanP_foot (pr : V → V) (op : V → V → V) (assoc : ∀ a b c, op (op a b) c = op a (op b c))
    {n src dst len : Nat} (hn : 0 < n) (ha : SameOrApart src dst len) (rdy : List Bool → Bool) (m : Mem Loc V)
    (hlen : 0 < len) :
    Foot (scanP (E := E) pr op rdy n src dst len) [] (In dst (dst + len)) (fun _ => True) ∧
    ∀ o m', Run (scanP (E := E) pr op rdy n src dst len) m o m' →
      o = .ok ∧ Scanned pr op src dst m m' 0 len := by
  have hal := ha.idx
  have frise := riseP_foot (E := E) pr op hal rdy n .scan .all [] 0 len (by omega) (fun h => by cases h)
  -- a run of the up-sweep exists, so the value of `riseEnd` is what `riseScan_post` says
  have hpost := fun o m' h => riseScan_post (E := E) (pr := pr) (op := op) (m0 := m) assoc hal rdy n hn .all [] 0 len hlen
    (by omega) (fun h => by cases h) (fun _ => rfl) (m := m) (o := o) (m' := m') (fun _ _ _ => rfl) (fun h => by cases h) h
  simp only [Nat.add_zero, Nat.zero_add] at frise hpost
  have hse : ∃ se, riseEnd rdy n [] src len = src + se ∧ 0 < se ∧ se ≤ len := by
    obtain ⟨o, m', hs⟩ := completes (riseP (E := E) pr op rdy n .scan .all [] src len dst) m
    obtain ⟨_, se, a, b, c, _⟩ := hpost o m' (run_of_steps frise.race hs)
    exact ⟨se, a, b, c⟩
  obtain ⟨se, e1, e2, e3⟩ := hse
  unfold scanP
  rw [if_neg (by omega)]
  dsimp only
  rw [e1]
  have ffall := fun (h : se < 0 + len) => fallP_foot (E := E) pr op hal n .all [] 0 len se (by omega) (by omega) h
  simp only [Nat.add_zero, Nat.zero_add] at ffall
  refine ⟨.seq (frise.mono (fun c h => ⟨by omega, by omega⟩) (fun _ _ => trivial)) ?_, ?_⟩
  · split
    · exact (ffall (by omega)).mono (fun c h => ⟨by omega, by simp only [Ival.excl] at h; omega⟩) (fun _ _ => trivial)
    · exact .halt
  · intro o m' h
    obtain ⟨m1, h1, h⟩ := run_seq h (fun o m1 h => (hpost o m1 h).1)
    obtain ⟨-, se', f1, f2, f3, f4, f5⟩ := hpost _ _ h1
    have : se' = se := by omega
    subst this
    by_cases hx : se' = len
    · rw [if_neg (by omega)] at h
      cases h
      exact ⟨rfl, f4 hx⟩
    · rw [if_pos (by omega)] at h
      have hp := (f5 (by omega)).1
      have := fallP_post (E := E) (pr := pr) (op := op) (m0 := m) assoc hal n hn .all [] 0 len se' (by omega) (by omega) (by omega)
        hp (fun h => by cases h) (by simpa using h)
      simpa using this

theorem G_eq_foldl (pr : V → V) (op : V → V → V) (m : Mem Loc V) (src i : Nat) :
    P pr op src m i = ((cells m (src + 1) i).map pr).foldl op (pr (m (.cell src))) := by
  induction i with
  | zero => simp [P, G, X, cells]
  | succ i ih =>
    rw [cells_append, List.map_append, List.foldl_append, ← ih, cells_one]
    simp only [P, G, X, List.map_cons, List.map_nil, List.foldl_cons, List.foldl_nil]
    rw [show src + (0 + i + 1) = src + 1 + i by omega]

/-- C29: for every associative operator, every chunk size, every schedule, in-place or to a separate range, output `i`
of `scan` is the left fold of the first `i + 1` projected inputs; nothing outside the output range changes. -/
theorem scan_correct (pr : V → V) (op : V → V → V) (assoc : ∀ a b c, op (op a b) c = op a (op b c))
    {n src dst len : Nat} (hn : 0 < n) (ha : SameOrApart src dst len) (rdy : List Bool → Bool)
    {m m' : Mem Loc V} {o : Out E} (h : Steps (scanP pr op rdy n src dst len) m (.halt o) m') :
    o = .ok ∧
    (∀ i < len, m' (.cell (dst + i)) = ((cells m (src + 1) i).map pr).foldl op (pr (m (.cell src)))) ∧
    (∀ c, ¬ (dst ≤ c ∧ c < dst + len) → m' (.cell c) = m (.cell c)) := by
  by_cases hlen : len = 0
  · subst hlen
    simp only [scanP, if_true] at h
    cases h with
    | refl => exact ⟨rfl, fun i hi => by omega, fun _ _ => rfl⟩
    | head s _ => cases s
  · obtain ⟨hf, hp⟩ := scanP_foot (E := E) pr op assoc hn ha rdy m (by omega)
    have hr := run_of_steps hf.race h
    obtain ⟨ho, hs⟩ := hp _ _ hr
    refine ⟨ho, fun i hi => ?_, fun c hc => hf.keep hr hc⟩
    rw [hs i (by omega) hi, G_eq_foldl]

/-- C29: `scan` always terminates, whatever the schedule does: an execution can be extended until it ends, and (by
`scan_executions_finite`) cannot be extended for ever. -/
theorem scan_executions_complete (pr : V → V) (op : V → V → V) (rdy : List Bool → Bool) (n src dst len : Nat)
    (m : Mem Loc V) {p m1} (_ : Steps (scanP (E := E) pr op rdy n src dst len) m p m1) :
    ∃ o m', Steps p m1 (.halt o) m' := completes p m1

/-- A step of any program strictly decreases a natural number. -/
theorem scan_executions_finite {p p' : Prog V E} {m m'} (h : Step p m p' m') : size p' < size p := step_size h

/-- C30: in `scan` no two tasks that may run concurrently access the same location unless both only read it. -/
theorem scan_race_free (pr : V → V) (op : V → V → V)
    {n src dst len : Nat} (hn : 0 < n) (ha : SameOrApart src dst len) (rdy : List Bool → Bool) :
    RaceFree (scanP (E := E) pr op rdy n src dst len) := by
  -- the shape of the program does not depend on the operator being associative: use a lemma on the end of the scan
  have hal := ha.idx
  by_cases hlen : len = 0
  · subst hlen; simp [scanP, RaceFree]
  have frise := riseP_foot (E := E) pr op hal rdy n .scan .all [] 0 len (by omega) (fun h => by cases h)
  obtain ⟨se, e1, e2, e3⟩ : ∃ se, riseEnd rdy n [] src len = src + se ∧ 0 < se ∧ se ≤ len := by
    have hpost := fun o m' h => riseScan_post (E := E) (pr := fun _ : Unit => ()) (op := fun _ _ => ()) (m0 := fun _ => ()) (fun _ _ _ => rfl) hal rdy n hn .all [] 0 len (by omega)
      (by omega) (fun h => by cases h) (fun _ => rfl) (m := fun _ => ()) (o := o) (m' := m') (fun _ _ _ => rfl) (fun h => by cases h) h
    have fr := riseP_foot (E := E) (fun _ : Unit => ()) (fun _ _ => ()) hal rdy n .scan .all [] 0 len (by omega) (fun h => by cases h)
    obtain ⟨o, m', hs⟩ := completes (riseP (E := E) (fun _ : Unit => ()) (fun _ _ => ()) rdy n .scan .all [] (src + 0) len (dst + 0)) (fun _ => ())
    obtain ⟨_, se, a, b, c, _⟩ := hpost o m' (run_of_steps fr.race hs)
    exact ⟨se, by simpa using a, b, by omega⟩
  unfold scanP
  rw [if_neg (by omega)]
  dsimp only
  rw [e1]
  refine ⟨by simpa using frise.race, ?_⟩
  split
  · have := (fallP_foot (E := E) pr op hal n .all [] 0 len se (by omega) (by omega) (by omega)).race
    simpa using this
  · trivial

/-- C30 (for_each). -/
theorem for_each_race_free {g : V → Except E V} {n head len : Nat} (hn : 0 < n) {p : Prog V E}
    (hp : IsForEach g n head len p) : RaceFree p :=
  map_race_free hn (.inl rfl) (isForEach_isMap hp)

/-- C30 (fold). -/
theorem fold_race_free (proj : V → Except E V) (bop : V → V → Except E V) (n head len : Nat) (hn : 0 < n) {p : Prog V E}
    (hp : foldTop proj bop n head len = some p) : RaceFree p := by
  by_cases hlen : len = 0
  · subst hlen; simp [foldTop] at hp
  · obtain ⟨q, hq, hr, _⟩ := fold_bracketing proj bop n head len hn (by omega)
    rw [hp] at hq; cases hq; exact hr

/-- C30: two tasks race if they may run at the same time and touch one location, at least one of them writing. A
program is `RaceFree` exactly if it contains no such pair: `p` and `q` under one `par` are the only tasks that may run
at the same time. -/
theorem race_free_iff {p : Prog V E} :
    RaceFree p ↔ ∀ q r, Sub (.par q r) p → ¬ ∃ l, (Writes q l ∧ (Reads r l ∨ Writes r l)) ∨ (Writes r l ∧ Reads q l) := by
  have key : ∀ q r : Prog V E, NoConflict q r ↔ ¬ ∃ l, (Writes q l ∧ (Reads r l ∨ Writes r l)) ∨ (Writes r l ∧ Reads q l) := by
    intro q r
    constructor
    · rintro ⟨h1, h2⟩ ⟨l, ⟨a, b | b⟩ | ⟨a, b⟩⟩
      · exact (h1 l a).1 b
      · exact (h1 l a).2 b
      · exact h2 l a b
    · intro h
      exact ⟨fun l a => ⟨fun b => h ⟨l, .inl ⟨a, .inl b⟩⟩, fun b => h ⟨l, .inl ⟨a, .inr b⟩⟩⟩, fun l a b => h ⟨l, .inr ⟨a, b⟩⟩⟩
  induction p with
  | halt o => exact ⟨fun _ q r h => (by cases h), fun _ => trivial⟩
  | atom w k rs f => exact ⟨fun _ q r h => (by cases h), fun _ => trivial⟩
  | seq p q ihp ihq =>
    constructor
    · rintro ⟨h1, h2⟩ a b h
      cases h with
      | seqL h => exact ihp.1 h1 a b h
      | seqR h => exact ihq.1 h2 a b h
    · intro h
      exact ⟨ihp.2 (fun a b hs => h a b (.seqL hs)), ihq.2 (fun a b hs => h a b (.seqR hs))⟩
  | par p q ihp ihq =>
    constructor
    · rintro ⟨h0, h1, h2⟩ a b h
      cases h with
      | refl => exact (key _ _).1 h0
      | parL h => exact ihp.1 h1 a b h
      | parR h => exact ihq.1 h2 a b h
    · intro h
      exact ⟨(key _ _).2 (h p q .refl), ihp.2 (fun a b hs => h a b (.parL hs)), ihq.2 (fun a b hs => h a b (.parR hs))⟩

/-! Non-vacuity: string concatenation (associative, not commutative), in place, with a schedule that steals at the root
only; and the hypotheses on the ranges. -/
example : SameOrApart 3 3 5 := .inl rfl
example : SameOrApart 0 5 5 := .inr (.inl (by omega))
example (m : Mem Loc String) : ∃ o m', Steps (scanP (E := Unit) id (· ++ ·) (fun p => p ≠ []) 2 0 0 9) m (.halt o) m' ∧
    m' (.cell 1) = m (.cell 0) ++ m (.cell 1) := by
  obtain ⟨o, m', h⟩ := completes (scanP (E := Unit) id (· ++ ·) (fun p => p ≠ []) 2 0 0 9) m
  have := (scan_correct (E := Unit) id (· ++ ·) (fun a b c => String.append_assoc) (by omega) (.inl rfl) _ h).2.1 1 (by omega)
  exact ⟨o, m', h, by simpa [cells] using this⟩

end Verif.Algo
