import Verif.Early.Par

/-! C68 for `lf::map` and `lf::fold`: several of them at the same time, each with its own range, result and temporaries. -/
namespace Verif.Early
open Verif.Algo (Cmd Run Reads Writes NoConflict)
open Verif.Par (T Dat task vals out)
open Verif.WholeM (Fit)

section
variable {L L' V E : Type} [DecidableEq L] [DecidableEq L']

/-- A program whose location `l` is at `ι l`: an algorithm called with other arguments (map.hpp:206-214, fold.hpp:190-262), whose temporaries are in other coroutine frames. -/
def place (ι : L → L') : Cmd L V E → Cmd L' V E
  | .halt o => .halt o
  | .atom w k rs f => .atom (ι w) k (fun i => ι (rs i)) f
  | .seq p q => .seq (place ι p) (place ι q)
  | .par p q => .par (place ι p) (place ι q)

omit [DecidableEq L] [DecidableEq L'] in
theorem reads_place {ι : L → L'} {p : Cmd L V E} {y : L'} : Reads (place ι p) y ↔ ∃ x, y = ι x ∧ Reads p x := by
  induction p with
  | halt o => simp [place, Reads]
  | atom w k rs f =>
    constructor
    · rintro ⟨i, rfl⟩; exact ⟨rs i, rfl, i, rfl⟩
    · rintro ⟨x, rfl, i, rfl⟩; exact ⟨i, rfl⟩
  | seq p q ih1 ih2 | par p q ih1 ih2 =>
    simp only [place, Reads, ih1, ih2]
    grind

omit [DecidableEq L] [DecidableEq L'] in
theorem writes_place {ι : L → L'} {p : Cmd L V E} {y : L'} : Writes (place ι p) y ↔ ∃ x, y = ι x ∧ Writes p x := by
  induction p with
  | halt o => simp [place, Writes]
  | atom w k rs f => simp [place, Writes]
  | seq p q ih1 ih2 | par p q ih1 ih2 =>
    simp only [place, Writes, ih1, ih2]
    grind

omit [DecidableEq L] [DecidableEq L'] in
theorem apart_place {ι : L → L'} (hι : ∀ x y, ι x = ι y → x = y) {p q : Cmd L V E} (h : NoConflict p q) : NoConflict (place ι p) (place ι q) := by
  constructor
  · intro l hl
    obtain ⟨x, rfl, hx⟩ := writes_place.1 hl
    refine ⟨fun h' => ?_, fun h' => ?_⟩
    · obtain ⟨y, e, hy⟩ := reads_place.1 h'
      rw [← hι _ _ e] at hy; exact (h.1 x hx).1 hy
    · obtain ⟨y, e, hy⟩ := writes_place.1 h'
      rw [← hι _ _ e] at hy; exact (h.1 x hx).2 hy
  · intro l hl h'
    obtain ⟨x, rfl, hx⟩ := writes_place.1 hl
    obtain ⟨y, e, hy⟩ := reads_place.1 h'
    rw [← hι _ _ e] at hy; exact h.2 x hx hy

omit [DecidableEq L] [DecidableEq L'] in
theorem free_place {ι : L → L'} (hι : ∀ x y, ι x = ι y → x = y) {p : Cmd L V E} (h : Algo.RaceFree p) : Algo.RaceFree (place ι p) := by
  induction p with
  | halt o => exact h
  | atom w k rs f => exact h
  | seq p q ih1 ih2 => exact ⟨ih1 h.1, ih2 h.2⟩
  | par p q ih1 ih2 => exact ⟨apart_place hι h.1, ih1 h.2.1, ih2 h.2.2⟩

theorem run_place {ι : L → L'} (hι : ∀ x y, ι x = ι y → x = y) {p : Cmd L V E} : ∀ {m m' : L' → V} {o : Algo.Out E}, Run (place ι p) m o m' →
    Run p (fun x => m (ι x)) o (fun x => m' (ι x)) := by
  induction p with
  | halt o => intro m m' o h; cases h; exact .halt
  | atom w k rs f =>
    intro m m' o h
    cases h with
    | @atomOk _ _ _ _ _ v h =>
      have e : (fun x => Algo.upd m (ι w) v (ι x)) = Algo.upd (fun x => m (ι x)) w v := by
        funext x
        simp only [Algo.upd]
        by_cases e : x = w
        · simp [e]
        · rw [if_neg e, if_neg fun e' => e (hι _ _ e')]
      rw [e]; exact .atomOk h
    | atomErr h => exact .atomErr h
  | seq p q ih1 ih2 =>
    intro m m' o h
    cases h with
    | seqOk h1 h2 => exact .seqOk (ih1 h1) (ih2 h2)
    | seqAbort h1 h2 => exact .seqAbort (ih1 h1) h2
  | par p q ih1 ih2 =>
    intro m m' o h
    cases h with
    | par h1 h2 h3 => exact .par (ih1 h1) (ih2 h2) h3

end

variable {L V E : Type} [DecidableEq L] {may : Dat V E → Prop} {K : Nat} {dep : Nat → Nat → Prop} {p : Nat → Cmd L V E} {m : L → V} {ι : Algo.Loc → L} {i : Nat}
  {r : Except (Dat V E) Unit} {g : V → Except E V} {n src dst len : Nat} {q : Algo.Prog V E}

/-- What `map` leaves. -/
structure MapDone (may : Dat V E → Prop) (g : V → Except E V) (src dst len : Nat) (M : Algo.Loc → V) (r : Except (Dat V E) Unit) (M' : Algo.Loc → Dat V E) : Prop where
  ok : r = .ok () → ∀ i < len, ∃ v, M' (.cell (dst + i)) = .val v ∧ g (M (.cell (src + i))) = .ok v
  exn : ∀ d, r = .error d → (∃ e, may e) ∨ ∃ e, d = .exn e ∧ ∃ i < len, g (M (.cell (src + i))) = .error e

/-- What `fold` leaves. -/
structure FoldDone (may : Dat V E → Prop) (proj : V → Except E V) (bop : V → V → Except E V) (head len : Nat) (M : Algo.Loc → V) (r : Except (Dat V E) Unit)
    (M' : Algo.Loc → Dat V E) : Prop where
  ok : r = .ok () → ∃ v, M' .res = .val v ∧ Algo.Bracketed proj bop (Algo.cells M head len) v
  exn : ∀ d, r = .error d → (∃ e, may e) ∨ ∃ e, d = .exn e ∧ Algo.Thrown proj bop (Algo.cells M head len) e

theorem map_done (hn : 0 < n) (ha : Algo.SameOrApart src dst len) (hq : Algo.IsMap g n src dst len q) (hι : ∀ x y, ι x = ι y → x = y) {M : L → Dat V E} {m' : L → V}
    (h1 : Run (place ι q) m (out r) m' ∨ ((∃ e, may e) ∧ ∃ e, r = .error e)) (h2 : ∀ k < len, M (ι (.cell (dst + k))) = .val (m' (ι (.cell (dst + k))))) :
    MapDone may g src dst len (fun x => m (ι x)) r (fun x => M (ι x)) := by
  obtain ⟨_, hpost⟩ := Algo.isMap_all hn ha hq
  constructor
  · rintro rfl i hi
    refine ⟨_, h2 i hi, ?_⟩
    rcases h1 with h1 | ⟨_, _, h1⟩
    · rcases (hpost _ _ _ (run_place hι h1)).cells i hi with h | ⟨_, h⟩
      · exact h
      · exact absurd rfl h
    · cases h1
  · rintro d rfl
    rcases h1 with h1 | ⟨h1, _⟩
    · have P := hpost _ _ _ (run_place hι h1)
      right
      cases d with
      | exn e => exact ⟨e, rfl, P.exn e rfl⟩
      | val v => exact absurd rfl P.noub
      | ub => exact absurd rfl P.noub
    · exact .inl h1

variable {proj : V → Except E V} {bop : V → V → Except E V} {head : Nat}

theorem fold_done (hn : 0 < n) (hlen : 0 < len) (hq : Algo.foldTop proj bop n head len = some q) (hι : ∀ x y, ι x = ι y → x = y) {M : L → Dat V E} {m' : L → V}
    (h1 : Run (place ι q) m (out r) m' ∨ ((∃ e, may e) ∧ ∃ e, r = .error e)) (h2 : M (ι .res) = .val (m' (ι .res))) :
    FoldDone may proj bop head len (fun x => m (ι x)) r (fun x => M (ι x)) := by
  obtain ⟨_, _, hpost⟩ := Par.fold_all hn hlen hq
  constructor
  · rintro rfl
    refine ⟨_, h2, ?_⟩
    rcases h1 with h1 | ⟨_, _, h1⟩
    · exact (hpost _ _ _ (run_place hι h1)).ok rfl
    · cases h1
  · rintro d rfl
    rcases h1 with h1 | ⟨h1, _⟩
    · have P := hpost _ _ _ (run_place hι h1)
      right
      cases d with
      | exn e => exact ⟨e, rfl, P.exn e rfl⟩
      | val v => exact absurd rfl P.noub
      | ub => exact absurd rfl P.noub
    · exact .inl h1

/-- The locations of a `map`: its input and output. -/
def MapAt (ι : Algo.Loc → L) (src dst len : Nat) (x : L) : Prop := ∃ k < len, x = ι (.cell (src + k)) ∨ x = ι (.cell (dst + k))

/-- **C68, `lf::map`** among other algorithms scheduled on a `busy_pool` or `unit_pool`, none of which so far writes its input or output: as soon as it is over, its output is there. -/
theorem C68_schedule_map {c : Pool.Cfg} (hp : Fit K dep p) {s : Busy.B (T L V E) Unit (Dat V E) L}
    (h : Busy.Reach c Par.body may K (fun i => task (p i)) dep (vals m) s) (hb : Busy.Over s i r) (hn : 0 < n) (ha : Algo.SameOrApart src dst len)
    (hq : Algo.IsMap g n src dst len q) (hι : ∀ x y, ι x = ι y → x = y) (hi : p i = place ι q)
    (hno : ∀ j, j < K → j ≠ i → s.caller j ≠ .before → ∀ x, MapAt ι src dst len x → ¬ Writes (p j) x) :
    MapDone may g src dst len (fun x => m (ι x)) r (fun x => s.M.m (ι x)) := by
  obtain ⟨m', h1, h2⟩ := C68_schedule_alone hp h hb (A := MapAt ι src dst len) (fun x hx => by
    rw [hi] at hx
    obtain ⟨y, rfl, hy⟩ := reads_place.1 hx
    obtain ⟨k, hk, rfl⟩ := (Par.isMap_foot hn hq).reads y hy
    exact ⟨k, hk, .inl rfl⟩) hno
  rw [hi] at h1
  exact map_done hn ha hq hι h1 fun k hk => h2 _ ⟨k, hk, .inr rfl⟩

/-- **C68, `lf::map`** with `sync_wait` on a `lazy_pool`. -/
theorem C68_sync_wait_map {c : LazyPool.Cfg} (hc : c.Ok) (hp : Fit K dep p) {s : WholeM.Y (T L V E) Unit (Dat V E) L}
    (h : WholeM.Reach c Par.body may K (fun i => task (p i)) dep (vals m) s) (hb : s.x.caller i = .back r) (hn : 0 < n) (ha : Algo.SameOrApart src dst len)
    (hq : Algo.IsMap g n src dst len q) (hι : ∀ x y, ι x = ι y → x = y) (hi : p i = place ι q)
    (hno : ∀ j, j < K → j ≠ i → s.x.caller j ≠ .before → ∀ x, MapAt ι src dst len x → ¬ Writes (p j) x) :
    MapDone may g src dst len (fun x => m (ι x)) r (fun x => s.m (ι x)) := by
  obtain ⟨m', h1, h2⟩ := C68_sync_wait_alone hc hp h hb (A := MapAt ι src dst len) (fun x hx => by
    rw [hi] at hx
    obtain ⟨y, rfl, hy⟩ := reads_place.1 hx
    obtain ⟨k, hk, rfl⟩ := (Par.isMap_foot hn hq).reads y hy
    exact ⟨k, hk, .inl rfl⟩) hno
  rw [hi] at h1
  exact map_done hn ha hq hι h1 fun k hk => h2 _ ⟨k, hk, .inr rfl⟩

/-- **C68, `lf::fold`** among other algorithms scheduled on a `busy_pool` or `unit_pool`, none of which so far writes what it reads, nor its result: as soon as it is over, its result is
there. -/
theorem C68_schedule_fold {c : Pool.Cfg} (hp : Fit K dep p) {s : Busy.B (T L V E) Unit (Dat V E) L}
    (h : Busy.Reach c Par.body may K (fun i => task (p i)) dep (vals m) s) (hb : Busy.Over s i r) (hn : 0 < n) (hlen : 0 < len)
    (hq : Algo.foldTop proj bop n head len = some q) (hι : ∀ x y, ι x = ι y → x = y) (hi : p i = place ι q)
    (hno : ∀ j, j < K → j ≠ i → s.caller j ≠ .before → ∀ x, Reads (p i) x ∨ x = ι .res → ¬ Writes (p j) x) :
    FoldDone may proj bop head len (fun x => m (ι x)) r (fun x => s.M.m (ι x)) := by
  obtain ⟨m', h1, h2⟩ := C68_schedule_alone hp h hb (A := fun x => Reads (p i) x ∨ x = ι .res) (fun x hx => .inl hx) hno
  rw [hi] at h1
  exact fold_done hn hlen hq hι h1 (h2 _ (.inr rfl))

/-- **C68, `lf::fold`** with `sync_wait` on a `lazy_pool`. -/
theorem C68_sync_wait_fold {c : LazyPool.Cfg} (hc : c.Ok) (hp : Fit K dep p) {s : WholeM.Y (T L V E) Unit (Dat V E) L}
    (h : WholeM.Reach c Par.body may K (fun i => task (p i)) dep (vals m) s) (hb : s.x.caller i = .back r) (hn : 0 < n) (hlen : 0 < len)
    (hq : Algo.foldTop proj bop n head len = some q) (hι : ∀ x y, ι x = ι y → x = y) (hi : p i = place ι q)
    (hno : ∀ j, j < K → j ≠ i → s.x.caller j ≠ .before → ∀ x, Reads (p i) x ∨ x = ι .res → ¬ Writes (p j) x) :
    FoldDone may proj bop head len (fun x => m (ι x)) r (fun x => s.m (ι x)) := by
  obtain ⟨m', h1, h2⟩ := C68_sync_wait_alone hc hp h hb (A := fun x => Reads (p i) x ∨ x = ι .res) (fun x hx => .inl hx) hno
  rw [hi] at h1
  exact fold_done hn hlen hq hι h1 (h2 _ (.inr rfl))

end Verif.Early
