import Verif.Par.Ser
import Verif.Mem.Frame
import Verif.Mem.Determ
import Verif.Mem.FootReach
import Verif.Algo.Props

/-! C63: the parallel algorithms, executed by the runtime. -/
namespace Verif.Par
open Verif.Algo (Cmd Out Run Steps Writes NoConflict RaceFree)
open Verif.Mem (MS ReachAny Runs subs Mono)
open Verif.Runtime (Ev)

variable {L V E : Type} [DecidableEq L]

/-- Which tasks may be submitted while those in `O` have not ended: tasks of programs without races, that have no race with those. -/
def ok (O : T L V E → Prop) (c : T L V E) : Prop :=
  ∃ p, c = task p ∧ RaceFree p ∧ ∀ c', O c' → ∃ p', c' = task p' ∧ RaceFree p' ∧ NoConflict p p'

/-- Programs run one after another; `may`: the exceptions of the runtime itself, if an allocation may fail. -/
inductive RunsP (may : Dat V E → Prop) : (L → V) → List (Cmd L V E × Except (Dat V E) Unit) → (L → V) → Prop
  | nil {m} : RunsP may m [] m
  | cons {m m1 m2 p r l} : (Run p m (out r) m1 ∨ ((∃ e, may e) ∧ ∃ e, r = .error e)) → (∀ x, ¬ Writes p x → m1 x = m x) → RunsP may m1 l m2 →
      RunsP may m ((p, r) :: l) m2

theorem seq_steps {p q : Cmd L V E} {m p' m'} (h : Steps p m p' m') : Steps (.seq p q) m (.seq p' q) m' := by
  induction h with
  | refl => exact .refl
  | head s _ ih => exact .head (.seqStep s) ih

theorem parL_steps {p q : Cmd L V E} {m p' m'} (h : Steps p m p' m') : Steps (.par p q) m (.par p' q) m' := by
  induction h with
  | refl => exact .refl
  | head s _ ih => exact .head (.parL s) ih

theorem parR_steps {p q : Cmd L V E} {m q' m'} (h : Steps q m q' m') : Steps (.par p q) m (.par p q') m' := by
  induction h with
  | refl => exact .refl
  | head s _ ih => exact .head (.parR s) ih

/-- The serial run is one of the interleavings. -/
theorem steps_of_run {p : Cmd L V E} {m o m'} (h : Run p m o m') : Steps p m (.halt o) m' := by
  induction h with
  | halt => exact .refl
  | atomOk h => exact .head (.atomOk h) .refl
  | atomErr h => exact .head (.atomErr h) .refl
  | seqOk _ _ ih1 ih2 => exact (seq_steps ih1).trans (.head .seqOk ih2)
  | seqAbort _ h ih => exact (seq_steps ih).trans (.head (.seqAbort h) .refl)
  | par _ _ hj ih1 ih2 => exact (parL_steps ih1).trans ((parR_steps ih2).trans (.head (.parJoin hj) .refl))

omit [DecidableEq L] in
theorem ok_pend (O : T L V E → Prop) (c : T L V E) (h : ok O c) : pend c = 0 := by
  obtain ⟨p, rfl, _⟩ := h; exact (next_pend _).1

omit [DecidableEq L] in
theorem ok_mono : Mono (ok : (T L V E → Prop) → _) := fun _ _ h _ ⟨p, h1, h2, h3⟩ => ⟨p, h1, h2, fun c' hc => h3 c' (h c' hc)⟩

omit [DecidableEq L] in
theorem ok_roots : (foot : Mem.Foot (T L V E) L).Roots ok := by
  rintro O c ⟨p, rfl, h1, h2⟩
  refine ⟨(within_task p h1).I, fun c' hc => ?_⟩
  obtain ⟨p', rfl, h3, h4⟩ := h2 c' hc
  have w1 := within_task p h1
  have w2 := within_task p' h3
  intro l
  exact ⟨fun a b => (apart_of h4 l).1 (w1.W l a) (w2.R l b), fun a b => (apart_of h4 l).2 (w2.W l a) (w1.R l b)⟩

theorem raceFree (may : Dat V E → Prop) (m : L → Dat V E) : Mem.RaceFree (body : T L V E → _) may ok m :=
  Mem.C62_footprint disc ok_pend (foot_ok may) ok_roots

theorem pend_le (y : T L V E) : pend y ≤ 65534 := by cases y <;> simp [pend]

theorem ser_task {may : Dat V E → Prop} {p : Cmd L V E} {m : L → V} {r M'} (hp : RaceFree p) (hu : ∀ m m', ¬ Run p m .ub m')
    (h : Mem.SerM body may (task p) [] [] (vals m) r M') :
    ∃ m', M' = vals m' ∧ (Run p m (out r) m' ∨ ((∃ e, may e) ∧ ∃ e, r = .error e)) ∧ ∀ x, ¬ Writes p x → m' x = m x := by
  obtain ⟨m', rfl, h1⟩ := ser h m rfl
  refine ⟨m', rfl, ?_, fun x hx => ?_⟩
  · rcases sem_task h1 with h | h | ⟨m'', h⟩
    · exact Or.inl h
    · exact Or.inr h
    · exact absurd h (hu _ _)
  · have w := within_task p hp
    have := Mem.ser_frame (foot_ok may) h w.I x (fun h => hx (w.W x h))
    simpa [vals] using this

theorem runs_task {may : Dat V E → Prop} (qs : List (Nat × Cmd L V E)) :
    ∀ {ls : List (Nat × T L V E × Except (Dat V E) Unit)} {m : L → V} {M' : L → Dat V E},
      ls.map (fun p => (p.1, p.2.1)) = qs.map (fun q => (q.1, task q.2)) → (∀ q ∈ qs, RaceFree q.2 ∧ ∀ m m', ¬ Run q.2 m .ub m') →
      Runs body may (vals m) (ls.map Prod.snd) M' →
      ∃ l : List (Nat × Cmd L V E × Except (Dat V E) Unit), ∃ m', l.map (fun q => (q.1, q.2.1)) = qs ∧
        l.map (fun q => (q.1, q.2.2)) = ls.map (fun q => (q.1, q.2.2)) ∧ M' = vals m' ∧ RunsP may m (l.map Prod.snd) m' := by
  induction qs with
  | nil =>
    intro ls m M' h _ hr
    have : ls = [] := by simpa using h
    subst this
    cases hr
    exact ⟨[], m, rfl, rfl, rfl, .nil⟩
  | cons q qs ih =>
    intro ls m M' h hq hr
    cases ls with
    | nil => cases h
    | cons a ls =>
      obtain ⟨f, c, r⟩ := a
      simp only [List.map_cons, List.cons.injEq, Prod.mk.injEq] at h
      obtain ⟨⟨rfl, rfl⟩, h⟩ := h
      cases hr with
      | cons h1 h2 =>
        obtain ⟨m1, rfl, h3, h4⟩ := ser_task (hq q (by simp)).1 (hq q (by simp)).2 h1
        obtain ⟨l, m', e1, e2, e3, e4⟩ := ih h (fun q hq' => hq q (by simp [hq'])) h2
        refine ⟨(q.1, q.2, r) :: l, m', ?_, ?_, e3, ?_⟩
        · simp [e1]
        · simp [e2]
        · exact .cons h3 h4 e4

/-- **C63.** Programs of the kind the algorithms are made of, submitted to the runtime - at any time, to any worker, and run by any number of workers
with any schedule and any steals, as long as those that run at the same time have no race -: when all have ended, memory and their results
are what they are if the programs are run one after another by one thread, in the order in which they were submitted. A program may instead throw
an exception of the runtime (`may`: a failed allocation); also then it has changed nothing but what it may write. -/
theorem C63_programs {may : Dat V E → Prop} {m : L → V} {s : MS (T L V E) Unit (Dat V E) L} (h : ReachAny body pend may ok (vals m) s)
    {qs : List (Nat × Cmd L V E)} (hq : (subs s.x.c.log).reverse = qs.map fun q => (q.1, task q.2))
    (hok : ∀ q ∈ qs, RaceFree q.2 ∧ ∀ m m', ¬ Run q.2 m .ub m') (hz : ∀ q ∈ qs, ∃ r, Ev.done q.1 r ∈ s.x.c.log) :
    ∃ (l : List (Nat × Cmd L V E × Except (Dat V E) Unit)) (m' : L → V), l.map (fun q => (q.1, q.2.1)) = qs ∧ (∀ q ∈ l, Ev.done q.1 q.2.2 ∈ s.x.c.log) ∧
      s.m = vals m' ∧ RunsP may m (l.map Prod.snd) m' := by
  obtain ⟨hr, _⟩ := Mem.C61_bounded disc pend_le h
  obtain ⟨ls, h1, h2, h3⟩ := Mem.C62_runtime disc ok_pend ok_mono (raceFree may _) hr (by
    intro f c w hf
    have hm : (f, c) ∈ (subs s.x.c.log).reverse := List.mem_reverse.2 (Mem.mem_subs.2 ⟨w, hf⟩)
    rw [hq] at hm
    obtain ⟨q, hq1, hq2⟩ := List.mem_map.1 hm
    cases hq2
    exact hz q hq1)
  obtain ⟨l, m', e1, e2, e3, e4⟩ := runs_task qs (h1.trans hq) hok h3
  refine ⟨l, m', e1, fun q hq => ?_, e3, e4⟩
  have : (q.1, q.2.2) ∈ ls.map (fun q => (q.1, q.2.2)) := by rw [← e2]; exact List.mem_map.2 ⟨q, hq, rfl⟩
  obtain ⟨a, ha, he⟩ := List.mem_map.1 this
  simp only [Prod.mk.injEq] at he
  rw [← he.1, ← he.2]
  exact h2 a ha

theorem done_unique {may : Dat V E → Prop} {m : L → V} {s : MS (T L V E) Unit (Dat V E) L} (h : ReachAny body pend may ok (vals m) s) {f : Nat}
    {r r' : Except (Dat V E) Unit} (h1 : Ev.done f r ∈ s.x.c.log) (h2 : Ev.done f r' ∈ s.x.c.log) : r = r' := by
  obtain ⟨hr, _⟩ := Mem.C61_bounded disc pend_le h
  have hl := Exn.history_legal (Mem.disc_ctl disc) (Mem.reach_x hr)
  have e1 := Mem.done_mode hl h1
  rw [Mem.done_mode hl h2] at e1
  cases e1; rfl

/-- C63 for one program. -/
theorem C63_program {may : Dat V E → Prop} {m : L → V} {s : MS (T L V E) Unit (Dat V E) L} (h : ReachAny body pend may ok (vals m) s)
    {p : Cmd L V E} (hp : RaceFree p) (hu : ∀ m m', ¬ Run p m .ub m') {f : Nat} (hs : subs s.x.c.log = [(f, task p)]) {r : Except (Dat V E) Unit}
    (hd : Ev.done f r ∈ s.x.c.log) :
    ∃ m' : L → V, s.m = vals m' ∧ (Run p m (out r) m' ∨ ((∃ e, may e) ∧ ∃ e, r = .error e)) ∧ ∀ x, ¬ Writes p x → m' x = m x := by
  obtain ⟨l, m', h1, h2, h3, h4⟩ := C63_programs h (qs := [(f, p)]) (by rw [hs]; rfl) (by intro q hq; cases List.mem_singleton.1 hq; exact ⟨hp, hu⟩)
    (by intro q hq; cases List.mem_singleton.1 hq; exact ⟨r, hd⟩)
  match l, h1 with
  | [(f', p', r')], h1 =>
    simp only [List.map_cons, List.map_nil, List.cons.injEq, Prod.mk.injEq, and_true] at h1
    obtain ⟨rfl, rfl⟩ := h1
    have hd' : Ev.done f' r' ∈ s.x.c.log := h2 (f', p', r') (by simp)
    have : r' = r := done_unique h hd' hd
    subst this
    cases h4 with
    | cons a b c => cases c; exact ⟨m', h3, a, b⟩

/-- What a fold returns is in its return object; the user's elements are in the cells (Verif.Algo.Model). -/
abbrev MemOf (V : Type) := Algo.Loc → V

variable {g : V → Except E V} {n src dst len : Nat} {m : MemOf V} {f : Nat} {r : Except (Dat V E) Unit} {may : Dat V E → Prop}
  {s : MS (T Algo.Loc V E) Unit (Dat V E) Algo.Loc}

theorem isMap_foot (hn : 0 < n) {p : Algo.Prog V E} (hp : Algo.IsMap g n src dst len p) : Algo.MapFoot p src dst len := by
  cases hp with
  | chunked => exact (Algo.mapN_all g n src dst len hn).1
  | unchunked => exact (Algo.mapOne_all g src dst len).1
  | range =>
    unfold Algo.mapRange
    rw [if_neg (by omega)]
    split
    · exact (Algo.mapOne_all g src dst len).1
    · exact (Algo.mapN_all g n src dst len hn).1

/-- **C63, `lf::map`.** However the runtime executes it: if it returns, output `i` is the function of input `i`, for every `i`; if it throws, then
what the function threw on one of the inputs, unless an allocation failed; and nothing but the output was changed. -/
theorem C63_map (hn : 0 < n) (ha : Algo.SameOrApart src dst len) {p : Algo.Prog V E} (hp : Algo.IsMap g n src dst len p)
    (h : ReachAny body pend may ok (vals m) s) (hs : subs s.x.c.log = [(f, task p)]) (hd : Ev.done f r ∈ s.x.c.log) :
    ∃ m' : MemOf V, s.m = vals m' ∧ (r = .ok () → ∀ i < len, g (m (.cell (src + i))) = .ok (m' (.cell (dst + i)))) ∧
      (∀ d, r = .error d → (∃ e, may e) ∨ ∃ e, d = .exn e ∧ ∃ i < len, g (m (.cell (src + i))) = .error e) ∧
      ∀ l, (∀ i < len, l ≠ .cell (dst + i)) → m' l = m l := by
  obtain ⟨hr, hpost⟩ := Algo.isMap_all hn ha hp
  obtain ⟨m', h1, h2, h3⟩ := C63_program h hr (fun m m' h => (hpost _ _ _ h).noub rfl) hs hd
  refine ⟨m', h1, ?_, ?_, ?_⟩
  · rintro rfl i hi
    rcases h2 with h2 | ⟨_, _, h2⟩
    · rcases (hpost _ _ _ h2).cells i hi with h | ⟨_, h⟩
      · exact h
      · exact absurd rfl h
    · cases h2
  · rintro d rfl
    rcases h2 with h2 | ⟨h2, _⟩
    · right
      cases d with
      | exn e => exact ⟨e, rfl, (hpost _ _ _ h2).exn e rfl⟩
      | val v => exact absurd rfl (hpost _ _ _ h2).noub
      | ub => exact absurd rfl (hpost _ _ _ h2).noub
    · exact Or.inl h2
  · intro l hl
    rcases h2 with h2 | _
    · exact (hpost _ _ _ h2).frame l hl
    · exact h3 l (fun hw => by obtain ⟨i, hi, e⟩ := (isMap_foot hn hp).writes l hw; exact hl i hi e)

/-- **C63, `lf::for_each`.** The same of `for_each`: if it returns, the function was applied exactly once to each element. -/
theorem C63_for_each {head : Nat} (hn : 0 < n) {p : Algo.Prog V E} (hp : Algo.IsForEach g n head len p)
    (h : ReachAny body pend may ok (vals m) s) (hs : subs s.x.c.log = [(f, task p)]) (hd : Ev.done f r ∈ s.x.c.log) :
    ∃ m' : MemOf V, s.m = vals m' ∧ (r = .ok () → ∀ i < len, g (m (.cell (head + i))) = .ok (m' (.cell (head + i)))) ∧
      (∀ d, r = .error d → (∃ e, may e) ∨ ∃ e, d = .exn e ∧ ∃ i < len, g (m (.cell (head + i))) = .error e) ∧
      ∀ l, (∀ i < len, l ≠ .cell (head + i)) → m' l = m l :=
  C63_map hn (Or.inl rfl) (Algo.isForEach_isMap hp) h hs hd

variable {proj : V → Except E V} {bop : V → V → Except E V} {head : Nat}

theorem fold_all (hn : 0 < n) (hlen : 0 < len) {p : Algo.Prog V E} (hp : Algo.foldTop proj bop n head len = some p) :
    Algo.FoldFoot p .res [] ∧ RaceFree p ∧ ∀ m o m', Run p m o m' → Algo.FoldPost proj bop .res [] head len m o m' := by
  unfold Algo.foldTop at hp
  rw [if_neg (by omega)] at hp
  split at hp
  · cases hp; exact Algo.foldOne_all len hlen .res [] head
  · cases hp; exact Algo.foldN_all n (by omega) len hlen .res [] head

/-- **C63, `lf::fold`.** If it returns, then the value of some bracketing of the projected elements, in order; if it throws, then what the
projection of an element or the combination of two adjacent sub-ranges threw, unless an allocation failed; no element is changed. -/
theorem C63_fold (hn : 0 < n) (hlen : 0 < len) {p : Algo.Prog V E} (hp : Algo.foldTop proj bop n head len = some p)
    (h : ReachAny body pend may ok (vals m) s) (hs : subs s.x.c.log = [(f, task p)]) (hd : Ev.done f r ∈ s.x.c.log) :
    ∃ m' : MemOf V, s.m = vals m' ∧ (r = .ok () → Algo.Bracketed proj bop (Algo.cells m head len) (m' .res)) ∧
      (∀ d, r = .error d → (∃ e, may e) ∨ ∃ e, d = .exn e ∧ Algo.Thrown proj bop (Algo.cells m head len) e) ∧ ∀ a, m' (.cell a) = m (.cell a) := by
  obtain ⟨hF, hr, hpost⟩ := fold_all hn hlen hp
  obtain ⟨m', h1, h2, h3⟩ := C63_program h hr (fun m m' h => (hpost _ _ _ h).noub rfl) hs hd
  have hno : ∀ a, ¬ Algo.Own [] (.cell a) := by rintro a ⟨_, _, h⟩; cases h
  refine ⟨m', h1, ?_, ?_, fun a => h3 _ fun hw => ?_⟩
  · rintro rfl
    rcases h2 with h2 | ⟨_, _, h2⟩
    · exact (hpost _ _ _ h2).ok rfl
    · cases h2
  · rintro d rfl
    rcases h2 with h2 | ⟨h2, _⟩
    · right
      cases d with
      | exn e => exact ⟨e, rfl, (hpost _ _ _ h2).exn e rfl⟩
      | val v => exact absurd rfl (hpost _ _ _ h2).noub
      | ub => exact absurd rfl (hpost _ _ _ h2).noub
    · exact Or.inl h2
  · rcases hF.writes _ hw with h | h
    · cases h
    · exact hno a h

/-- **C63, `lf::fold`** with an associative operator: if no function throws and no allocation fails, it returns the left fold of the projected
elements. -/
theorem C63_fold_assoc (pr : V → V) (op : V → V → V) (assoc : ∀ a b c, op (op a b) c = op a (op b c)) (hn : 0 < n) (hlen : 0 < len)
    {p : Algo.Prog V E} (hp : Algo.foldTop (fun x => .ok (pr x)) (fun a b => .ok (op a b)) n head len = some p)
    (h : ReachAny body pend (fun _ => False) ok (vals m) s) (hs : subs s.x.c.log = [(f, task p)]) (hd : Ev.done f r ∈ s.x.c.log) :
    ∃ m' : MemOf V, s.m = vals m' ∧ r = .ok () ∧
      m' .res = ((Algo.cells m (head + 1) (len - 1)).map pr).foldl op (pr (m (.cell head))) ∧ ∀ a, m' (.cell a) = m (.cell a) := by
  obtain ⟨_, hr, hpost⟩ := fold_all hn hlen hp
  obtain ⟨m', h1, h2, _⟩ := C63_program h hr (fun m m' h => (hpost _ _ _ h).noub rfl) hs hd
  rcases h2 with h2 | ⟨⟨_, h2⟩, _⟩
  · obtain ⟨p', hp', h3⟩ := Algo.fold_correct (E := E) pr op assoc n head len hn hlen
    rw [hp] at hp'; cases hp'
    obtain ⟨h4, h5, h6⟩ := h3 _ _ _ (steps_of_run h2)
    refine ⟨m', h1, ?_, h6, h5⟩
    cases r with
    | ok u => rfl
    | error d => cases d <;> cases h4
  · exact h2.elim

end Verif.Par
