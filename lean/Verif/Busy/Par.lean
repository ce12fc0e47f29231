import Verif.Busy.Live
import Verif.WholeM.Par

/-! C67 for the parallel algorithms: `lf::schedule(pool, lf::fold, ...)` and so on, on a `busy_pool` or a `unit_pool`, from the call to its return. -/
namespace Verif.Busy
open Verif.Runtime (Res Ev)
open Verif.Pool (Cfg)
open Verif.Mem (subs ReachAny)
open Verif.Algo (Cmd)
open Verif.Par (T Dat RunsP task vals)
open Verif.WholeM (Fit ends_task no_switch runs_programs)
open Verif.Fair (Run)

variable {L V E : Type} [DecidableEq L] {c : Cfg} {may : Dat V E → Prop} {K : Nat} {dep : Nat → Nat → Prop} {p : Nat → Cmd L V E} {m : L → V}

/-- A task that runs an algorithm never submits work to the pool, so the destructor may be called while it runs. -/
theorem still (y : T L V E) : Still Par.body y := fun z _ d k x => no_switch z d k x

theorem raceFree (hp : Fit K dep p) : Mem.RaceFree Par.body may (Together K (fun i => task (p i)) dep) (vals m : L → Dat V E) := WholeM.raceFree hp

/-- **C67.** `K` calls of `schedule` with algorithms (programs of Verif.Algo.Lang), on a pool of any size, in any fair schedule: if unordered calls do not
conflict, then from some time on every future has been got, and memory and results are those of the programs run one after another by one thread, in an
order that respects that of the calls. -/
theorem C67_programs (hN : 0 < c.N) (hp : Fit K dep p) {r : Run (system c Par.body may K (fun i => task (p i)) dep (vals m))}
    (hf : r.Fair) {t : Nat} (hcall : ∀ i, i < K → (r.st t).caller i ≠ .before) :
    ∃ t', t ≤ t' ∧ ∀ u, t' ≤ u → ∃ (l : List (Nat × Except (Dat V E) Unit)) (m' : L → V), (l.map Prod.fst).Nodup ∧ (∀ i, i ∈ l.map Prod.fst ↔ i < K) ∧
      (∀ q ∈ l, ∃ f, (r.st u).caller q.1 = .back f q.2) ∧ l.Pairwise (fun q q' => ¬ dep q.1 q'.1) ∧ (r.st u).M.m = vals m' ∧
      RunsP may m (l.map fun q => (p q.1, q.2)) m' := by
  obtain ⟨t', h1, h2⟩ := C67_completes Par.disc Par.pend_le hN (fun i _ => (Par.next_pend _).1) (raceFree hp) (fun i _ => ends_task _) hf hcall
  refine ⟨t', h1, fun u hu => ?_⟩
  obtain ⟨l, a1, a2, a3, a4, a5⟩ := h2 u hu
  obtain ⟨m', e, a6⟩ := runs_programs hp (fun i hi => (a2 i).1 hi) a5
  exact ⟨l, m', a1, a2, a3, a4, e, a6⟩

/-- **C67.** The pool is destroyed while the algorithms run: the destructor returns, and then they have all been executed completely, as if one after
another by one thread. -/
theorem C67_destroy_programs (hN : 0 < c.N) (hun : c.unit = true → c.N = 1) (hp : Fit K dep p)
    {r : Run (system c Par.body may K (fun i => task (p i)) dep (vals m))} (hf : r.Fair) {t : Nat} (hdt : (r.st t).dpc ≠ .alive) :
    ∃ t', t ≤ t' ∧ (r.st t').dpc = .gone ∧ ∃ (l : List (Nat × Except (Dat V E) Unit)) (m' : L → V), (l.map Prod.fst).Nodup ∧ (∀ i, i ∈ l.map Prod.fst ↔ i < K) ∧
      (∀ q ∈ l, Over (r.st t') q.1 q.2) ∧ l.Pairwise (fun q q' => ¬ dep q.1 q'.1) ∧ (r.st t').M.m = vals m' ∧ RunsP may m (l.map fun q => (p q.1, q.2)) m' := by
  obtain ⟨t', h1, h2⟩ := C67_destroyed Par.disc Par.pend_le (fun i _ => (Par.next_pend _).1) (fun i _ => ends_task _) hf hdt
  obtain ⟨l, a1, a2, a3, a4, a5⟩ := C67_drained Par.disc Par.pend_le (fun i _ => (Par.next_pend _).1) hN hun (raceFree hp) (run_reach r t') h2
  obtain ⟨m', e, a6⟩ := runs_programs hp (fun i hi => (a2 i).1 hi) a5
  exact ⟨t', h1, h2, l, m', a1, a2, a3, a4, e, a6⟩

/-! ### One call -/

theorem reachAny_ok {ok ok' : (T L V E → Prop) → T L V E → Prop} (hok : ∀ O y, ok O y → ok' O y) {M : L → Dat V E} {s : Mem.MS (T L V E) Unit (Dat V E) L}
    (h : ReachAny Par.body Par.pend may ok M s) : ReachAny Par.body Par.pend may ok' M s := by
  induction h with
  | start y => exact .start y
  | submit w _ h1 h2 ih => exact .submit w ih h1 (hok _ _ h2)
  | step _ h1 h2 ih => exact .step ih h1 h2

/-- One call, whose task is over: what C63 needs. -/
theorem single {q : Cmd L V E} (hq : Algo.RaceFree q) {s : B (T L V E) Unit (Dat V E) L}
    (h : Reach c Par.body may 1 (fun _ => task q) dep (vals m) s) {r : Except (Dat V E) Unit} (hb : Over s 0 r) :
    ReachAny Par.body Par.pend may Par.ok (vals m) s.M ∧ ∃ f, subs s.M.x.c.log = [(f, task q)] ∧ Ev.done f r ∈ s.M.x.c.log := by
  have hok : ∀ O y, Together 1 (fun _ => task q) dep O y → Par.ok O y := fun O y ⟨i, hi, e, hO⟩ => ⟨q, e, hq, fun c' hc' => by
    obtain ⟨j, hj, hne, _⟩ := hO c' hc'
    omega⟩
  refine ⟨reachAny_ok hok (C67_refines Par.disc Par.pend_le (fun i _ => (Par.next_pend _).1) h), ?_⟩
  · obtain ⟨fr, js, hcl⟩ := calls h
    obtain ⟨f, h1, h2⟩ := hb
    have hlate : early (s.caller 0) = false := by rcases h2 with e | e <;> rw [e] <;> rfl
    have e : js = [0] := by
      match js, hcl.nodup, hcl.mem with
      | [i], _, hm => have := ((hm i).1 (by simp)).1; have : i = 0 := by omega
                      rw [this]
      | i :: j :: l, hn, hm =>
        have h1 := ((hm i).1 (by simp)).1
        have h2 := ((hm j).1 (by simp)).1
        have : i = j := by omega
        simp [this] at hn
      | [], _, hm => exact absurd ((hm 0).2 ⟨by omega, hlate⟩) (by simp)
    refine ⟨fr 0, by rw [hcl.subs, e]; rfl, ?_⟩
    have : fr 0 = f := by
      rcases h2 with e | e
      · exact hcl.waiting 0 f e
      · exact (hcl.back 0 f r e).1
    rw [this]; exact h1

variable {g : V → Except E V} {n src dst len : Nat} {q : Algo.Prog V E} {M : Par.MemOf V}

/-- **C67, `lf::map`.** Scheduled on a pool that is then destroyed, or waited for, in any schedule: when the task is over without exception, output `i` is the
function of input `i`, for every `i`; if it threw, then what the function threw on one of the inputs, unless an allocation failed; and nothing but the output
was changed. -/
theorem C67_map (hn : 0 < n) (ha : Algo.SameOrApart src dst len) (hq : Algo.IsMap g n src dst len q) {s : B (T Algo.Loc V E) Unit (Dat V E) Algo.Loc}
    (h : Reach c Par.body may 1 (fun _ => task q) dep (vals M) s) {v : Except (Dat V E) Unit} (hb : Over s 0 v) :
    ∃ m' : Par.MemOf V, s.M.m = vals m' ∧ (v = .ok () → ∀ i < len, g (M (.cell (src + i))) = .ok (m' (.cell (dst + i)))) ∧
      (∀ d, v = .error d → (∃ e, may e) ∨ ∃ e, d = .exn e ∧ ∃ i < len, g (M (.cell (src + i))) = .error e) ∧
      ∀ l, (∀ i < len, l ≠ .cell (dst + i)) → m' l = M l := by
  obtain ⟨h3, f, h4, h5⟩ := single (Algo.isMap_all hn ha hq).1 h hb
  exact Par.C63_map hn ha hq h3 h4 h5

variable {proj : V → Except E V} {bop : V → V → Except E V} {head : Nat}

/-- **C67, `lf::fold`.** The same: the value of some bracketing of the projected elements, in order; if it threw, then what the projection of an element or the
combination of two adjacent sub-ranges threw, unless an allocation failed; no element is changed. -/
theorem C67_fold (hn : 0 < n) (hlen : 0 < len) (hq : Algo.foldTop proj bop n head len = some q) {s : B (T Algo.Loc V E) Unit (Dat V E) Algo.Loc}
    (h : Reach c Par.body may 1 (fun _ => task q) dep (vals M) s) {v : Except (Dat V E) Unit} (hb : Over s 0 v) :
    ∃ m' : Par.MemOf V, s.M.m = vals m' ∧ (v = .ok () → Algo.Bracketed proj bop (Algo.cells M head len) (m' .res)) ∧
      (∀ d, v = .error d → (∃ e, may e) ∨ ∃ e, d = .exn e ∧ Algo.Thrown proj bop (Algo.cells M head len) e) ∧ ∀ a, m' (.cell a) = M (.cell a) := by
  obtain ⟨h3, f, h4, h5⟩ := single (Par.fold_all hn hlen hq).2.1 h hb
  exact Par.C63_fold hn hlen hq h3 h4 h5

end Verif.Busy
