import Verif.Early.Calls
import Verif.Busy.Par

/-! C68 for the parallel algorithms. -/
namespace Verif.Early
open Verif.Busy (After Next)
open Verif.Mem (Act Foot)
open Verif.Algo (Cmd Run Reads Writes NoConflict)
open Verif.Par (T Dat RunsP task vals out)
open Verif.WholeM (Fit runs_programs)

section
variable {σ V E L : Type} {body : σ → Act σ V E L} {F : Foot σ L}

/-- What is within a footprint stays there. -/
theorem foot_after (hF : F.Ok body fun _ => True) {c z : σ} (hc : F.I c) (h : After body c z) : F.Less z c := by
  induction h with
  | refl => exact ⟨hc, fun _ h => h, fun _ h => h⟩
  | @next x y z h1 _ ih =>
    have key : F.Less y x → F.Less z x := fun hl => by
      have h2 := ih hl.I
      exact ⟨h2.I, fun l h => hl.R l (h2.R l h), fun l h => hl.W l (h2.W l h)⟩
    cases h1 with
    | child h => exact key (hF.fork _ _ _ _ hc h).1.toLess
    | fork b h => exact key ((hF.fork _ _ _ _ hc h).2.1 b).toLess
    | forkX e h => exact key ((hF.fork _ _ _ _ hc h).2.2.1 e trivial).toLess
    | callee h => exact key (hF.call _ _ _ _ hc h).1.toLess
    | call r h => exact key ((hF.call _ _ _ _ hc h).2.1 r).toLess
    | callX e h => exact key ((hF.call _ _ _ _ hc h).2.2 e trivial).toLess
    | join l h => exact key ((hF.join _ _ _ hc h).1 l)
    | joinX e l h => exact key ((hF.join _ _ _ hc h).2 e l)
    | switch h => exact key (hF.switch _ _ _ _ hc h).1.toLess
    | switchX e h => exact key ((hF.switch _ _ _ _ hc h).2 e trivial).toLess
    | load d h => exact key ((hF.load _ _ _ hc h).2.2 d).toLess
    | store h => exact key (hF.store _ _ _ _ hc h).2.2.2.2.toLess

theorem foot_spares (hF : F.Ok body fun _ => True) {c : σ} (hc : F.I c) {x : L} (hx : ¬ F.W c x) : Spares body x c := fun z hz d k e => by
  have h := foot_after hF hc hz
  exact hx (h.W x (hF.store z x d k h.I e).2.2.1)
end

variable {L V E : Type} [DecidableEq L] {may : Dat V E → Prop} {K : Nat} {dep : Nat → Nat → Prop} {p : Nat → Cmd L V E} {m : L → V}

/-- A program writes what it says it writes. -/
theorem spares {q : Cmd L V E} (hq : Algo.RaceFree q) {x : L} (hx : ¬ Writes q x) : Spares Par.body x (task q) := by
  have w := Par.within_task q hq
  exact foot_spares (Par.foot_ok _) w.I fun h => hx (w.W x h)

/-- A run depends on what is read only. -/
theorem run_agree {q : Cmd L V E} {m m' : L → V} {o : Algo.Out E} (h : Run q m o m') (S : L → Prop) :
    (∀ x, Reads q x → S x) → ∀ m2 : L → V, (∀ x, S x → m2 x = m x) → ∃ m2', Run q m2 o m2' ∧ ∀ x, S x → m2' x = m' x := by
  induction h with
  | halt => intro _ m2 h2; exact ⟨m2, .halt, h2⟩
  | @atomOk w k rs f m v h =>
    intro hS m2 h2
    refine ⟨_, .atomOk (v := v) ?_, fun x hx => ?_⟩
    · rw [← h]; congr 1; funext i; exact h2 _ (hS _ ⟨i, rfl⟩)
    · simp only [Algo.upd]; split
      · rfl
      · exact h2 x hx
  | @atomErr w k rs f m e h =>
    intro hS m2 h2
    refine ⟨_, .atomErr (e := e) ?_, h2⟩
    rw [← h]; congr 1; funext i; exact h2 _ (hS _ ⟨i, rfl⟩)
  | seqOk _ _ ih1 ih2 =>
    intro hS m2 h2
    obtain ⟨m3, h3, h4⟩ := ih1 (fun x hx => hS x (.inl hx)) m2 h2
    obtain ⟨m4, h5, h6⟩ := ih2 (fun x hx => hS x (.inr hx)) m3 h4
    exact ⟨m4, .seqOk h3 h5, h6⟩
  | seqAbort _ ho ih1 =>
    intro hS m2 h2
    obtain ⟨m3, h3, h4⟩ := ih1 (fun x hx => hS x (.inl hx)) m2 h2
    exact ⟨m3, .seqAbort h3 ho, h4⟩
  | par _ _ hj ih1 ih2 =>
    intro hS m2 h2
    obtain ⟨m3, h3, h4⟩ := ih1 (fun x hx => hS x (.inl hx)) m2 h2
    obtain ⟨m4, h5, h6⟩ := ih2 (fun x hx => hS x (.inr hx)) m3 h4
    exact ⟨m4, .par h3 h5 hj, h6⟩

/-- Programs that do not write in `A` leave it as it is. -/
theorem runsP_others {A : L → Prop} {l : List (Cmd L V E × Except (Dat V E) Unit)} {m m1 : L → V} (h : RunsP may m l m1) :
    (∀ u ∈ l, ∀ x, A x → ¬ Writes u.1 x) → ∀ x, A x → m1 x = m x := by
  induction h with
  | nil => exact fun _ _ _ => rfl
  | cons _ h2 _ ih =>
    intro hq x hx
    rw [ih (fun u hu => hq u (List.mem_cons_of_mem _ hu)) x hx]
    exact h2 x (hq _ (List.mem_cons_self ..) x hx)

theorem runsP_alone {i : Nat} {r : Except (Dat V E) Unit} {A : L → Prop} (hA : ∀ x, Reads (p i) x → A x) :
    ∀ {l : List (Nat × Except (Dat V E) Unit)} {m m1 : L → V},
    RunsP may m (l.map fun q => (p q.1, q.2)) m1 → (l.map Prod.fst).Nodup → (i, r) ∈ l → (∀ q ∈ l, q.1 ≠ i → ∀ x, A x → ¬ Writes (p q.1) x) →
    ∃ m', (Run (p i) m (out r) m' ∨ ((∃ e, may e) ∧ ∃ e, r = .error e)) ∧ ∀ x, A x → m1 x = m' x := by
  intro l
  induction l with
  | nil => intro m m1 _ _ h; cases h
  | cons q l ih =>
    intro m m1 h hn hi hq
    simp only [List.map_cons, List.nodup_cons] at hn
    cases h with
    | @cons _ m2 _ _ _ _ h1 h2 h3 =>
    rcases List.mem_cons.1 hi with e | hi'
    · subst e
      have h4 := runsP_others (A := A) h3 fun u hu => by
        obtain ⟨v, hv, rfl⟩ := List.mem_map.1 hu
        refine hq v (List.mem_cons_of_mem _ hv) fun e => hn.1 ?_
        simp only [← e]; exact List.mem_map_of_mem (f := Prod.fst) hv
      exact ⟨m2, h1, h4⟩
    · have hne : q.1 ≠ i := fun e => hn.1 (by rw [e]; exact List.mem_map_of_mem (f := Prod.fst) hi')
      obtain ⟨m', h4, h5⟩ := ih h3 hn.2 hi' fun q hq' => hq q (List.mem_cons_of_mem _ hq')
      have h6 : ∀ x, A x → m x = m2 x := fun x hx => (h2 x (hq q (List.mem_cons_self ..) hne x hx)).symm
      rcases h4 with h4 | h4
      · obtain ⟨m3, h7, h8⟩ := run_agree h4 A hA m h6
        exact ⟨m3, .inl h7, fun x hx => (h5 x hx).trans (h8 x hx).symm⟩
      · exact ⟨m', .inr h4, h5⟩

/-! ### `schedule` on a `busy_pool` or `unit_pool` -/

/-- **C68.** Algorithms scheduled on a pool, at any time in any schedule: those that are over (`l`) have the results they have when run one after another by one thread, in an
order that respects that of the calls, and so has every location that none of those that still run writes. -/
theorem C68_schedule_programs {c : Pool.Cfg} (hp : Fit K dep p) {s : Busy.B (T L V E) Unit (Dat V E) L}
    (h : Busy.Reach c Par.body may K (fun i => task (p i)) dep (vals m) s) :
    ∃ (l : List (Nat × Except (Dat V E) Unit)) (m' : L → V), (l.map Prod.fst).Nodup ∧ (∀ i r, (i, r) ∈ l ↔ Busy.Over s i r) ∧
      l.Pairwise (fun q q' => ¬ dep q.1 q'.1) ∧ RunsP may m (l.map fun q => (p q.1, q.2)) m' ∧
      ∀ x, (∀ i, i < K → s.caller i ≠ .before → (∀ r, ¬ Busy.Over s i r) → ¬ Writes (p i) x) → s.M.m x = .val (m' x) := by
  obtain ⟨l, m1, h1, h2, h3, h4, h5⟩ := C68_schedule Par.disc Par.pend_le (fun i _ => (Par.next_pend _).1) (Busy.raceFree hp) h
  obtain ⟨fr, js, hcl⟩ := Busy.calls h
  have hlt : ∀ i r, (i, r) ∈ l → i < K ∧ s.caller i ≠ .before := fun i r hi => by
    obtain ⟨f, _, e | e⟩ := (h2 i r).1 hi <;> exact ⟨hcl.lt i (by rw [e]; simp), by rw [e]; simp⟩
  obtain ⟨m', rfl, h6⟩ := runs_programs hp (fun i hi => by obtain ⟨q, hq, rfl⟩ := List.mem_map.1 hi; exact (hlt _ _ hq).1) h4
  exact ⟨l, m', h1, h2, h3, h6, fun x hx => h5 x fun i hi hb hn => spares (hp.free i hi) (hx i hi hb hn)⟩

/-- **C68.** A program of which no other that has been scheduled so far writes what it reads (`A`: that, and any other locations none of them writes): when it is over, its result
is, and at `A` memory is, what it is when the program is run alone by one thread, whether or not the others still run. -/
theorem C68_schedule_alone {c : Pool.Cfg} (hp : Fit K dep p) {s : Busy.B (T L V E) Unit (Dat V E) L}
    (h : Busy.Reach c Par.body may K (fun i => task (p i)) dep (vals m) s) {i : Nat} {r : Except (Dat V E) Unit} (hb : Busy.Over s i r)
    {A : L → Prop} (hA : ∀ x, Reads (p i) x → A x) (hno : ∀ j, j < K → j ≠ i → s.caller j ≠ .before → ∀ x, A x → ¬ Writes (p j) x) :
    ∃ m', (Run (p i) m (out r) m' ∨ ((∃ e, may e) ∧ ∃ e, r = .error e)) ∧ ∀ x, A x → s.M.m x = .val (m' x) := by
  obtain ⟨l, m1, h1, h2, h3, h4, h5⟩ := C68_schedule_programs hp h
  obtain ⟨fr, js, hcl⟩ := Busy.calls h
  have hlt : ∀ i r, Busy.Over s i r → i < K ∧ s.caller i ≠ .before := fun i r hi => by
    obtain ⟨f, _, e | e⟩ := hi <;> exact ⟨hcl.lt i (by rw [e]; simp), by rw [e]; simp⟩
  obtain ⟨m', h6, h7⟩ := runsP_alone hA h4 h1 ((h2 i r).2 hb) fun q hq hne => by
    obtain ⟨e1, e2⟩ := hlt q.1 q.2 ((h2 q.1 q.2).1 hq)
    exact hno q.1 e1 hne e2
  refine ⟨m', h6, fun x hx => ?_⟩
  rw [h5 x fun j hj hb' hn => hno j hj (by rintro rfl; exact hn r hb) hb' x hx, h7 x hx]

/-! ### `sync_wait` on a `lazy_pool` -/

/-- **C68.** The same for `sync_wait` on a `lazy_pool`, at any time. -/
theorem C68_sync_wait_programs {c : LazyPool.Cfg} (hc : c.Ok) (hp : Fit K dep p) {s : WholeM.Y (T L V E) Unit (Dat V E) L}
    (h : WholeM.Reach c Par.body may K (fun i => task (p i)) dep (vals m) s) :
    ∃ (l : List (Nat × Except (Dat V E) Unit)) (m' : L → V), (l.map Prod.fst).Nodup ∧ (∀ i r, s.x.caller i = .back r → (i, r) ∈ l) ∧
      (∀ q ∈ l, q.1 < K ∧ s.x.caller q.1 ≠ .before ∧ ∀ r, s.x.caller q.1 = .back r → r = q.2) ∧ l.Pairwise (fun q q' => ¬ dep q.1 q'.1) ∧
      RunsP may m (l.map fun q => (p q.1, q.2)) m' ∧
      ∀ x, (∀ i, i < K → s.x.caller i ≠ .before → (∀ r, s.x.caller i ≠ .back r) → ¬ Writes (p i) x) → s.m x = .val (m' x) := by
  obtain ⟨l, m1, h1, h2, h3, h3', h4, h5⟩ := C68_sync_wait hc Par.disc Par.pend_le (fun i _ => (Par.next_pend _).1) (WholeM.raceFree hp) h
  obtain ⟨m', rfl, h6⟩ := runs_programs hp (fun i hi => by obtain ⟨q, hq, rfl⟩ := List.mem_map.1 hi; exact (h3 q hq).1) h4
  exact ⟨l, m', h1, h2, h3, h3', h6, fun x hx => h5 x fun i hi hb hn => spares (hp.free i hi) (hx i hi hb hn)⟩

/-- **C68.** And when a call of `sync_wait` has returned. -/
theorem C68_sync_wait_alone {c : LazyPool.Cfg} (hc : c.Ok) (hp : Fit K dep p) {s : WholeM.Y (T L V E) Unit (Dat V E) L}
    (h : WholeM.Reach c Par.body may K (fun i => task (p i)) dep (vals m) s) {i : Nat} {r : Except (Dat V E) Unit} (hb : s.x.caller i = .back r)
    {A : L → Prop} (hA : ∀ x, Reads (p i) x → A x) (hno : ∀ j, j < K → j ≠ i → s.x.caller j ≠ .before → ∀ x, A x → ¬ Writes (p j) x) :
    ∃ m', (Run (p i) m (out r) m' ∨ ((∃ e, may e) ∧ ∃ e, r = .error e)) ∧ ∀ x, A x → s.m x = .val (m' x) := by
  obtain ⟨l, m1, h1, h2, h3, h3', h4, h5⟩ := C68_sync_wait_programs hc hp h
  obtain ⟨m', h6, h7⟩ := runsP_alone hA h4 h1 (h2 i r hb) fun q hq hne => hno q.1 (h3 q hq).1 hne (h3 q hq).2.1
  refine ⟨m', h6, fun x hx => ?_⟩
  rw [h5 x fun j hj hb' hn => hno j hj (by rintro rfl; exact hn r hb) hb' x hx, h7 x hx]

end Verif.Early
