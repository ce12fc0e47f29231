import Verif.Busy.Example
import Verif.WholeM.Example
import Verif.Early.Algo

/-!
Executions that meet the hypotheses of the theorems of Verif.Early: two folds, each with its own range and result, called at the same time; the first is over while the second is being
executed. On a `busy_pool` and on a `lazy_pool` of two workers.
-/
namespace Verif.Early.Example
open Verif.Par (T Dat task vals fold3 fold3_eq fold3_free mem3)
open Verif.WholeM (Fit no_switch)

deriving instance DecidableEq for Par.Dat

abbrev D := Dat (List Nat) Nat
/-- The locations of each call. -/
abbrev L2 := Nat × Algo.Loc

def progs (i : Nat) : Algo.Cmd L2 (List Nat) Nat := place (fun x => (i, x)) fold3
def mem : L2 → List Nat := fun x => mem3 x.2

/-- No call waits for another. -/
def after : Nat → List Nat := fun _ => []

theorem inj (i : Nat) : ∀ x y : Algo.Loc, (i, x) = (i, y) → x = y := fun _ _ h => (Prod.mk.inj h).2

theorem spare {i j : Nat} (h : i ≠ j) {x : L2} (hx : x.1 = i) : ¬ Algo.Writes (progs j) x := fun hw => by
  obtain ⟨y, rfl, _⟩ := writes_place.1 hw
  exact h hx.symm

theorem reads_own {i : Nat} {x : L2} (h : Algo.Reads (progs i) x) : x.1 = i := by
  obtain ⟨y, rfl, _⟩ := reads_place.1 h; rfl
theorem writes_own {i : Nat} {x : L2} (h : Algo.Writes (progs i) x) : x.1 = i := by
  obtain ⟨y, rfl, _⟩ := writes_place.1 h; rfl

/-- Any number of them do not conflict. -/
theorem fit (K : Nat) : Fit K (fun _ _ => False) progs where
  free i _ := free_place (inj i) fold3_free
  apart i j _ _ hne _ _ := ⟨fun l hl => ⟨fun h => hne ((writes_own hl).symm.trans (reads_own h)), fun h => hne ((writes_own hl).symm.trans (writes_own h))⟩,
    fun l hl h => hne ((reads_own h).symm.trans (writes_own hl))⟩
  noub i _ m m' h := ((Par.fold_all (by omega) (by omega) fold3_eq).2.2 _ _ _ (run_place (inj i) h)).noub rfl

/-! ### On a `busy_pool` -/
section Busy
open Verif.Busy

theorem dep_none : depOf after = fun _ _ => False := by funext i j; simp [depOf, after]

/-- The first fold is submitted to worker 0 and the second to worker 1; the second has just begun (it has forked one part) when the first call returns. -/
@[irreducible] def early : List Move := Busy.Example.calls 0 0 ++ Busy.Example.calls 1 1 ++ Busy.Example.steps 1 6 ++ Busy.Example.steps 0 60 ++ [{ a := .caller 0 }]

abbrev bend : B (T L2 (List Nat) Nat) Unit D L2 := fin Busy.Example.busy2 Par.body 2 (fun i => task (progs i)) after (vals mem) .ret early

theorem bend_at : Busy.Example.isBack (bend.caller 0) = true ∧ Busy.Example.isWaiting (bend.caller 1) = true ∧ bend.M.x.c.pc 1 = .run 2 ∧
    bend.M.m (0, .res) = .val [0, 1, 2] ∧ bend.M.m (1, .res) = .val [] := by decide +kernel

theorem bend_reach : Reach Busy.Example.busy2 Par.body (fun _ : D => False) 2 (fun i => task (progs i)) (fun _ _ => False) (vals mem) bend := by
  have := run_reach (Script.run Busy.Example.busy2 2 (fun i => task (progs i)) after no_switch (fun _ => False) (vals mem) .ret early) early.length
  have e : (Script.run Busy.Example.busy2 2 (fun i => task (progs i)) after no_switch (fun _ => False) (vals mem) .ret early).st early.length = bend := by
    show Fair.play _ _ _ _ = _
    unfold Fair.play
    rw [List.take_length]; rfl
  rw [e] at this
  rwa [dep_none] at this

/-- C68: the hypotheses of `C68_schedule_fold` (and of those it is proved from) are met in the middle of the other fold. -/
example : bend.M.x.c.pc 1 = .run 2 ∧ FoldDone (fun _ : D => False) Par.idt Par.cat 0 3 mem3 (.ok ()) fun x => bend.M.m (0, x) := by
  obtain ⟨f, e⟩ := Busy.Example.isBack_eq bend_at.1
  obtain ⟨fr, js, hcl⟩ := Busy.calls bend_reach
  refine ⟨bend_at.2.2.1, C68_schedule_fold (p := progs) (ι := fun x => (0, x)) (fit 2) bend_reach ⟨f, (hcl.back 0 f _ e).2, .inr e⟩ (by omega) (by omega) fold3_eq (inj 0) rfl
    fun j _ hne _ x hx => ?_⟩
  refine spare (i := 0) (fun h => hne h.symm) ?_
  rcases hx with hx | rfl
  · exact reads_own hx
  · rfl

/-- Those of `C68_schedule_programs`, and what it says then: only the first fold is over, and everything that is not the second's is as after the first. -/
example : ∃ l, l = [((0 : Nat), (Except.ok () : Except D Unit))] ∧ ∃ m', Par.RunsP (fun _ : D => False) mem (l.map fun q => (progs q.1, q.2)) m' ∧
    ∀ x : L2, x.1 ≠ 1 → bend.M.m x = .val (m' x) := by
  obtain ⟨l, m', h1, h2, _, h4, h5⟩ := C68_schedule_programs (fit 2) bend_reach
  obtain ⟨f, e⟩ := Busy.Example.isBack_eq bend_at.1
  obtain ⟨fr, js, hcl⟩ := Busy.calls bend_reach
  obtain ⟨f1, e1⟩ := Busy.Example.isWaiting_eq bend_at.2.1
  have h0 : Over bend 0 (.ok ()) := ⟨f, (hcl.back 0 f _ e).2, .inr e⟩
  have no1 : ∀ r, ¬ Over bend 1 r := by
    rintro r ⟨g, hg, h | h⟩
    · rw [e1] at h
      cases h
      have : ((bend.M.x.c.log.any fun v => match v with | .done g _ => g == 1 | _ => false) = false) ∧ (match bend.caller 1 with | .waiting g => g == 1 | _ => false) = true := by decide +kernel
      rw [e1] at this
      have h6 := List.any_eq_false.1 this.1 _ hg
      simp only [beq_iff_eq] at this h6
      exact h6 this.2
    · rw [e1] at h; cases h
  have hm : ∀ q ∈ l, q = (0, .ok ()) := by
    rintro ⟨i, r⟩ hq
    have ho := (h2 i r).1 hq
    have hi : i < 2 := by obtain ⟨g, _, h | h⟩ := ho <;> exact hcl.lt i (by rw [h]; simp)
    have : i = 0 ∨ i = 1 := by omega
    rcases this with rfl | rfl
    · obtain ⟨g, hg, h | h⟩ := ho
      · rw [e] at h; cases h
      · rw [e] at h; cases h; rfl
    · exact absurd ho (no1 r)
  have hl : l = [(0, .ok ())] := by
    have hin := (h2 0 _).2 h0
    match l, h1, hm, hin with
    | [q], _, hm, _ => rw [hm q (List.mem_singleton_self q)]
    | q :: q' :: l', h1, hm, _ =>
      rw [hm q (List.mem_cons_self ..), hm q' (List.mem_cons_of_mem _ (List.mem_cons_self ..))] at h1
      simp at h1
  refine ⟨l, hl, m', h4, fun x hx => h5 x fun i hi _ hno => ?_⟩
  have : i = 0 ∨ i = 1 := by omega
  rcases this with rfl | rfl
  · exact absurd h0 (hno _)
  · exact fun hw => hx (writes_own hw)

/-- The first call copies three cells, the second folds. -/
def mixed : Nat → Algo.Cmd L2 (List Nat) Nat
  | 0 => place (fun x => (0, x)) (Algo.mapOne Par.idt 0 5 3)
  | i + 1 => progs (i + 1)

theorem copy3 : Algo.mapOne Par.idt 0 5 3 = .par (.atom1 (.cell 5) (.cell 0) Par.idt) (.par (.atom1 (.cell 6) (.cell 1) Par.idt) (.atom1 (.cell 7) (.cell 2) Par.idt)) := by
  simp [Algo.mapOne]

theorem copy3_all : Algo.RaceFree (Algo.mapOne Par.idt 0 5 3) ∧ ∀ (m : Algo.Loc → List Nat) (o : Algo.Out Nat) (m' : Algo.Loc → List Nat), Algo.Run (Algo.mapOne Par.idt 0 5 3) m o m' → o ≠ .ub := by
  obtain ⟨h1, h2⟩ := Algo.isMap_all (n := 1) (by omega) (.inr (.inl (by omega))) (.unchunked (g := Par.idt) (src := 0) (dst := 5) (len := 3))
  exact ⟨h1, fun m o m' h => (h2 m o m' h).noub⟩

theorem mixed_own {i : Nat} {x : L2} (h : Algo.Reads (mixed i) x ∨ Algo.Writes (mixed i) x) : x.1 = i := by
  cases i with
  | zero =>
    rcases h with h | h
    · obtain ⟨y, rfl, _⟩ := reads_place.1 h; rfl
    · obtain ⟨y, rfl, _⟩ := writes_place.1 h; rfl
  | succ i =>
    rcases h with h | h
    · exact reads_own h
    · exact writes_own h

theorem fit_mixed : Fit 2 (fun _ _ => False) mixed where
  free i hi := match i with
    | 0 => free_place (inj 0) copy3_all.1
    | i + 1 => (fit 2).free (i + 1) hi
  apart i j _ _ hne _ _ := ⟨fun l hl => ⟨fun h => hne ((mixed_own (.inr hl)).symm.trans (mixed_own (.inl h))), fun h => hne ((mixed_own (.inr hl)).symm.trans (mixed_own (.inr h)))⟩,
    fun l hl h => hne ((mixed_own (.inl h)).symm.trans (mixed_own (.inr hl)))⟩
  noub i hi m m' h := match i with
    | 0 => copy3_all.2 _ _ _ (run_place (inj 0) h) rfl
    | i + 1 => (fit 2).noub (i + 1) hi m m' h

/-- The tasks, in a form the kernel evaluates. -/
def roots : Nat → T L2 (List Nat) Nat
  | 0 => task (place (fun x => (0, x)) (.par (.atom1 (.cell 5) (.cell 0) Par.idt) (.par (.atom1 (.cell 6) (.cell 1) Par.idt) (.atom1 (.cell 7) (.cell 2) Par.idt))))
  | i + 1 => task (progs (i + 1))

theorem roots_eq : (fun i => task (mixed i)) = roots := by
  funext i
  cases i with
  | zero => show task (place _ (Algo.mapOne Par.idt 0 5 3)) = _; rw [copy3]; rfl
  | succ i => rfl

abbrev mend : B (T L2 (List Nat) Nat) Unit D L2 := fin Busy.Example.busy2 Par.body 2 roots after (vals mem) .ret early

theorem mend_at : Busy.Example.isBack (mend.caller 0) = true ∧ mend.M.x.c.pc 1 = .run 2 ∧ mend.M.m (0, .cell 7) = .val [2] ∧ mend.M.m (1, .res) = .val [] := by decide +kernel

theorem mend_reach : Reach Busy.Example.busy2 Par.body (fun _ : D => False) 2 (fun i => task (mixed i)) (fun _ _ => False) (vals mem) mend := by
  rw [roots_eq]
  have := run_reach (Script.run Busy.Example.busy2 2 roots after no_switch (fun _ => False) (vals mem) .ret early) early.length
  have e : (Script.run Busy.Example.busy2 2 roots after no_switch (fun _ => False) (vals mem) .ret early).st early.length = mend := by
    show Fair.play _ _ _ _ = _
    unfold Fair.play
    rw [List.take_length]; rfl
  rw [e] at this
  rwa [dep_none] at this

/-- C68: the hypotheses of `C68_schedule_map` are met in the middle of a fold. -/
example : mend.M.x.c.pc 1 = .run 2 ∧ MapDone (fun _ : D => False) Par.idt 0 5 3 mem3 (.ok ()) fun x => mend.M.m (0, x) := by
  obtain ⟨f, e⟩ := Busy.Example.isBack_eq mend_at.1
  obtain ⟨fr, js, hcl⟩ := Busy.calls mend_reach
  refine ⟨mend_at.2.1, C68_schedule_map (p := mixed) (ι := fun x => (0, x)) (n := 1) fit_mixed mend_reach ⟨f, (hcl.back 0 f _ e).2, .inr e⟩ (by omega) (.inr (.inl (by omega)))
    .unchunked (inj 0) rfl fun j _ hne _ x hx hw => hne ?_⟩
  rw [← mixed_own (.inr hw)]
  obtain ⟨k, _, rfl | rfl⟩ := hx <;> rfl

end Busy

/-! ### On a `lazy_pool` -/
section Lazy
open Verif.WholeM
open Verif.LazyPool.Example (two two_ok)
open Verif.WholeX (Move)

theorem dep_none' : depOf after = fun _ _ => False := by funext i j; simp [depOf, after]

@[irreducible] def early' : List (Move D) :=
  WholeM.Example.steps 0 9 ++ WholeM.Example.steps 1 9 ++ WholeM.Example.calls 0 0 ++ WholeM.Example.calls 1 1 ++ WholeM.Example.steps 1 14 ++ WholeM.Example.steps 0 80 ++
    [{ a := .caller 0 }]

abbrev lend : Y (T L2 (List Nat) Nat) Unit D L2 := fin two Par.body 2 (fun i => task (progs i)) after (vals mem) .ret early'

theorem lend_at : WholeM.Example.isBack (lend.x.caller 0) = true ∧ lend.x.x.c.pc 1 = .run 2 ∧
    lend.m (0, .res) = .val [0, 1, 2] ∧ lend.m (1, .res) = .val [] := by decide +kernel

theorem lend_reach : Reach two Par.body (fun _ : D => False) 2 (fun i => task (progs i)) (fun _ _ => False) (vals mem) lend := by
  have hs : early'.length < EventCount.P32 := by unfold EventCount.P32; exact of_decide_eq_true (by decide +kernel)
  have := run_reach (Script.run two Par.body 2 (fun i => task (progs i)) after (fun _ => False) (vals mem) .ret early') (run_few T.ret early' hs) early'.length
  have e : (Script.run two Par.body 2 (fun i => task (progs i)) after (fun _ => False) (vals mem) .ret early').st early'.length = lend := by
    show Fair.play _ _ _ _ = _
    unfold Fair.play
    rw [List.take_length]; rfl
  rw [e] at this
  rwa [dep_none'] at this

/-- C68: the hypotheses of `C68_sync_wait_fold` (and of those it is proved from) are met in the middle of the other fold. -/
example : lend.x.x.c.pc 1 = .run 2 ∧ FoldDone (fun _ : D => False) Par.idt Par.cat 0 3 mem3 (.ok ()) fun x => lend.m (0, x) := by
  refine ⟨lend_at.2.1, C68_sync_wait_fold (p := progs) (ι := fun x => (0, x)) two_ok (fit 2) lend_reach (WholeM.Example.isBack_eq lend_at.1) (by omega) (by omega) fold3_eq (inj 0) rfl
    fun j _ hne _ x hx => ?_⟩
  refine spare (i := 0) (fun h => hne h.symm) ?_
  rcases hx with hx | rfl
  · exact reads_own hx
  · rfl

end Lazy
end Verif.Early.Example
