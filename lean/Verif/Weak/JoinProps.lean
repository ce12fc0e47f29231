import Verif.Weak.JoinInv

/-!
C43: what the join guarantees under the C++ memory model. The statements use only the state and the steps of
`Weak/JoinModel.lean`: what a thread knows is `TV.cur`, where threads are is `ppc`, `cpc`.
-/
namespace Verif.Weak.Join

/-- Executions from `s` to `s'` in which the task does not leave the join in between: every state before the last one has
`ppc ≠ .ready`. -/
inductive Scope : St → St → Prop where
  | refl (s : St) : Scope s s
  | step {s s' s''} : Scope s s' → s'.ppc ≠ .ready → Step s' s'' → Scope s s''

theorem Scope.reach {s s' : St} (h : Scope s s') (r : Reach s) : Reach s' := by
  induction h with
  | refl => exact r
  | step _ _ st ih => exact .step ih st

/-- A child of the scope remains one until the task has joined. -/
theorem mem_step {s s' : St} (st : Step s s') (hn : s.ppc ≠ .ready) (i : Nat) (hi : i ∈ s.live ∨ i ∈ s.fin) :
    i ∈ s'.live ∨ i ∈ s'.fin := by
  cases st <;> try exact hi
  case fork j _ _ _ => exact hi.imp (List.mem_cons_of_mem _) id
  case dec j _ =>
    rcases hi with hi | hi
    · by_cases e : i = j
      · subst e; exact .inr List.mem_cons_self
      · exact .inl ((List.mem_erase_of_ne e).2 hi)
    · exact .inr (List.mem_cons_of_mem _ hi)
  case reset hp _ => exact absurd hp hn

theorem Scope.mem {s s' : St} (h : Scope s s') (i : Nat) (hi : i ∈ s.live ∨ i ∈ s.fin) : i ∈ s'.live ∨ i ∈ s'.fin := by
  induction h with
  | refl => exact hi
  | step _ hn st ih => exact mem_step st hn i ih

/-- What a child knows after it has arrived at the join does not change any more until the task goes on. -/
theorem ready_live {s : St} (r : Reach s) (h : s.ppc = .ready) : s.live = [] := (inv_reach r).1.over (.inr h)

/-- **C43, visibility.** Take any reachable state in which the task is in its body and child `i` has just been forked, and any
execution from there up to a moment when the task's join is complete. Then the child has arrived, and the thread on which the
task is about to go on knows everything that the child knew when it arrived; it also still knows everything the task knew when it
arrived at the join. -/
theorem join_visible {s s' : St} {i : Nat} (r : Reach s) (hi : s.cpc i = .run) (h : Scope s s') (hr : s'.ppc = .ready) :
    s'.cpc i = .done ∧ (∀ l, (s'.ctv i).cur l ≤ s'.ptv.cur l) ∧ ∀ l, s'.pold l ≤ s'.ptv.cur l := by
  have r' := h.reach r
  obtain ⟨a, -, -, b⟩ := inv_reach r'
  have hm := h.mem i (.inl (((inv_reach r).1.live i).2 hi))
  have hl := a.over (.inr hr)
  rw [hl] at hm
  replace hm : i ∈ s'.fin := by simpa using hm
  refine ⟨(a.fins i hm).resolve_left fun e => ?_, (b.ready hr).1 i hm, (b.ready hr).2⟩
  have := (a.last i e).2.1
  rw [hr] at this; cases this

/-- The view `pold` in `join_visible` is the view the task had when it arrived. -/
theorem pold_is {s s' : St} (r : Reach s) (st : Step s s') (hb : s.ppc = .body) (hb' : s'.ppc ≠ .body) :
    s'.pold = s.ptv.cur := by
  cases st <;> first | rfl | (exact absurd hb hb') | (simp_all; done) | skip
  case win i hi =>
    have := ((inv_reach r).1.last i hi).2.1
    rw [hb] at this; cases this

/-- What the task knows, or knew when it arrived at the join. -/
def St.tview (s : St) : View Loc := if s.ppc = .body then s.ptv.cur else s.pold

/-- The last write to a cell is known to the task or to a child of the scope. -/
def IC (s : St) : Prop := ∀ n, s.mem.last (.data n) ≤ s.tview (.data n) ∨
  ∃ i, (i ∈ s.live ∨ i ∈ s.fin) ∧ s.mem.last (.data n) ≤ (s.ctv i).cur (.data n)

theorem last_store (m : Mem Loc) (tv : TV Loc) (n k : Nat) (v : Int) (b : Bool) :
    (m.store tv (.data n) v b).last (.data k) = if k = n then m.len (.data n) else m.last (.data k) := by
  by_cases e : k = n
  · subst e; simp [Mem.last, Mem.store, Mem.append]
  · simp [Mem.last, Mem.store, Mem.append, e]

theorem IC.step {s s' : St} (a : IA s) (b : IB s) (h : IC s) (st : Step s s') : IC s' := by
  cases st
  case pwrite n v hp hk =>
    intro k
    show (s.mem.store s.ptv (.data n) v false).last (.data k) ≤ _ ∨ ∃ i, _ ∧ (s.mem.store s.ptv (.data n) v false).last (.data k) ≤ _
    rw [last_store]
    by_cases e : k = n
    · subst e; left; simp [St.tview, hp, TV.bump]
    · simp only [e, if_false]
      refine (h k).imp (fun h => ?_) id
      simpa [St.tview, hp, TV.bump, e] using h
  case psync w hp hv =>
    intro k
    refine (h k).imp (fun h => ?_) id
    simp only [St.tview, hp, if_true, learn, Weak.join] at h ⊢
    show s.mem.last _ ≤ _
    omega
  case fork i hp hu hn =>
    intro k
    refine (h k).imp id ?_
    rintro ⟨j, hj, hl⟩
    have hji : j ≠ i := by
      rintro rfl
      rcases hj with hj | hj
      · have := (a.live _).1 hj; rw [hu] at this; cases this
      · have := a.fins _ hj; rw [hu] at this; rcases this with e | e <;> cases e
    refine ⟨j, hj.imp (List.mem_cons_of_mem _) id, ?_⟩
    show _ ≤ (upd s.ctv i _ j).cur _
    rw [upd_ne _ _ hji]; exact hl
  case cwrite i n v hp hk =>
    intro k
    show (s.mem.store (s.ctv i) (.data n) v false).last (.data k) ≤ _ ∨
      ∃ i', _ ∧ (s.mem.store (s.ctv i) (.data n) v false).last (.data k) ≤ _
    rw [last_store]
    by_cases e : k = n
    · subst e; right
      refine ⟨i, .inl ((a.live i).2 hp), ?_⟩
      show _ ≤ (upd s.ctv i _ i).cur _
      rw [upd_same]; simp [TV.bump]
    · simp only [e, if_false]
      refine (h k).imp id ?_
      rintro ⟨j, hj, hl⟩
      refine ⟨j, hj, ?_⟩
      show _ ≤ (upd s.ctv i _ j).cur _
      by_cases ej : j = i
      · subst ej; rw [upd_same]; simpa [TV.bump, e] using hl
      · rw [upd_ne _ _ ej]; exact hl
  case csync i w hp hv =>
    intro k
    refine (h k).imp id ?_
    rintro ⟨j, hj, hl⟩
    refine ⟨j, hj, ?_⟩
    show _ ≤ (upd s.ctv i _ j).cur _
    by_cases ej : j = i
    · subst ej; rw [upd_same]; simp only [learn, Weak.join]; show s.mem.last _ ≤ _; omega
    · rw [upd_ne _ _ ej]; exact hl
  case dec i hp =>
    intro k
    have hlast : (s.mem.rmwRel (s.ctv i) .join (s.mem.val .join (s.mem.last .join) - 1)).last (.data k) = s.mem.last (.data k) := by
      simp [Mem.last, Mem.rmwRel, Mem.append]
    show Mem.last (Mem.rmwRel _ _ _ _) _ ≤ _ ∨ ∃ i', _ ∧ Mem.last (Mem.rmwRel _ _ _ _) _ ≤ _
    rw [hlast]
    refine (h k).imp id ?_
    rintro ⟨j, hj, hl⟩
    by_cases ej : j = i
    · subst ej
      refine ⟨j, .inr List.mem_cons_self, ?_⟩
      show _ ≤ (upd s.ctv j _ j).cur _
      rw [upd_same]
      have hd : Loc.data k ≠ Loc.join := nofun
      simp only [TV.rmwRel, TV.bump, TV.read, if_neg hd]
      omega
    · refine ⟨j, hj.imp (fun hj => (List.mem_erase_of_ne ej).2 hj) (List.mem_cons_of_mem _), ?_⟩
      show _ ≤ (upd s.ctv i _ j).cur _
      rw [upd_ne _ _ ej]; exact hl
  case win i hp =>
    have hpk := (a.last i hp).2.1
    intro k
    refine (h k).imp (fun h => ?_) id
    simpa [St.tview, hpk] using h
  case ready0 hp h0 =>
    intro k
    refine (h k).imp (fun h => ?_) id
    simpa [St.tview, hp] using h
  case await hp h0 =>
    intro k
    refine (h k).imp (fun h => ?_) id
    simpa [St.tview, hp] using h
  case check j hp hr =>
    intro k
    refine (h k).imp (fun h => ?_) id
    simp only [St.tview, hp] at h ⊢
    rw [if_neg nofun] at h
    split <;> (rw [if_neg nofun]; exact h)
  case susp hp =>
    intro k
    have hlast : (s.mem.rmwRel s.ptv .join (s.mem.val .join (s.mem.last .join) - (kMax - s.steals))).last (.data k) =
        s.mem.last (.data k) := by
      simp [Mem.last, Mem.rmwRel, Mem.append]
    show Mem.last (Mem.rmwRel _ _ _ _) _ ≤ _ ∨ ∃ i', _ ∧ Mem.last (Mem.rmwRel _ _ _ _) _ ≤ _
    rw [hlast]
    refine (h k).imp (fun h => ?_) id
    simp only [St.tview, hp] at h ⊢
    rw [if_neg nofun] at h
    split <;> (rw [if_neg nofun]; exact h)
  case fence hp =>
    intro k
    refine (h k).imp (fun h => ?_) id
    simpa [St.tview, hp] using h
  case resume0 hp h0 =>
    intro k
    refine (h k).imp (fun h => ?_) id
    have := (b.ready hp).2 (.data k)
    simp only [St.tview, hp, if_true] at h ⊢
    rw [if_neg nofun] at h
    show s.mem.last _ ≤ _
    omega
  case reset hp h0 =>
    intro k
    left
    have hd : Loc.data k ≠ Loc.join := nofun
    have hlast : (s.mem.store s.ptv .join kMax false).last (.data k) = s.mem.last (.data k) := by
      simp [Mem.last, Mem.store, Mem.append]
    show Mem.last (Mem.store _ _ _ _ _) _ ≤ _
    rw [hlast]
    simp only [St.tview, if_true, TV.bump, if_neg hd]
    obtain ⟨b1, b2⟩ := b.ready hp
    rcases h k with h | ⟨j, hj, h⟩
    · simp only [St.tview, hp] at h
      rw [if_neg nofun] at h
      exact Nat.le_trans h (b2 _)
    · rw [a.over (.inr hp)] at hj
      exact Nat.le_trans h (b1 j (by simpa using hj) _)

theorem ic_reach {s : St} (h : Reach s) : IC s := by
  induction h with
  | init v => intro n; left; exact Nat.zero_le _
  | step r st ih =>
    obtain ⟨a, -, -, b⟩ := inv_reach r
    exact ih.step a b st

/-- **C43, no stale value and no data race.** Whenever the task has completed a join, it can read of every cell of the program only
the last value written, whoever wrote it; and it may write every cell. -/
theorem join_all_visible {s : St} (r : Reach s) (h : s.ppc = .ready) (n : Nat) :
    s.ptv.cur (.data n) = s.mem.last (.data n) ∧ ∀ j, CanRead s.mem s.ptv (.data n) j → j = s.mem.last (.data n) := by
  obtain ⟨a, w, -, b⟩ := inv_reach r
  have e : s.mem.last (.data n) ≤ s.ptv.cur (.data n) := by
    obtain ⟨b1, b2⟩ := b.ready h
    rcases ic_reach r n with hc | ⟨j, hj, hc⟩
    · simp only [St.tview, h] at hc
      rw [if_neg nofun] at hc
      exact Nat.le_trans hc (b2 _)
    · rw [a.over (.inr h)] at hj
      exact Nat.le_trans hc (b1 j (by simpa using hj) _)
  have e2 := w.p.wf.cur (.data n)
  refine ⟨by unfold Mem.last at *; omega, fun j hj => ?_⟩
  have h1 := hj.1; have h2 := hj.2
  unfold Mem.last at *; omega

/-- The task knows the last change of the join counter when it resets it. -/
theorem own_join {s : St} (r : Reach s) :
    (s.ppc = .ready ∨ s.ppc = .fence → s.mem.last .join ≤ s.ptv.cur .join) ∧
    ∀ i, s.cpc i = .last → s.mem.last .join ≤ (s.ctv i).cur .join := by
  induction r with
  | init v => exact ⟨fun _ => Nat.zero_le _, fun _ _ => Nat.zero_le _⟩
  | @step s s' r st ih =>
    obtain ⟨ih1, ih2⟩ := ih
    obtain ⟨a, w, iv, b⟩ := inv_reach r
    have nolast : s.ppc ≠ .parked → ∀ j, s.cpc j ≠ .last := fun h j e => h (a.last j e).2.1
    cases st
    case pwrite n v hp hk =>
      refine ⟨fun e => ?_, fun j e => absurd e (nolast (by rw [hp]; nofun) j)⟩
      change s.ppc = _ ∨ s.ppc = _ at e; rw [hp] at e; rcases e with e | e <;> cases e
    case psync w hp hv =>
      refine ⟨fun e => ?_, fun j e => absurd e (nolast (by rw [hp]; nofun) j)⟩
      change s.ppc = _ ∨ s.ppc = _ at e; rw [hp] at e; rcases e with e | e <;> cases e
    case fork i hp hu hn =>
      refine ⟨fun e => ?_, fun j e => ?_⟩
      · change s.ppc = _ ∨ s.ppc = _ at e; rw [hp] at e; rcases e with e | e <;> cases e
      · change upd s.cpc i _ j = _ at e
        by_cases ej : j = i
        · subst ej; rw [upd_same] at e; cases e
        · rw [upd_ne _ _ ej] at e; exact absurd e (nolast (by rw [hp]; nofun) j)
    case cwrite i n v hp hk =>
      have hl : (s.mem.store (s.ctv i) (.data n) v false).last .join = s.mem.last .join := by
        simp [Mem.last, Mem.store, Mem.append]
      refine ⟨fun e => ?_, fun j e => ?_⟩
      · show Mem.last (Mem.store _ _ _ _ _) _ ≤ _; rw [hl]; exact ih1 e
      · show Mem.last (Mem.store _ _ _ _ _) _ ≤ (upd s.ctv i _ j).cur _; rw [hl]
        by_cases ej : j = i
        · subst ej; change s.cpc j = _ at e; rw [hp] at e; cases e
        · rw [upd_ne _ _ ej]; exact ih2 j e
    case csync i w hp hv =>
      refine ⟨ih1, fun j e => ?_⟩
      show _ ≤ (upd s.ctv i _ j).cur _
      by_cases ej : j = i
      · subst ej; change s.cpc j = _ at e; rw [hp] at e; cases e
      · rw [upd_ne _ _ ej]; exact ih2 j e
    case dec i hp =>
      have hl : (s.mem.rmwRel (s.ctv i) .join (s.mem.val .join (s.mem.last .join) - 1)).last .join = s.mem.len .join := by
        simp [Mem.last, Mem.rmwRel, Mem.append]
      have hin := (a.live i).2 hp
      refine ⟨fun e => ?_, fun j e => ?_⟩
      · change s.ppc = _ ∨ s.ppc = _ at e
        have := a.over e.symm
        rw [this] at hin; cases hin
      · change upd s.cpc i _ j = _ at e
        by_cases ej : j = i
        · subst ej
          show Mem.last (Mem.rmwRel _ _ _ _) _ ≤ (upd s.ctv j _ j).cur _
          rw [hl, upd_same]; simp [TV.rmwRel, TV.bump]
        · rw [upd_ne _ _ ej] at e
          have := (a.last j e).2.2; rw [this] at hin; cases hin
    case win i hp =>
      refine ⟨fun _ => ?_, fun j e => ?_⟩
      · show _ ≤ (s.ctv i).fenceAcq.cur _
        have := ih2 i hp
        simp only [TV.fenceAcq, Weak.join]; show s.mem.last _ ≤ _; omega
      · change upd s.cpc i _ j = _ at e
        by_cases ej : j = i
        · subst ej; rw [upd_same] at e; cases e
        · rw [upd_ne _ _ ej] at e; exact ih2 j e
    case ready0 hp h0 =>
      refine ⟨fun _ => ?_, fun j e => absurd e (nolast (by rw [hp]; nofun) j)⟩
      have hb := iv.at_ (.inl hp)
      have hs := a.nosub (.inl hp)
      have hl := a.len
      have hc := a.cnt
      rw [hs] at hl
      show s.mem.last .join ≤ s.ptv.cur .join
      have : s.fin.length = 0 := by omega
      simp at hl
      unfold Mem.last; omega
    case await hp h0 =>
      refine ⟨fun e => ?_, fun j e => absurd e (nolast (by rw [hp]; nofun) j)⟩
      rcases e with e | e <;> cases e
    case check j hp hr =>
      refine ⟨fun e => ?_, fun j e => absurd e (nolast (by rw [hp]; nofun) j)⟩
      dsimp only at e
      split at e
      · rename_i e1
        have hs := a.nosub (.inr (.inl hp))
        have hb := iv.at_ (.inr (.inl hp))
        have hj1 := hr.1
        have hj2 := hr.2
        have hlen := a.len
        rw [hs] at hlen
        simp at hlen
        have hval := a.vals hs (j - s.base) (by omega)
        rw [show s.base + (j - s.base) = j by omega] at hval
        rw [hval] at e1
        have hcnt := a.cnt
        show s.mem.last .join ≤ (s.ptv.read s.mem .join j true).cur .join
        simp only [TV.read, single, if_true]
        unfold Mem.last; omega
      · rcases e with e | e <;> cases e
    case susp hp =>
      refine ⟨fun _ => ?_, fun j e => absurd e (nolast (by rw [hp]; nofun) j)⟩
      show (s.mem.rmwRel _ _ _).last .join ≤ (s.ptv.rmwRel s.mem .join).cur .join
      simp [Mem.last, Mem.rmwRel, Mem.append, TV.rmwRel, TV.bump]
    case fence hp =>
      refine ⟨fun _ => ?_, fun j e => absurd e (nolast (by rw [hp]; nofun) j)⟩
      have := ih1 (.inr hp)
      show s.mem.last .join ≤ s.ptv.fenceAcq.cur .join
      simp only [TV.fenceAcq, Weak.join]; omega
    case resume0 hp h0 =>
      refine ⟨fun e => ?_, fun j e => absurd e (nolast (by rw [hp]; nofun) j)⟩
      rcases e with e | e <;> cases e
    case reset hp h0 =>
      refine ⟨fun e => ?_, fun j e => absurd e (nolast (by rw [hp]; nofun) j)⟩
      rcases e with e | e <;> cases e

/-- **C43, the reset is not a race.** The plain (non-atomic) re-initialisation of the join counter happens after every change of it
by a child: the thread knows the last change, and no child that could still change it is left. -/
theorem reset_race_free {s : St} (r : Reach s) (h : s.ppc = .ready) :
    s.ptv.cur .join = s.mem.last .join ∧ ∀ i, s.cpc i ≠ .run ∧ s.cpc i ≠ .last := by
  obtain ⟨a, w, -, -⟩ := inv_reach r
  have h1 := (own_join r).1 (.inl h)
  have h2 := w.p.wf.cur .join
  refine ⟨by unfold Mem.last at *; omega, fun i => ⟨fun e => ?_, fun e => ?_⟩⟩
  · have := (a.live i).2 e; rw [a.over (.inr h)] at this; cases this
  · have := (a.last i e).2.1; rw [h] at this; cases this

/-- **C43, resumed at most once.** A child that has found itself to be the last one finds the task parked at the join and every other
child of the scope gone; no other child has found the same, and the task itself has not. -/
theorem one_winner {s : St} (r : Reach s) {i : Nat} (hi : s.cpc i = .last) :
    s.ppc = .parked ∧ ∀ j, s.cpc j ≠ .run ∧ (s.cpc j = .last → j = i) := by
  obtain ⟨a, -, -, -⟩ := inv_reach r
  obtain ⟨h1, h2, h3⟩ := a.last i hi
  refine ⟨h2, fun j => ⟨fun e => ?_, fun e => ?_⟩⟩
  · have := (a.live j).2 e; rw [h3] at this; cases this
  · have := (a.last j e).1; rw [h1] at this; cases this; rfl

/-- **C43, resumed at least once.** A task parked at a join is never forgotten: a child is still to arrive, or one that has arrived is
going to resume the task. -/
theorem not_forgotten {s : St} (r : Reach s) (h : s.ppc = .parked) : ∃ i, s.cpc i = .run ∨ s.cpc i = .last := by
  obtain ⟨a, -, -, -⟩ := inv_reach r
  cases hl : s.live with
  | nil => obtain ⟨i, hi⟩ := a.parked h hl; exact ⟨i, .inr hi⟩
  | cons i t => exact ⟨i, .inl ((a.live i).1 (by rw [hl]; exact List.mem_cons_self))⟩

/-! ## The hypotheses are met -/

instance {L : Type} [DecidableEq L] (m : Mem L) (tv : TV L) (l : L) (i : Nat) : Decidable (CanRead m tv l i) :=
  inferInstanceAs (Decidable (_ ∧ _))

/-- In the runs below the task forks children 0 and 1, both are stolen; the children write 10 and 20 to cells 0 and 1. Here both
arrive before the task, which sees that at the first look (awaitables.hpp:441). -/
example : ∃ s s', Reach s ∧ s.cpc 0 = .run ∧ s.ptv.cur (.data 0) = 0 ∧ Scope s s' ∧ s'.ppc = .ready ∧ s'.sub = false ∧
    s'.steals = 2 ∧ s'.ptv.cur (.data 0) = 1 ∧ s'.mem.val (.data 0) 1 = 10 ∧ s'.ptv.cur (.data 1) = 1 ∧
    s'.mem.val (.data 1) 1 = 20 := by
  have r := Reach.init (fun _ => 0)
  replace r := r.step (.fork 0 rfl rfl (by decide))
  replace r := r.step (.fork 1 rfl rfl (by decide))
  refine ⟨_, _, r, rfl, rfl, (((((((Scope.refl _).step (by decide +kernel) (.cwrite 0 0 10 rfl (by decide +kernel))).step (by decide +kernel)
    (.cwrite 1 1 20 rfl (by decide +kernel))).step (by decide +kernel) (.dec 1 rfl)).step (by decide +kernel) (.dec 0 rfl)).step (by decide +kernel)
    (.await rfl (by decide +kernel))).step (by decide +kernel) (.check 2 rfl (by decide +kernel))), by decide +kernel, rfl, rfl, by decide +kernel,
    by decide +kernel, by decide +kernel, by decide +kernel⟩

/-- The first look shows only one child (an old value of the counter); the task's own subtraction shows both (awaitables.hpp:465). -/
example : ∃ s s', Reach s ∧ s.cpc 0 = .run ∧ s.ptv.cur (.data 0) = 0 ∧ Scope s s' ∧ s'.ppc = .ready ∧ s'.sub = true ∧
    s'.ptv.cur (.data 0) = 1 ∧ s'.mem.val (.data 0) 1 = 10 ∧ s'.ptv.cur (.data 1) = 1 ∧ s'.mem.val (.data 1) 1 = 20 := by
  have r := Reach.init (fun _ => 0)
  replace r := r.step (.fork 0 rfl rfl (by decide))
  replace r := r.step (.fork 1 rfl rfl (by decide))
  refine ⟨_, _, r, rfl, rfl, (((((((((Scope.refl _).step (by decide +kernel) (.cwrite 0 0 10 rfl (by decide +kernel))).step (by decide +kernel)
    (.cwrite 1 1 20 rfl (by decide +kernel))).step (by decide +kernel) (.dec 1 rfl)).step (by decide +kernel) (.dec 0 rfl)).step (by decide +kernel)
    (.await rfl (by decide +kernel))).step (by decide +kernel) (.check 1 rfl (by decide +kernel))).step (by decide +kernel) (.susp (by decide +kernel))).step
    (by decide +kernel) (.fence (by decide +kernel))), by decide +kernel, rfl, by decide +kernel,
    by decide +kernel, by decide +kernel, by decide +kernel⟩

/-- The task parks; child 0, which arrives last, resumes it (promise.hpp:92). The state before that meets the hypotheses of
`one_winner` and `not_forgotten`. -/
example : ∃ s t s', Reach s ∧ s.cpc 0 = .run ∧ s.ptv.cur (.data 0) = 0 ∧ Scope s t ∧ t.ppc = .parked ∧ t.cpc 0 = .last ∧
    Step t s' ∧ s'.ppc = .ready ∧
    s'.ptv.cur (.data 0) = 1 ∧ s'.mem.val (.data 0) 1 = 10 ∧ s'.ptv.cur (.data 1) = 1 ∧ s'.mem.val (.data 1) 1 = 20 := by
  have r := Reach.init (fun _ => 0)
  replace r := r.step (.fork 0 rfl rfl (by decide))
  replace r := r.step (.fork 1 rfl rfl (by decide))
  refine ⟨_, _, _, r, rfl, rfl, ((((((((Scope.refl _).step (by decide +kernel) (.cwrite 0 0 10 rfl (by decide +kernel))).step (by decide +kernel)
    (.cwrite 1 1 20 rfl (by decide +kernel))).step (by decide +kernel) (.dec 1 rfl)).step (by decide +kernel)
    (.await rfl (by decide +kernel))).step (by decide +kernel) (.check 0 rfl (by decide +kernel))).step (by decide +kernel) (.susp (by decide +kernel))).step
    (by decide +kernel) (.dec 0 rfl)), by decide +kernel, by decide +kernel, .win 0 (by decide +kernel), rfl, by decide +kernel,
    by decide +kernel, by decide +kernel, by decide +kernel⟩

end Verif.Weak.Join
