import Verif.Busy.Exec
import Verif.Busy.Par
import Verif.Par.Example

/-!
Executions that meet the hypotheses of the theorems of Verif.Busy: on a `busy_pool` of two workers a thread schedules a fold, part of which is stolen, and,
when that is over, schedules a task that copies the result of the fold; the pool is destroyed before that task has begun. On a `unit_pool` the fold is
scheduled and the pool destroyed in the middle of it.
-/
namespace Verif.Busy.Example
open Verif.Runtime (Res Ev)
open Verif.Pool (Cfg)
open Verif.Par (T Dat task vals fold3 fold3_eq fold3_free mem3)
open Verif.WholeM (Fit ends_task no_switch)

deriving instance DecidableEq for Par.Dat

abbrev D := Dat (List Nat) Nat
abbrev S := B (T Algo.Loc (List Nat) Nat) Unit D Algo.Loc

/-- Copies the result of the fold. -/
def copy : Algo.Prog (List Nat) Nat := .atom1 (.cell 9) .res Par.idt

def progs : Nat → Algo.Prog (List Nat) Nat
  | 0 => fold3
  | _ => copy

/-- The second call comes after the first. -/
def after : Nat → List Nat
  | 1 => [0]
  | _ => []

/-- The programs of one call. -/
def one : Nat → Algo.Prog (List Nat) Nat := fun _ => fold3

def busy2 : Cfg := ⟨2, false⟩
def unit1 : Cfg := ⟨1, true⟩

/-- `n` steps of a worker, its thefts fail. -/
def steps (w n : Nat) : List Move := List.replicate n { a := .worker w }

/-- A thread calls `schedule`; the generator picks worker `d`. -/
def calls (i d : Nat) : List Move := [{ a := .caller i }, { a := .caller i, k := d }]

/-- The fold is submitted to worker 0, which forks its first child; worker 1 steals the rest. -/
@[irreducible] def stolen : List Move := calls 0 0 ++ steps 0 6 ++ steps 1 2 ++ [{ a := .worker 1, k := 1 }]

/-- The second call is attempted, in vain; the fold is finished; the second call is made. -/
@[irreducible] def called : List Move := stolen ++ calls 1 0 ++ steps 1 24 ++ steps 0 20 ++ [{ a := .caller 0 }] ++ calls 1 1

/-- The destructor is called, before the second task has begun. -/
@[irreducible] def stopped : List Move := called ++ [{ a := .dtor }]

/-- It returns. -/
@[irreducible] def life : List Move := stopped ++ steps 1 20 ++ steps 0 20 ++ steps 1 3 ++ [{ a := .dtor }]

/-- The result of the second call is got. -/
@[irreducible] def death : List Move := life ++ [{ a := .caller 1 }]

/-- The destructor of the `unit_pool` is called in the middle of the fold. -/
@[irreducible] def ustop : List Move := calls 0 0 ++ steps 0 6 ++ [{ a := .dtor }]

@[irreducible] def udeath : List Move := ustop ++ steps 0 40 ++ [{ a := .dtor }, { a := .caller 0 }]

/-- The state after a script of `K` calls. -/
abbrev at_ (c : Cfg) (K : Nat) (p : Nat → Algo.Prog (List Nat) Nat) (l : List Move) : S := fin c Par.body K (fun i => task (p i)) after (vals mem3) .ret l

def isBack : Caller (Except D Unit) → Bool
  | .back _ (.ok ()) => true
  | _ => false

def isWaiting : Caller (Except D Unit) → Bool
  | .waiting _ => true
  | _ => false

theorem isBack_eq {x : Caller (Except D Unit)} (h : isBack x = true) : ∃ f, x = .back f (.ok ()) := by
  match x, h with
  | .back f (.ok ()), _ => exact ⟨f, rfl⟩

theorem isWaiting_eq {x : Caller (Except D Unit)} (h : isWaiting x = true) : ∃ f, x = .waiting f := by
  cases x <;> first | exact ⟨_, rfl⟩ | cases h

theorem stolen_end : (at_ busy2 2 progs stolen).M.x.c.pc 1 = .stole 0 ∧ (at_ busy2 2 progs stolen).M.x.c.pc 0 = .run 1 ∧ (at_ busy2 2 progs stolen).pc 1 = .task := by
  decide +kernel

theorem called_end : isBack ((at_ busy2 2 progs called).caller 0) = true ∧ isWaiting ((at_ busy2 2 progs called).caller 1) = true := by decide +kernel

theorem stopped_end : (at_ busy2 2 progs stopped).dpc = .joining ∧ (at_ busy2 2 progs stopped).M.m .res = .val [0, 1, 2] ∧ (at_ busy2 2 progs stopped).M.m (.cell 9) = .val [9] := by
  decide +kernel

theorem life_end : isBack ((at_ busy2 2 progs life).caller 0) = true ∧ isWaiting ((at_ busy2 2 progs life).caller 1) = true ∧ (at_ busy2 2 progs life).dpc = .gone ∧
    (at_ busy2 2 progs life).M.m (.cell 9) = .val [0, 1, 2] := by decide +kernel

theorem death_end : (∀ i, i < 2 → isBack ((at_ busy2 2 progs death).caller i) = true) ∧ (∀ w, w < 2 → (at_ busy2 2 progs death).pc w = .fin4) ∧
    (at_ busy2 2 progs death).dpc = .gone := by decide +kernel

theorem ustop_end : (at_ unit1 1 one ustop).dpc = .joining ∧ (at_ unit1 1 one ustop).M.x.c.pc 0 = .run 1 ∧ isWaiting ((at_ unit1 1 one ustop).caller 0) = true := by
  decide +kernel

theorem udeath_end : (∀ i, i < 1 → isBack ((at_ unit1 1 one udeath).caller i) = true) ∧ (∀ w, w < 1 → (at_ unit1 1 one udeath).pc w = .fin4) ∧
    (at_ unit1 1 one udeath).dpc = .gone ∧ (at_ unit1 1 one udeath).M.m .res = .val [0, 1, 2] := by decide +kernel

/-- The schedules; no allocation fails. -/
def run (c : Cfg) (K : Nat) (p : Nat → Algo.Prog (List Nat) Nat) (l : List Move) : Fair.Run (system c Par.body (fun _ : D => False) K (fun i => task (p i)) (depOf after) (vals mem3)) :=
  Script.run c K (fun i => task (p i)) after no_switch (fun _ => False) (vals mem3) .ret l

theorem run_st {c : Cfg} {K : Nat} {p : Nat → Algo.Prog (List Nat) Nat} {l l' : List Move} {n : Nat} (h : l.take n = l') : (run c K p l).st n = at_ c K p l' := by
  show Fair.play _ _ _ _ = _
  unfold Fair.play
  rw [h]; rfl

theorem reach {c : Cfg} {K : Nat} {p : Nat → Algo.Prog (List Nat) Nat} (l : List Move) : Reach c Par.body (fun _ : D => False) K (fun i => task (p i)) (depOf after) (vals mem3) (at_ c K p l) := by
  have := run_reach (run c K p l) l.length
  rwa [run_st (List.take_length ..)] at this

theorem end_fair {c : Cfg} {K : Nat} {p : Nat → Algo.Prog (List Nat) Nat} {l : List Move} (h : ∀ i, i < K → isBack ((at_ c K p l).caller i) = true) (h2 : ∀ w, w < c.N → (at_ c K p l).pc w = .fin4)
    (h3 : (at_ c K p l).dpc = .gone) : (run c K p l).Fair := by
  refine Fair.Script.fair (S := system c Par.body (fun _ => False) K (fun i => task (p i)) (depOf after) (vals mem3)) (hfire := fire_step no_switch)
    (h0 := ⟨T.ret, rfl⟩) fun a => ?_
  show ¬ ready c (at_ c K p l) a
  cases a with
  | worker w => intro ⟨hw, ha, _⟩; exact ha (h2 w hw)
  | caller i =>
    intro hr
    by_cases hi : i < K
    · obtain ⟨f, e⟩ := isBack_eq (h i hi)
      simp only [ready, e] at hr
    · obtain ⟨fr, js, hcl⟩ := Busy.calls (reach (c := c) (K := K) (p := p) l)
      cases hx : (at_ c K p l).caller i with
      | before => simp only [ready, hx] at hr
      | _ => exact hi (hcl.lt i (by rw [hx]; simp))
  | dtor => intro ⟨ha, _⟩; rw [h3] at ha; cases ha

theorem fair2 : (run busy2 2 progs death).Fair := end_fair death_end.1 death_end.2.1 death_end.2.2
theorem fair1 : (run unit1 1 one udeath).Fair := end_fair udeath_end.1 udeath_end.2.1 udeath_end.2.2.1

/-- The two programs conflict, but the calls are ordered. -/
theorem fit : Fit 2 (depOf after) progs where
  free i hi := by
    have : i = 0 ∨ i = 1 := by omega
    rcases this with rfl | rfl
    · exact fold3_free
    · exact trivial
  apart i j hi hj hne h1 h2 := by
    exfalso
    have : i = 0 ∧ j = 1 ∨ i = 1 ∧ j = 0 := by omega
    rcases this with ⟨rfl, rfl⟩ | ⟨rfl, rfl⟩
    · exact h2 (by simp [depOf, after])
    · exact h1 (by simp [depOf, after])
  noub i hi m m' h := by
    have : i = 0 ∨ i = 1 := by omega
    rcases this with rfl | rfl
    · exact ((Par.fold_all (by omega) (by omega) fold3_eq).2.2 m _ m' h).noub rfl
    · cases h

theorem fit1 : Fit 1 (depOf after) one where
  free i hi := fit.free 0 (by omega)
  apart i j hi hj hne _ _ := by omega
  noub i hi := fit.noub 0 (by omega)

theorem roots (p : Nat → Algo.Prog (List Nat) Nat) (i : Nat) : Par.pend (task (p i)) = 0 := (Par.next_pend _).1

/-- C67: the hypotheses of `C67_programs` are met: both calls are over some time, although their programs conflict, and though the pool is destroyed. -/
example : ∃ t' : Nat, ∀ u, t' ≤ u → (∀ i, i < 2 → ∃ f r, ((run busy2 2 progs death).st u).caller i = .back f r) ∧ ∃ m' : Algo.Loc → List Nat, ((run busy2 2 progs death).st u).M.m = vals m' := by
  obtain ⟨t', _, h⟩ := C67_programs (by decide) fit fair2 (t := called.length) (by
    intro i hi
    rw [run_st (l' := called) (by decide +kernel)]
    have : i = 0 ∨ i = 1 := by omega
    rcases this with rfl | rfl
    · obtain ⟨f, e⟩ := isBack_eq called_end.1; rw [e]; simp
    · obtain ⟨f, e⟩ := isWaiting_eq called_end.2; rw [e]; simp)
  refine ⟨t', fun u hu => ?_⟩
  obtain ⟨l, m', _, h2, h3, _, h5, _⟩ := h u hu
  refine ⟨fun i hi => ?_, m', h5⟩
  obtain ⟨q, hq, rfl⟩ := List.mem_map.1 ((h2 i).2 hi)
  obtain ⟨f, e⟩ := h3 q hq
  exact ⟨f, _, e⟩

/-- C67: those of `C67_destroy_programs`: the destructor was called before the second task had begun. -/
example : ∃ t', stopped.length ≤ t' ∧ ((run busy2 2 progs death).st t').dpc = .gone ∧ ∃ m' : Algo.Loc → List Nat, ((run busy2 2 progs death).st t').M.m = vals m' := by
  obtain ⟨t', h1, h2, l, m', _, _, _, _, e, _⟩ := C67_destroy_programs (by decide) (fun h => by cases h) fit fair2 (t := stopped.length) (by
    rw [run_st (l' := stopped) (by decide +kernel), stopped_end.1]; simp)
  exact ⟨t', h1, h2, m', e⟩

/-- C67: on a `unit_pool`, whose destructor was called in the middle of the fold. -/
example : ∃ t', ustop.length ≤ t' ∧ ((run unit1 1 one udeath).st t').dpc = .gone ∧ ∃ m' : Algo.Loc → List Nat, ((run unit1 1 one udeath).st t').M.m = vals m' := by
  obtain ⟨t', h1, h2, l, m', _, _, _, _, e, _⟩ := C67_destroy_programs (by decide) (fun _ => rfl) fit1 fair1 (t := ustop.length) (by
    rw [run_st (l' := ustop) (by decide +kernel), ustop_end.1]; simp)
  exact ⟨t', h1, h2, m', e⟩

/-- C67: those of `C67_fold`. -/
example : ∃ m' : Par.MemOf (List Nat), (at_ unit1 1 one udeath).M.m = vals m' ∧
    Algo.Bracketed (E := Nat) (fun x => .ok x) (fun a b => .ok (a ++ b)) (Algo.cells mem3 0 3) (m' .res) := by
  obtain ⟨f, e⟩ := isBack_eq (udeath_end.1 0 (by omega))
  obtain ⟨fr, js, hcl⟩ := Busy.calls (reach (c := unit1) (K := 1) (p := one) udeath)
  obtain ⟨m', h1, h2, _⟩ := C67_fold (by omega) (by omega) fold3_eq (reach (c := unit1) (K := 1) (p := one) udeath) (v := .ok ())
    ⟨f, (hcl.back 0 f _ e).2, .inr e⟩
  exact ⟨m', h1, h2 rfl⟩

/-- C67: those of `C67_no_race` and `C67_refines`, when both workers are in the fold. -/
example : ∃ s : S, Reach busy2 Par.body (fun _ : D => False) 2 (fun i => task (progs i)) (depOf after) (vals mem3) s ∧ s.M.x.c.pc 1 = .stole 0 ∧
    s.M.x.c.pc 0 = .run 1 ∧ ¬ s.M.Race Par.body :=
  ⟨_, reach stolen, stolen_end.1, stolen_end.2.1, C67_no_race Par.disc Par.pend_le (fun i _ => roots progs i) (raceFree fit) (reach stolen)⟩

/-- C67: those of `C67_drained` and `C67_finalise`. -/
example : ∃ s : S, Reach busy2 Par.body (fun _ : D => False) 2 (fun i => task (progs i)) (depOf after) (vals mem3) s ∧ s.dpc = .gone ∧
    (∃ f, s.caller 1 = .waiting f) ∧ s.M.m (.cell 9) = .val [0, 1, 2] :=
  ⟨_, reach life, life_end.2.2.1, isWaiting_eq life_end.2.1, life_end.2.2.2⟩

/-- C67: those of `C67_progress`: a worker that is about to read memory. -/
example : ∃ s : S, Reach busy2 Par.body (fun _ : D => False) 2 (fun i => task (progs i)) (depOf after) (vals mem3) s ∧ ready busy2 s (.worker 0) ∧ s.M.x.c.pc 0 = .run 1 :=
  ⟨_, reach stolen, ⟨by decide, by decide +kernel⟩, stolen_end.2.1⟩

/-- C67: the case left by `C67_no_ub` does happen: two threads that call `schedule` of a `busy_pool` at the same time. -/
example : ∃ s : S, Reach busy2 Par.body (fun _ : D => False) 2 (fun i => task (progs i)) (fun _ _ => False) (vals mem3) s ∧
    Step busy2 Par.body (fun _ : D => False) 2 (fun i => task (progs i)) (fun _ _ => False) (.caller 1) s .ub := by
  refine ⟨_, .step (.start T.ret) (.begin _ 0 (by omega) rfl (fun _ k _ h => by cases h) (fun j h => h.elim)), ?_⟩
  exact .race _ 1 0 (by omega) rfl rfl (by omega) rfl (fun j h => h.elim)

end Verif.Busy.Example
