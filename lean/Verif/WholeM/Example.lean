import Verif.LazyPool.Example
import Verif.Par.Example
import Verif.WholeM.Exec
import Verif.WholeM.Par

/-!
Executions that meet the hypotheses of the theorems of Verif.WholeM: on a pool of two workers a thread calls `sync_wait` with a fold, part of which is
stolen, and, when that call is over, calls `sync_wait` again with a task that copies the result of the fold.
-/
namespace Verif.WholeM.Example
open Verif.Runtime (Res Ev)
open Verif.LazyPool (Cfg St)
open Verif.LazyPool.Example (two two_ok two_lt)
open Verif.EventCount (P32)
open Verif.Par (T Dat task vals fold3 fold3_eq fold3_free mem3)
open Verif.Whole (Caller Actor)
open Verif.WholeX (X Move)

deriving instance DecidableEq for Par.Dat
deriving instance DecidableEq for Runtime.Choice
deriving instance DecidableEq for Exn.Choice
deriving instance DecidableEq for WholeX.Move

abbrev D := Dat (List Nat) Nat
abbrev S := Y (T Algo.Loc (List Nat) Nat) Unit D Algo.Loc

/-- Copies the result of the fold. -/
def copy : Algo.Prog (List Nat) Nat := .atom1 (.cell 9) .res Par.idt

def progs : Nat → Algo.Prog (List Nat) Nat
  | 0 => fold3
  | _ => copy

/-- The second call comes after the first. -/
def after : Nat → List Nat
  | 1 => [0]
  | _ => []

/-- `n` steps of a worker, its thefts fail. -/
def steps (w n : Nat) : List (Move D) := List.replicate n { a := .worker w }

/-- A thread calls `sync_wait`; the generator picks worker `d`. -/
def calls (i d : Nat) : List (Move D) := [{ a := .caller i }, { a := .caller i, k := d }, { a := .caller i }, { a := .caller i }]

/-- Both workers go to sleep; the fold is submitted to worker 0, which forks its first child; worker 1 steals the rest. -/
@[irreducible] def stolen : List (Move D) := steps 0 9 ++ steps 1 9 ++ calls 0 0 ++ steps 0 14 ++ steps 1 4 ++ [{ a := .worker 1, k := 1 }]

/-- The second call is attempted, in vain; the fold is finished. -/
@[irreducible] def folded : List (Move D) := stolen ++ calls 1 0 ++ steps 1 24 ++ steps 0 20 ++ [{ a := .caller 0 }]

/-- The second call is made. -/
@[irreducible] def called : List (Move D) := folded ++ calls 1 1

/-- The second call is over, the workers fall asleep. -/
@[irreducible] def life : List (Move D) := called ++ steps 1 30 ++ steps 0 30 ++ steps 1 30 ++ steps 0 30 ++ [{ a := .caller 1 }]

/-- The pool is destroyed. -/
@[irreducible] def death : List (Move D) :=
  life ++ List.replicate 4 { a := .dtor } ++ steps 0 30 ++ steps 1 30 ++ steps 0 2 ++ [{ a := .dtor }]

/-- The programs of one call. -/
def one : Nat → Algo.Prog (List Nat) Nat := fun _ => fold3

/-- The state after a script of `K` calls. -/
abbrev at_ (K : Nat) (p : Nat → Algo.Prog (List Nat) Nat) (l : List (Move D)) : S := fin two Par.body K (fun i => task (p i)) after (vals mem3) .ret l

def isBack : Caller (Except D Unit) → Bool
  | .back (.ok ()) => true
  | _ => false

theorem isBack_eq {x : Caller (Except D Unit)} (h : isBack x = true) : x = .back (.ok ()) := by
  match x, h with
  | .back (.ok ()), _ => rfl

def isWaiting (f : Nat) : Caller (Except D Unit) → Bool
  | .waiting g => g == f
  | _ => false

theorem isWaiting_eq {f : Nat} {x : Caller (Except D Unit)} (h : isWaiting f x = true) : x = .waiting f := by
  cases x <;> simp [isWaiting] at h
  rw [h]

theorem stolen_end : (at_ 2 progs stolen).x.x.c.pc 1 = .stole 0 ∧ (at_ 2 progs stolen).x.x.c.pc 0 = .run 1 ∧ (at_ 2 progs stolen).hist.length = 0 ∧
    isWaiting 0 ((at_ 2 progs stolen).x.caller 0) = true := by decide +kernel

theorem called_end : isBack ((at_ 2 progs called).x.caller 0) = true ∧ isWaiting 5 ((at_ 2 progs called).x.caller 1) = true ∧
    (at_ 2 progs called).m .res = .val [0, 1, 2] ∧ (at_ 2 progs called).m (.cell 9) = .val [9] := by decide +kernel

theorem death_end : isBack ((at_ 2 progs death).x.caller 0) = true ∧ isBack ((at_ 2 progs death).x.caller 1) = true ∧ (at_ 2 progs death).x.l.pc 0 = .fin4 ∧
    (at_ 2 progs death).x.l.pc 1 = .fin4 ∧ (at_ 2 progs death).x.l.dpc = .gone ∧ (at_ 2 progs death).m (.cell 9) = .val [0, 1, 2] := by decide +kernel

theorem single_end : isBack ((at_ 1 one death).x.caller 0) = true ∧ (at_ 1 one death).x.l.pc 0 = .fin4 ∧ (at_ 1 one death).x.l.pc 1 = .fin4 ∧
    (at_ 1 one death).x.l.dpc = .gone ∧ (at_ 1 one death).m .res = .val [0, 1, 2] := by decide +kernel

/-- The schedule of both calls; no allocation fails. -/
def run (K : Nat) (p : Nat → Algo.Prog (List Nat) Nat) : Fair.Run (system two Par.body (fun _ : D => False) K (fun i => task (p i)) (depOf after) (vals mem3)) :=
  Script.run two Par.body K (fun i => task (p i)) after (fun _ => False) (vals mem3) .ret death

theorem short : death.length < P32 := by unfold P32; exact of_decide_eq_true (by decide +kernel)

theorem few (K : Nat) (p : Nat → Algo.Prog (List Nat) Nat) (t : Nat) : LazyPool.Few two ((run K p).st t).x.l := run_few T.ret death short t

theorem run_st {K : Nat} {p : Nat → Algo.Prog (List Nat) Nat} {l : List (Move D)} {n : Nat} (h : death.take n = l) : (run K p).st n = at_ K p l := by
  show Fair.play _ _ _ _ = _
  unfold Fair.play
  rw [h]; rfl

theorem reach (K : Nat) (p : Nat → Algo.Prog (List Nat) Nat) (t : Nat) :
    Reach two Par.body (fun _ : D => False) K (fun i => task (p i)) (depOf after) (vals mem3) ((run K p).st t) := run_reach (run K p) (few K p) t

theorem end_fair {K : Nat} {p : Nat → Algo.Prog (List Nat) Nat} (h : ∀ i, i < K → ((at_ K p death).x.caller i) = .back (.ok ())) (h3 : (at_ K p death).x.l.pc 0 = .fin4)
    (h4 : (at_ K p death).x.l.pc 1 = .fin4) (h5 : (at_ K p death).x.l.dpc = .gone) : (run K p).Fair := by
  refine Fair.Script.fair (S := system two Par.body (fun _ => False) K (fun i => task (p i)) (depOf after) (vals mem3)) (hfire := fire_step)
    (h0 := ⟨T.ret, rfl⟩) fun a => ?_
  show ¬ WholeX.ready two (at_ K p death).x a
  cases a with
  | worker w =>
    intro ⟨hw, _, ha, _⟩
    rcases two_lt hw with e | e <;> subst e
    · exact ha h3
    · exact ha h4
  | caller i =>
    intro hr
    by_cases hi : i < K
    · simp only [WholeX.ready, h i hi] at hr
    · have h6 := reach K p death.length
      rw [run_st (List.take_length ..)] at h6
      obtain ⟨fr, js, hcl⟩ := WholeM.calls h6
      have hlt : (at_ K p death).x.caller i ≠ .before → i < K := hcl.lt i
      cases hx : (at_ K p death).x.caller i with
      | before => simp only [WholeX.ready, hx] at hr
      | _ => exact hi (hlt (by rw [hx]; simp))
  | dtor => intro ⟨_, ha, _⟩; exact ha h5

theorem fair2 : (run 2 progs).Fair := end_fair (fun i hi => by
  have : i = 0 ∨ i = 1 := by omega
  rcases this with rfl | rfl
  · exact isBack_eq death_end.1
  · exact isBack_eq death_end.2.1) death_end.2.2.1 death_end.2.2.2.1 death_end.2.2.2.2.1

theorem fair1 : (run 1 one).Fair := end_fair (fun i hi => by
  have : i = 0 := by omega
  subst this
  exact isBack_eq single_end.1) single_end.2.1 single_end.2.2.1 single_end.2.2.2.1

/-- The two programs conflict, but the calls are ordered. -/
theorem fit : Fit 2 (depOf after) progs where
  free i hi := by
    have : i = 0 ∨ i = 1 := by omega
    rcases this with rfl | rfl
    · exact fold3_free
    · exact trivial
  apart i j hi hj hne h1 h2 := by
    exfalso
    have : i = 0 ∧ j = 1 ∨ i = 1 ∧ j = 0 := by omega
    rcases this with ⟨rfl, rfl⟩ | ⟨rfl, rfl⟩
    · exact h2 (by simp [depOf, after])
    · exact h1 (by simp [depOf, after])
  noub i hi m m' h := by
    have : i = 0 ∨ i = 1 := by omega
    rcases this with rfl | rfl
    · exact ((Par.fold_all (by omega) (by omega) fold3_eq).2.2 m _ m' h).noub rfl
    · cases h

/-- Time at which the second call has been made and is waiting. -/
theorem called_at : ∃ n, (run 2 progs).st n = at_ 2 progs called := ⟨called.length, run_st (by decide +kernel)⟩

/-- C64: the hypotheses of `C64_programs` are met: both calls are over some time, although their programs conflict. -/
example : ∃ t' : Nat, ∀ u, t' ≤ u → ∃ m' : Algo.Loc → List Nat, ((run 2 progs).st u).m = vals m' ∧
    ∃ r r', Par.RunsP (fun _ => False) mem3 [(fold3, r), (copy, r')] m' := by
  obtain ⟨n, e⟩ := called_at
  obtain ⟨t', _, h⟩ := C64_programs two_ok (by decide +kernel) fit fair2 (few 2 progs) (t := n) (by
    intro i hi
    rw [e]
    have : i = 0 ∨ i = 1 := by omega
    rcases this with rfl | rfl
    · rw [isBack_eq called_end.1]; simp
    · rw [isWaiting_eq called_end.2.1]; simp)
  refine ⟨t', fun u hu => ?_⟩
  obtain ⟨l, m', h1, h2, _, h4, h5, h6⟩ := h u hu
  refine ⟨m', h5, ?_⟩
  match l, h1, h2, h4, h6 with
  | [], _, h2, _, _ => exact absurd ((h2 0).2 (by omega)) (by simp)
  | [(i, r)], _, h2, _, _ =>
    have a := (h2 0).2 (by omega)
    have b := (h2 1).2 (by omega)
    simp at a b
    omega
  | [(i, r), (j, r')], h1, h2, h4, h6 =>
    have a := (h2 i).1 (by simp)
    have b := (h2 j).1 (by simp)
    have hne : i ≠ j := by rintro rfl; simp at h1
    have : i = 0 ∧ j = 1 ∨ i = 1 ∧ j = 0 := by omega
    rcases this with ⟨rfl, rfl⟩ | ⟨rfl, rfl⟩
    · exact ⟨r, r', h6⟩
    · simp [depOf, after] at h4
  | (i, r) :: (j, r') :: (k, r'') :: l, h1, h2, _, _ =>
    have a := (h2 i).1 (by simp)
    have b := (h2 j).1 (by simp)
    have c := (h2 k).1 (by simp)
    simp at h1
    omega

/-- C64: those of `C64_fold_assoc`: the call comes back, with the concatenation. -/
example : ∃ t' : Nat, ∀ u, t' ≤ u → ((run 1 one).st u).x.caller 0 = .back (.ok ()) ∧ ((run 1 one).st u).m .res = .val [0, 1, 2] := by
  obtain ⟨t', _, h⟩ := C64_fold_assoc (fun x => x) (· ++ ·) List.append_assoc two_ok (by decide +kernel) (by omega) (by omega) fold3_eq
    (r := run 1 one) fair1 (few 1 one) (t := stolen.length) (by
      have : isWaiting 0 ((at_ 1 one stolen).x.caller 0) = true := by decide +kernel
      rw [run_st (l := stolen) (by decide +kernel), isWaiting_eq this]; simp)
  refine ⟨t', fun u hu => ?_⟩
  obtain ⟨h1, m', h2, h3, _⟩ := h u hu
  refine ⟨h1, ?_⟩
  rw [h2]
  show Dat.val (m' .res) = _
  rw [h3]; rfl

/-- C64: those of `C64_no_race` and `C64_refines`, when both workers are in the fold. -/
example : ∃ s : S, Reach two Par.body (fun _ : D => False) 2 (fun i => task (progs i)) (depOf after) (vals mem3) s ∧ s.x.x.c.pc 1 = .stole 0 ∧
    s.x.x.c.pc 0 = .run 1 ∧ ¬ s.mem.Race Par.body := by
  have h := reach 2 progs stolen.length
  rw [run_st (l := stolen) (by decide +kernel)] at h
  exact ⟨_, h, stolen_end.1, stolen_end.2.1, C64_no_race two_ok Par.disc Par.pend_le (fun i _ => (Par.next_pend _).1) (raceFree fit) h⟩

/-- C64: those of `C64_result` at the end, and what it says about the memory. -/
example : ∃ s : S, Reach two Par.body (fun _ : D => False) 2 (fun i => task (progs i)) (depOf after) (vals mem3) s ∧
    (∀ i, i < 2 → ∃ r, s.x.caller i = .back r) ∧ s.m (.cell 9) = .val [0, 1, 2] := by
  have h := reach 2 progs death.length
  rw [run_st (List.take_length ..)] at h
  refine ⟨_, h, fun i hi => ⟨.ok (), ?_⟩, death_end.2.2.2.2.2⟩
  have : i = 0 ∨ i = 1 := by omega
  rcases this with rfl | rfl
  · exact isBack_eq death_end.1
  · exact isBack_eq death_end.2.1

/-- C64: those of `C64_progress`: a worker that is about to read memory. -/
example : ∃ s : S, Reach two Par.body (fun _ : D => False) 2 (fun i => task (progs i)) (depOf after) (vals mem3) s ∧ WholeX.ready two s.x (.worker 0) ∧
    s.x.x.c.pc 0 = .run 1 := by
  have h := reach 2 progs stolen.length
  rw [run_st (l := stolen) (by decide +kernel)] at h
  refine ⟨_, h, ⟨by decide +kernel, ?_⟩, stolen_end.2.1⟩
  decide +kernel

/-- C64: those of `C64_destroyed`. -/
example : ∃ t', life.length + 1 ≤ t' ∧ ((run 2 progs).st t').x.l.dpc = .gone :=
  C64_destroyed two_ok Par.disc Par.pend_le (fun i _ => (Par.next_pend _).1) (fun i _ => ends_task _) fair2 (few 2 progs) (t := life.length + 1) (by
    have : (Fair.play (fire two Par.body 2 (fun i => task (progs i)) after) (Y.start two .ret (vals mem3) : S) death (life.length + 1)).x.l.dpc = .notify 0 := by
      decide +kernel
    rw [show ((run 2 progs).st _).x.l.dpc = _ from this]; simp)

end Verif.WholeM.Example
