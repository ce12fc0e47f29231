import Verif.WholeM.Props
import Verif.WholeX.Exec

/-! Running schedules of whole programs with shared memory, to exhibit executions. -/
namespace Verif.WholeM
open Verif.Runtime (Res Ev)
open Verif.LazyPool (Cfg St)
open Verif.EventCount (P32)
open Verif.Exn (Choice Allowed)
open Verif.Mem (Act Acc ctl put)
open Verif.Whole (Caller Actor Res.map)
open Verif.WholeX (X Move)

variable {σ V E L : Type} [Inhabited E] [DecidableEq L] (c : Cfg) (body : σ → Act σ V E L) (K : Nat) (root : Nat → σ) (after : Nat → List Nat)

/-- Call `i` is made after the calls `after i` are over. -/
def depOf (i j : Nat) : Prop := j ∈ after i

/-- The task that the worker is in. -/
def task? (s : X σ V E) (w : Nat) : Option Nat :=
  if w < c.N ∧ s.l.pc w = .work ∧ s.out w = none then
    match s.x.c.pc w with
    | .run f => some f
    | _ => none
  else none

/-- The calls that come first are over. -/
def mayCall (a : Actor) (s : X σ V E) : Bool :=
  match a with
  | .caller i =>
    match s.caller i with
    | .before => (after i).all fun j => (s.caller j).isBack
    | _ => true
  | _ => true

/-- Anything but an access. No allocation fails. -/
def fireOther (e : Move E) (s : Y σ V E L) : Option (Y σ V E L) :=
  if WholeX.isGo e.ch && mayCall after e.a s.x then
    (WholeX.fire c (ctl body) K root e s.x).map fun x => { s with x := x }
  else none

/-- A step of the actor. -/
def fire (e : Move E) (s : Y σ V E L) : Option (Y σ V E L) :=
  match e.a with
  | .worker w =>
    match task? c s.x w with
    | some f =>
      match body (s.x.x.c.fr f).st with
      | .load l k => some ⟨cont s.x f (k (s.m l)), s.m, .load f l (s.m l) :: s.hist⟩
      | .store l d k => some ⟨cont s.x f k, put s.m l d, .store f l d :: s.hist⟩
      | _ => fireOther c body K root after e s
    | none => fireOther c body K root after e s
  | _ => fireOther c body K root after e s

variable {c body K root after}

omit [Inhabited E] [DecidableEq L] in
theorem task_some {s : X σ V E} {w f : Nat} (h : task? c s w = some f) : w < c.N ∧ InTask s w f (s.x.c.fr f).st := by
  unfold task? at h
  split at h
  · rename_i h1
    split at h <;> cases h
    rename_i h2
    exact ⟨h1.1, h1.2.1, h1.2.2, h2, rfl⟩
  · cases h

omit [Inhabited E] [DecidableEq L] in
theorem task_of {s : X σ V E} {w f : Nat} {y : σ} (hw : w < c.N) (h : InTask s w f y) : task? c s w = some f := by
  obtain ⟨h1, h2, h3, _⟩ := h
  unfold task?
  rw [if_pos ⟨hw, h1, h2⟩, h3]

theorem other_step {may : E → Prop} {e : Move E} {s s' : Y σ V E L} (h : fireOther c body K root after e s = some s')
    (hno : ∀ w f y, e.a = .worker w → InTask s.x w f y → (∀ l k, body y ≠ .load l k) ∧ ∀ l d k, body y ≠ .store l d k) :
    Step c body may K root (depOf after) e.a s (.ok s') := by
  unfold fireOther at h
  split at h
  rotate_left
  · cases h
  rename_i hc
  simp only [Bool.and_eq_true] at hc
  obtain ⟨x, hx, rfl⟩ := Option.map_eq_some_iff.1 h
  have hal : Allowed may e.ch := by
    have := hc.1
    cases hch : e.ch with
    | go => trivial
    | _ => rw [hch] at this; cases this
  refine Step.other s e.a (.ok x) (WholeX.fire_may e s.x x hal hx) hno fun i ha hb j hj => ?_
  have := hc.2
  simp only [mayCall, ha, hb] at this
  have := List.all_eq_true.1 this j hj
  cases hx : s.x.caller j with
  | back v => exact ⟨v, rfl⟩
  | _ => rw [hx] at this; cases this

omit [Inhabited E] in
theorem fire_lt {e : Move E} {s s' : X σ V E} {b : σ → Exn.Act σ V E} {w : Nat} (ha : e.a = .worker w) (h : WholeX.fire c b K root e s = some s') : w < c.N := by
  unfold WholeX.fire at h
  rw [ha] at h
  simp only at h
  split at h
  · assumption
  · cases h

theorem fire_step {may : E → Prop} (e : Move E) (s s' : Y σ V E L) (h : fire c body K root after e s = some s') :
    Step c body may K root (depOf after) e.a s (.ok s') := by
  unfold fire at h
  split at h
  · rename_i w ha
    split at h
    · rename_i f hf
      obtain ⟨hw, hin⟩ := task_some hf
      split at h
      · rename_i l k hb
        cases h; rw [ha]; exact .load s w f _ l k hw hin hb
      · rename_i l d k hb
        cases h; rw [ha]; exact .store s w f _ l d k hw hin hb
      · rename_i h1 h2
        refine other_step h fun w' f' y' ha' hin' => ?_
        rw [ha] at ha'; cases ha'
        have := task_of hw hin'
        rw [hf] at this; cases this
        rw [← hin'.st]
        exact ⟨h1, h2⟩
    · rename_i hf
      refine other_step h fun w' f' y' ha' hin' => ?_
      rw [ha] at ha'; cases ha'
      have h' := h
      unfold fireOther at h'
      split at h'
      · obtain ⟨x, hx, _⟩ := Option.map_eq_some_iff.1 h'
        rw [task_of (fire_lt ha hx) hin'] at hf; cases hf
      · cases h'
  · rename_i hn
    exact other_step h fun w' f' y' ha' hin' => absurd ha' (hn w')

/-- At most one notification per step. -/
theorem n_step {may : E → Prop} {dep : Nat → Nat → Prop} {a : Actor} {s s' : Y σ V E L} (st : Step c body may K root dep a s (.ok s')) (i : Nat) :
    s'.x.l.n i ≤ s.x.l.n i + 1 := WholeX.n_step (step_x st) i

variable (c body K root after)

/-- A script, followed by silence. -/
def Script.run (may : E → Prop) (m : L → E) (x : σ) (script : List (Move E)) : Fair.Run (system c body may K root (depOf after) m) :=
  Fair.Script.run (S := system c body may K root (depOf after) m) (fire c body K root after) (fun e => e.a) fire_step (s0 := Y.start c x m) ⟨x, rfl⟩ script

/-- The state after a script. -/
def fin (m : L → E) (x : σ) (script : List (Move E)) : Y σ V E L := script.foldl (Fair.tick (fire c body K root after)) (Y.start c x m)

variable {c body K root after}

theorem run_n {may : E → Prop} {m : L → E} (x : σ) (script : List (Move E)) (t : Nat) (i : Nat) :
    ((Script.run c body K root after may m x script).st t).x.l.n i ≤ min t script.length := by
  induction t with
  | zero => exact Nat.zero_le _
  | succ t ih =>
    rcases (Script.run c body K root after may m x script).next t with ⟨_, e⟩ | ⟨a, hw, st⟩
    · rw [e]; omega
    · have hlt : t < script.length := by
        apply Classical.byContradiction
        intro hn
        have : script[t]? = none := List.getElem?_eq_none (by omega)
        simp only [Script.run, Fair.Script.run, this] at hw
        cases hw
      have := n_step st i
      omega

theorem run_few {may : E → Prop} {m : L → E} (x : σ) (script : List (Move E)) (hl : script.length < P32) (t : Nat) :
    LazyPool.Few c ((Script.run c body K root after may m x script).st t).x.l := fun w _ _ => by
  have := run_n (c := c) (body := body) (K := K) (root := root) (after := after) (may := may) (m := m) x script t (c.dom w)
  omega

end Verif.WholeM
