import Verif.Busy.Live
import Verif.WholeX.Exec

/-! Running schedules of whole programs on a `busy_pool` or `unit_pool`, to exhibit executions. The tasks are such that never switch. -/
namespace Verif.Busy
open Verif.Runtime (Res Ev upd)
open Verif.Pool (Cfg)
open Verif.Mem (Act MS)
open Verif.Exn (get?)
open Verif.Whole (valOf valOf_mem)

variable {σ V E L : Type} [Inhabited E] [DecidableEq L] (c : Cfg) (body : σ → Act σ V E L) (K : Nat) (root : Nat → σ) (after : Nat → List Nat)

/-- Who takes a step; which worker a caller picks, or one more than the victim of a theft. -/
structure Move where
  a : Actor
  k : Nat := 0
  deriving DecidableEq

/-- Call `i` is made after the calls `after i` are over. -/
def depOf (i j : Nat) : Prop := j ∈ after i

variable {R : Type}

def Caller.isBack : Caller R → Bool
  | .back _ _ => true
  | _ => false

def Caller.isPicking : Caller R → Bool
  | .picking => true
  | _ => false

def Caller.called : Caller R → Bool
  | .before => false
  | .picking => false
  | _ => true

omit [Inhabited E] [DecidableEq L] in
theorem back_of {x : Caller R} (h : x.isBack = true) : ∃ f r, x = .back f r := by
  cases x <;> first | exact ⟨_, _, rfl⟩ | cases h

/-- Inside `resume`. -/
def fireWork (s : B σ V E L) (w : Nat) : Option (B σ V E L) :=
  if s.idle w then
    if (s.pc w = .run ∨ s.pc w = .drun) ∧ s.hand w ≠ 0 then
      (get? (Mem.step body w (.go .take) s.M)).map fun M => { s with hand := upd s.hand w (s.hand w - 1), M := M }
    else loop c s w
  else if s.pc w = .run ∨ s.pc w = .drun ∨ s.pc w = .task then (get? (Mem.step body w (.go .take) s.M)).map fun M => { s with M := M }
  else loop c s w

/-- A step of the actor. -/
def fire (e : Move) (s : B σ V E L) : Option (B σ V E L) :=
  match e.a with
  | .worker w =>
    if w < c.N then
      if s.pc w = .steal then
        if e.k = 0 then some (s.go w .chk)
        else if e.k - 1 < c.N ∧ s.pc (e.k - 1) ≠ .fin4 then
          (get? (Mem.step body w (.go (.steal (e.k - 1))) s.M)).map fun M => { s.go w .task with M := M }
        else none
      else fireWork c body s w
    else none
  | .caller i =>
    if i < K then
      match s.caller i with
      | .before =>
        if ((List.range K).all fun k => !(s.caller k).isPicking) ∧ ((after i).all fun j => (s.caller j).isBack) then some { s with caller := upd s.caller i .picking }
        else none
      | .picking =>
        if e.k < c.N ∧ s.pc e.k ≠ .fin4 then some { s with caller := upd s.caller i (.waiting s.M.x.c.nf), M := Mem.submit s.M (root i) e.k } else none
      | .waiting f => (valOf f s.M.x.c.log).map fun v => { s with caller := upd s.caller i (.back f v) }
      | .back _ _ => none
    else none
  | .dtor =>
    if s.dpc = .alive then
      if (List.range K).all fun i => (s.caller i).called then some { s with stop := true, dpc := .joining } else none
    else if s.dpc = .joining then
      if (List.range c.N).all fun w => s.pc w = .fin4 then some { s with dpc := .gone } else none
    else none

theorem get_map {α β : Type} {r : Res α} {f : α → β} {b : β} (h : (get? r).map f = some b) : Res.map f r = .ok b := by
  cases r <;> simp [get?] at h
  · rw [← h]; rfl

variable {c body K root after}

theorem work_step {may : E → Prop} (hns : ∀ y d k x, body y ≠ .switch d k x) {w : Nat} (hw : w < c.N) {s s' : B σ V E L} (h : fireWork c body s w = some s') :
    Step c body may K root (depOf after) (.worker w) s (.ok s') := by
  unfold fireWork at h
  split at h
  · rename_i hi
    split at h
    · rename_i hp
      have := Step.take (c := c) (body := body) (may := may) (K := K) (root := root) (dep := depOf after) s w hw hp.1 (idle_iff.1 hi) hp.2
      rw [get_map h] at this; exact this
    · exact .loop s s' w hw h
  · rename_i hi
    split at h
    · rename_i hp
      have := Step.work (c := c) (body := body) (may := may) (K := K) (root := root) (dep := depOf after) s w (.go .take) hw hp (fun e => hi (idle_iff.2 e)) trivial
        (fun d ⟨f, k, x, _, e⟩ => absurd e (hns _ d k x))
      rw [get_map h] at this; exact this
    · exact .loop s s' w hw h

theorem fire_step {may : E → Prop} (hns : ∀ y d k x, body y ≠ .switch d k x) (e : Move) (s s' : B σ V E L) (h : fire c body K root after e s = some s') :
    Step c body may K root (depOf after) e.a s (.ok s') := by
  obtain ⟨a, k⟩ := e
  cases a with
  | worker w =>
    simp only [fire] at h
    split at h
    rotate_left
    · cases h
    rename_i hw
    split at h
    · rename_i hp
      split at h
      · cases h; exact .noSteal s w hw hp
      · split at h
        · rename_i hv
          have := Step.stole (c := c) (body := body) (may := may) (K := K) (root := root) (dep := depOf after) s w (k - 1) hw hv.1 hp
          rw [if_neg hv.2, get_map h] at this; exact this
        · cases h
    · exact work_step hns hw h
  | caller i =>
    simp only [fire] at h
    split at h
    rotate_left
    · cases h
    rename_i hi
    split at h
    · rename_i hc
      split at h
      · rename_i hb
        cases h
        refine .begin s i hi hc (fun _ k hk e => ?_) fun j hj => back_of (List.all_eq_true.1 hb.2 j hj)
        have := List.all_eq_true.1 hb.1 k (List.mem_range.2 hk)
        rw [e] at this; cases this
      · cases h
    · rename_i hc
      split at h
      · rename_i hd
        cases h
        have := Step.submit (c := c) (body := body) (may := may) (K := K) (root := root) (dep := depOf after) s i k hi hc hd.1
        rw [if_neg hd.2] at this; exact this
      · cases h
    · rename_i f hc
      obtain ⟨v, hv, rfl⟩ := Option.map_eq_some_iff.1 h
      exact .get s i f v hi hc (valOf_mem hv)
    · cases h
  | dtor =>
    simp only [fire] at h
    split at h
    · rename_i hd
      split at h
      · rename_i hb
        cases h
        refine .dstop s hd (fun i hi => ?_) fun f _ z _ d k x => hns z d k x
        have := List.all_eq_true.1 hb i (List.mem_range.2 hi)
        cases hx : s.caller i with
        | waiting f => exact .inl ⟨f, rfl⟩
        | back f r => exact .inr ⟨f, r, rfl⟩
        | _ => rw [hx] at this; cases this
      · cases h
    · split at h
      · rename_i hd
        split at h
        · rename_i hb
          cases h
          exact .djoin s hd fun w hw => by simpa using List.all_eq_true.1 hb w (List.mem_range.2 hw)
        · cases h
      · cases h

variable (c K root after)

/-- A script, followed by silence. -/
def Script.run (hns : ∀ y d k x, body y ≠ .switch d k x) (may : E → Prop) (m : L → E) (x : σ) (script : List Move) :
    Fair.Run (system c body may K root (depOf after) m) :=
  Fair.Script.run (S := system c body may K root (depOf after) m) (fire c body K root after) (fun e => e.a) (fire_step hns) (s0 := B.start c x m) ⟨x, rfl⟩ script

variable (body) in
/-- The state after a script. -/
def fin (m : L → E) (x : σ) (script : List Move) : B σ V E L := script.foldl (Fair.tick (fire c body K root after)) (B.start c x m)

end Verif.Busy
