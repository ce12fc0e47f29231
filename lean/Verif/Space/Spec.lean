import Verif.Exn.Model
import Verif.Runtime.InvStk

/-!
C69: how much memory the frames of a program may need.
-/
namespace Verif.Space
open Verif.Runtime (State Link Pc linkPar)
variable {σ V E : Type}

/-- From the state `y` a task may itself come to `z` next: whatever it is told or reads, whatever throws. -/
inductive Own (body : σ → Exn.Act σ V E) : σ → σ → Prop
  | fork {y c k x} (b : Bool) : body y = .fork c k x → Own body y (k b)
  | forkX {y c k x} (e : E) : body y = .fork c k x → Own body y (x e)
  | call {y c k x} (r : Option V) : body y = .call c k x → Own body y (k r)
  | callX {y c k x} (e : E) : body y = .call c k x → Own body y (x e)
  | join {y k x} (l : List V) : body y = .join k x → Own body y (k l)
  | joinX {y k x} (e : E) (l : List (Option V)) : body y = .join k x → Own body y (x e l)
  | switch {y d k x} : body y = .switch d k x → Own body y k
  | switchX {y d k x} (e : E) : body y = .switch d k x → Own body y (x e)

inductive Later (body : σ → Exn.Act σ V E) : σ → σ → Prop
  | refl (y : σ) : Later body y y
  | next {x y z : σ} : Later body x y → Own body y z → Later body x z

/-- A task that starts in the state `c` may make, by a fork or a call, one that starts in the state `d`. -/
def Makes (body : σ → Exn.Act σ V E) (c d : σ) : Prop := ∃ y, Later body c y ∧ ((∃ k x, body y = .fork d k x) ∨ ∃ k x, body y = .call d k x)

/-- Tasks each of which is made by the one before it, `c` the first: what is on the stack of a thread that executes the program serially (a fork is a call then). -/
inductive Nested (body : σ → Exn.Act σ V E) : σ → List σ → Prop
  | one (c : σ) : Nested body c [c]
  | more {c d : σ} {l : List σ} : Makes body c d → Nested body d l → Nested body c (c :: l)

/-- Executed serially the task needs no more than `S`; `size c` is the size of the frame of a task that starts in the state `c`. -/
def Needs (body : σ → Exn.Act σ V E) (size : σ → Nat) (S : Nat) (c : σ) : Prop := ∀ l, Nested body c l → (l.map size).sum ≤ S

/-- The frames on the stacks `ks`. -/
def frames {W : Type} (s : State σ W) (ks : List Nat) : List Nat := ks.flatMap s.al

/-- The size of all frames that are on the stacks `ks`. -/
def bytes {W : Type} (size : σ → Nat) (s : State σ W) (ks : List Nat) : Nat := ((frames s ks).map fun f => size (s.init f)).sum

/-- The number of tasks that are in the submission lists of the first `N` workers: submitted, or about to go on after a context switch. -/
def waiting {W : Type} (s : State σ W) (N : Nat) : Nat := ((List.range N).map fun w => (s.inbox w).length).sum

/-- There are `N` workers. -/
def Within {W : Type} (s : State σ W) (N : Nat) : Prop := ∀ w, N ≤ w → s.pc w = .idle ∧ s.inbox w = []

/-- The task a worker is busy with: what it runs, or its parent, or what it will find in its queue. -/
def holds {W : Type} (s : State σ W) (w : Nat) : Option Nat :=
  match s.pc w with
  | .run f | .joinLoad f | .joinSub f | .joinTake f | .stole f => some f
  | .finPop p _ | .finDec p _ _ | .finWin p _ => some p
  | .idle | .finLose _ | .selfSteal | .switchRel _ => (s.q w).head?.map Prod.fst

/-- A frame's ancestors, itself first. -/
def line (link : Nat → Link) : Nat → Nat → List Nat
  | 0, _ => []
  | n + 1, g => g :: match linkPar (link g) with
    | none => []
    | some p => line link n p

/-- `f` is `g` or an ancestor. -/
inductive Anc (link : Nat → Link) (f : Nat) : Nat → Prop
  | refl : Anc link f f
  | up {p g : Nat} : linkPar (link g) = some p → Anc link f p → Anc link f g

end Verif.Space
