import Verif.Mem.Serial

/-!
A rule for programs without races: what a task may access, and that it may not conflict with the children it has forked and not yet joined.
-/
namespace Verif.Mem

variable {σ V E L : Type}

/-- What a task and its children may access from a state on (`R`; `W`: write), and what before it has joined the children it has
forked so far, not counting those (`Rj`, `Wj`). What is written counts as accessed. `I`: the states tasks can be in. -/
structure Foot (σ L : Type) where
  I : σ → Prop
  R : σ → L → Prop
  W : σ → L → Prop
  Rj : σ → L → Prop
  Wj : σ → L → Prop

/-- What is written by one is not accessed by the other. -/
def Apart (R W R' W' : L → Prop) : Prop := ∀ l, (W l → ¬ R' l) ∧ (W' l → ¬ R l)

/-- From the state `y'` on no more than from `y` on. -/
structure Foot.Less (F : Foot σ L) (y' y : σ) : Prop where
  I : F.I y'
  R : ∀ l, F.R y' l → F.R y l
  W : ∀ l, F.W y' l → F.W y l

/-- Nor before the next join. -/
structure Foot.LessJ (F : Foot σ L) (y' y : σ) : Prop extends F.Less y' y where
  Rj : ∀ l, F.Rj y' l → F.Rj y l
  Wj : ∀ l, F.Wj y' l → F.Wj y l

/-- A child in the state `c` does no more than its parent in `y`, before the parent's next join. -/
structure Foot.Child (F : Foot σ L) (c y : σ) : Prop extends F.Less c y where
  Rj : ∀ l, F.R c l → F.Rj y l
  Wj : ∀ l, F.W c l → F.Wj y l

/-- The rule. -/
structure Foot.Ok (F : Foot σ L) (body : σ → Act σ V E L) (may : E → Prop) : Prop where
  load : ∀ y l k, F.I y → body y = .load l k → F.R y l ∧ F.Rj y l ∧ ∀ d, F.LessJ (k d) y
  store : ∀ y l d k, F.I y → body y = .store l d k → F.R y l ∧ F.Rj y l ∧ F.W y l ∧ F.Wj y l ∧ F.LessJ k y
  /-- The parent may go on while the child runs, unless it is told that the child has ended. -/
  fork : ∀ y c k x, F.I y → body y = .fork c k x → F.Child c y ∧ (∀ b, F.LessJ (k b) y) ∧ (∀ e, may e → F.LessJ (x e) y) ∧
    Apart (F.R c) (F.W c) (F.Rj (k false)) (F.Wj (k false))
  call : ∀ y c k x, F.I y → body y = .call c k x → F.Child c y ∧ (∀ r, F.LessJ (k r) y) ∧ ∀ e, may e → F.LessJ (x e) y
  join : ∀ y k x, F.I y → body y = .join k x → (∀ l, F.Less (k l) y) ∧ ∀ e l, F.Less (x e l) y
  switch : ∀ y d k x, F.I y → body y = .switch d k x → F.LessJ k y ∧ ∀ e, may e → F.LessJ (x e) y

/-- Tasks are submitted only if they do not conflict with those that run. -/
def Foot.Roots (F : Foot σ L) (ok : (σ → Prop) → σ → Prop) : Prop :=
  ∀ O c, ok O c → F.I c ∧ ∀ c', O c' → Apart (F.R c) (F.W c) (F.R c') (F.W c')

end Verif.Mem
