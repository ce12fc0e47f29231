import Verif.Runtime.Model

/-!
What the properties of the runtime say, independently of how it works: the serial elision of a task, and the rules every
history of resumptions and suspensions keeps.
-/
namespace Verif.Runtime
variable {σ V : Type}

/-- The serial elision: every fork is a call, a join does nothing. `Ser body x vs v`: a task in state `x` whose children forked
since its last join returned `vs` returns `v`. -/
inductive Ser (body : σ → Act σ V) : σ → List V → V → Prop
  | ret {x : σ} {v : V} {vs : List V} : body x = .ret v → Ser body x vs v
  | fork {x c k : σ} {vs : List V} {y v : V} : body x = .fork c k → Ser body c [] y → Ser body k (vs ++ [y]) v → Ser body x vs v
  | call {x c : σ} {k : V → σ} {vs : List V} {y v : V} : body x = .call c k → Ser body c [] y → Ser body (k y) vs v →
      Ser body x vs v
  | join {x : σ} {k : List V → σ} {vs : List V} {v : V} : body x = .join k → Ser body (k vs) [] v → Ser body x vs v
  | switch {x k : σ} {d : Nat} {vs : List V} {v : V} : body x = .switch d k → Ser body k vs v → Ser body x vs v

/-- The serial elision has at most one result. -/
theorem Ser.det {body : σ → Act σ V} {x : σ} {vs : List V} {v v' : V} (h : Ser body x vs v) (h' : Ser body x vs v') : v = v' := by
  induction h generalizing v' with
  | ret h1 => cases h' <;> simp_all
  | fork h1 _ _ ih1 ih2 =>
    cases h' with
    | fork h2 h3 h4 => rw [h1] at h2; cases h2; cases ih1 h3; exact ih2 h4
    | _ => simp_all
  | call h1 _ _ ih1 ih2 =>
    cases h' with
    | call h2 h3 h4 => rw [h1] at h2; cases h2; cases ih1 h3; exact ih2 h4
    | _ => simp_all
  | join h1 _ ih =>
    cases h' with
    | join h2 h3 => rw [h1] at h2; cases h2; exact ih h3
    | _ => simp_all
  | switch h1 _ ih =>
    cases h' with
    | switch h2 h3 => rw [h1] at h2; cases h2; exact ih h3
    | _ => simp_all

/-- What a history (newest event first) says about a task. -/
inductive Status where
  | new
  | submitted (w : Nat)
  | running (w : Nat)
  | waiting (y : Why)
  | done
  deriving DecidableEq

def status (f : Nat) : List (Ev σ V) → Status
  | [] => .new
  | .submit g _ w :: l => if g = f then .submitted w else status f l
  | .resume g w :: l => if g = f then .running w else status f l
  | .suspend g y :: l => if g = f then .waiting y else status f l
  | .done g _ :: l => if g = f then .done else status f l

/-- The children `f` has forked in a history. -/
def forked (f : Nat) : List (Ev σ V) → List Nat
  | [] => []
  | .suspend g (.fork c) :: l => if g = f then c :: forked f l else forked f l
  | _ :: l => forked f l

/-- The first resumption of `f` on `w` follows at once on the fork or call that made it, on the same worker. -/
def Starts (f w : Nat) : List (Ev σ V) → Prop
  | .suspend p (.fork c) :: l => c = f ∧ status p l = .running w
  | .suspend p (.call c) :: l => c = f ∧ status p l = .running w
  | _ => False

/-- When the task `f` may be resumed on `w`. One that was forked or called starts at once, one that was submitted is resumed
where it was submitted to. Otherwise it is resumed only while it waits: after a fork at any time,
* after a call only when the callee is done,
* after a join only when all the children it ever forked are done,
* after a context switch only by the worker it was handed to. -/
def MayResume (l : List (Ev σ V)) (f w : Nat) : Prop :=
  match status f l with
  | .new => Starts f w l
  | .submitted d => w = d
  | .running _ => False
  | .waiting (.fork _) => True
  | .waiting (.call c) => status c l = .done
  | .waiting .join => ∀ c ∈ forked f l, status c l = .done
  | .waiting (.switch d) => w = d
  | .done => False

/-- A history that keeps the rules: moreover a worker runs one task at a time, and a task is suspended or returns only while it
runs, and returns only when all the children it ever forked are done. -/
def Legal : List (Ev σ V) → Prop
  | [] => True
  | .submit f _ _ :: l => status f l = .new ∧ Legal l
  | .resume f w :: l => (∀ g, status g l ≠ .running w) ∧ MayResume l f w ∧ Legal l
  | .suspend f _ :: l => (∃ w, status f l = .running w) ∧ Legal l
  | .done f _ :: l => (∃ w, status f l = .running w) ∧ (∀ c ∈ forked f l, status c l = .done) ∧ Legal l

end Verif.Runtime
