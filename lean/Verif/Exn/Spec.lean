import Verif.Exn.Model
import Verif.Runtime.InvCount
import Verif.Runtime.Spec

/-!
What a program must not do, and what its serial elision is, when tasks throw. The rules for histories (`Legal`) are those of
Verif.Runtime.Spec; `done f r` says that task `f` ended, by returning or by throwing.
-/
namespace Verif.Exn
open Verif.Runtime (Few)
variable {σ V E : Type}

/-- The rules of the library for a task: whatever happened, a task joins before it ends if it has forked children since its last
join (`pend`: their number) or if a callee may have thrown since (`dirty`). -/
structure Disc (body : σ → Act σ V E) (pend : σ → Nat) (dirty : σ → Prop) : Prop where
  ret : ∀ s v, body s = .ret v → pend s = 0 ∧ ¬ dirty s
  throw : ∀ s e, body s = .throw e → pend s = 0 ∧ ¬ dirty s
  fork : ∀ s c k x, body s = .fork c k x → pend c = 0 ∧
    (∀ b, pend (k b) = pend s + 1 ∧ (dirty s → dirty (k b))) ∧ ∀ e, pend (x e) = pend s ∧ (dirty s → dirty (x e))
  call : ∀ s c k x, body s = .call c k x → pend c = 0 ∧
    (∀ r, pend (k r) = pend s ∧ (r = none ∨ dirty s → dirty (k r))) ∧ ∀ e, pend (x e) = pend s ∧ (dirty s → dirty (x e))
  join : ∀ s k x, body s = .join k x → (∀ l, pend (k l) = 0) ∧ ∀ e l, pend (x e l) = 0
  switch : ∀ s d k x, body s = .switch d k x → pend k = pend s ∧ (dirty s → dirty k) ∧
    ∀ e, pend (x e) = pend s ∧ (dirty s → dirty (x e))

/-- The exceptions among some results. -/
def errs : List (Except E V) → List E
  | [] => []
  | .ok _ :: l => errs l
  | .error e :: l => e :: errs l

/-- The values among some results. -/
def oks : List (Except E V) → List V
  | [] => []
  | .ok v :: l => v :: oks l
  | .error _ :: l => oks l

/-- The serial elision: every fork is a call, a join does nothing but rethrow. `Ser body may x rs es r`: a task in state `x` whose
children forked since its last join ended with the results `rs`, and since when callees threw `es`, ends with the result `r`. A
join rethrows if and only if there is something to rethrow, and then one of these exceptions. A fork, call or switch may itself
throw an exception of `may`. -/
inductive Ser (body : σ → Act σ V E) (may : E → Prop) : σ → List (Except E V) → List E → Except E V → Prop
  | ret {x rs es v} : body x = .ret v → Ser body may x rs es (.ok v)
  | throw {x rs es e} : body x = .throw e → Ser body may x rs es (.error e)
  | fork {x c k h rs es y r} (b : Bool) : body x = .fork c k h → Ser body may c [] [] y → Ser body may (k b) (rs ++ [y]) es r →
      Ser body may x rs es r
  | call {x c k h rs es v r} : body x = .call c k h → Ser body may c [] [] (.ok v) → Ser body may (k (some v)) rs es r →
      Ser body may x rs es r
  | callThrew {x c k h rs es e r} : body x = .call c k h → Ser body may c [] [] (.error e) → Ser body may (k none) rs (e :: es) r →
      Ser body may x rs es r
  | join {x k h rs r} : body x = .join k h → errs rs = [] → Ser body may (k (oks rs)) [] [] r → Ser body may x rs [] r
  | rethrow {x k h rs es e r} : body x = .join k h → e ∈ errs rs ++ es →
      Ser body may (h e (rs.map Except.toOption)) [] [] r → Ser body may x rs es r
  | switch {x d k h rs es r} : body x = .switch d k h → Ser body may k rs es r → Ser body may x rs es r
  | forkFails {x c k h rs es r} (e : E) : may e → body x = .fork c k h → Ser body may (h e) rs es r → Ser body may x rs es r
  | callFails {x c k h rs es r} (e : E) : may e → body x = .call c k h → Ser body may (h e) rs es r → Ser body may x rs es r
  | switchFails {x d k h rs es r} (e : E) : may e → body x = .switch d k h → Ser body may (h e) rs es r → Ser body may x rs es r

/-- Exceptions thrown by forks, calls and switches themselves are in `may`. -/
def Allowed (may : E → Prop) : Choice E → Prop
  | .fail e _ => may e
  | _ => True

/-- The states reached by any number of workers taking steps in any order while root tasks are submitted at any time, as long as
no task is stolen more than 65534 times between two joins (C10). -/
inductive Reach (body : σ → Act σ V E) (pend : σ → Nat) (may : E → Prop) : XS σ V E → Prop
  | start (x : σ) : Reach body pend may (XS.start x)
  | submit {s : XS σ V E} {c : σ} (w : Nat) : Reach body pend may s → Few s.c → pend c = 0 → Reach body pend may (submit s c w)
  | step {s s' : XS σ V E} {w : Nat} {ch : Choice E} : Reach body pend may s → Few s.c → Allowed may ch → step body w ch s = .ok s' →
      Reach body pend may s'

end Verif.Exn
