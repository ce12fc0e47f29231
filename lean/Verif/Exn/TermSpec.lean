import Verif.Exn.Spec
import Verif.Fair

/-! When a program with exceptions must come to an end, and its schedules: what C59 is about. (A specification, it models no code.) -/
namespace Verif.Exn
variable {σ V E : Type}

/-- Every serial elision (`Ser`) of a task in state `x`, whose children since the last join ended with `rs` and whose callees since
threw `es`, comes to an end, whichever forks, calls and switches fail and whichever of the exceptions a join rethrows; counting
that of its descendants it takes at most `t` actions (a failed fork, call or switch is one too). -/
inductive Ends (body : σ → Act σ V E) (may : E → Prop) : σ → List (Except E V) → List E → Nat → Prop
  | ret {x v rs es t} : body x = .ret v → 1 ≤ t → Ends body may x rs es t
  | throw {x e rs es t} : body x = .throw e → 1 ≤ t → Ends body may x rs es t
  | fork {x c k h rs es m n t} : body x = .fork c k h → Ends body may c [] [] m →
      (∀ b y, Ser body may c [] [] y → Ends body may (k b) (rs ++ [y]) es n) →
      (∀ e, may e → Ends body may (h e) rs es n) → m + n + 1 ≤ t → Ends body may x rs es t
  | call {x c k h rs es m n t} : body x = .call c k h → Ends body may c [] [] m →
      (∀ v, Ser body may c [] [] (.ok v) → Ends body may (k (some v)) rs es n) →
      (∀ e, Ser body may c [] [] (.error e) → Ends body may (k none) rs (e :: es) n) →
      (∀ e, may e → Ends body may (h e) rs es n) → m + n + 1 ≤ t → Ends body may x rs es t
  | join {x k h rs es n t} : body x = .join k h → (errs rs ++ es = [] → Ends body may (k (oks rs)) [] [] n) →
      (∀ e ∈ errs rs ++ es, Ends body may (h e (rs.map Except.toOption)) [] [] n) → n + 1 ≤ t → Ends body may x rs es t
  | switch {x d k h rs es n t} : body x = .switch d k h → Ends body may k rs es n → (∀ e, may e → Ends body may (h e) rs es n) →
      n + 1 ≤ t → Ends body may x rs es t

/-- The schedules of `N` workers: the tasks submitted (to any of them) started in the states `cs` and the workers have taken `k`
steps in all, which led to state `s`. -/
inductive ExecN (body : σ → Act σ V E) (pend : σ → Nat) (may : E → Prop) (N : Nat) : List σ → Nat → XS σ V E → Prop
  | start (x : σ) : ExecN body pend may N [] 0 (XS.start x)
  | submit {cs : List σ} {k : Nat} {s : XS σ V E} {c : σ} {w : Nat} : ExecN body pend may N cs k s → w < N → pend c = 0 →
      ExecN body pend may N (c :: cs) k (submit s c w)
  | step {cs : List σ} {k : Nat} {s s' : XS σ V E} {w : Nat} {ch : Choice E} : ExecN body pend may N cs k s → w < N → Allowed may ch →
      step body w ch s = .ok s' → ExecN body pend may N cs (k + 1) s'

/-- The runtime after the submissions: workers `0 … N-1` take steps; a worker inside a task or with a submission waiting must not be
ignored for ever (an idle worker need not try to steal). -/
def system (body : σ → Act σ V E) (pend : σ → Nat) (may : E → Prop) (N : Nat) (cs : List σ) : Fair.Sys (XS σ V E) Nat where
  init s := ∃ k, ExecN body pend may N cs k s
  step w s s' := w < N ∧ ∃ ch, Allowed may ch ∧ step body w ch s = .ok s'
  ready s w := w < N ∧ (s.c.pc w ≠ .idle ∨ s.c.inbox w ≠ [])

end Verif.Exn
