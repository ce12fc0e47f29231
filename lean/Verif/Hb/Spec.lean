import Verif.Hb.Model
import Verif.Mem.Spec

/-!
The executions C72 is about, and what it says about them.
-/
namespace Verif.Hb
open Verif.Runtime (Ev Few)
open Verif.Exn (XS Choice)
open Verif.Mem (MS Act)
variable {σ V E L : Type}

/-- Task `f` has ended, and all it did comes before what thread `t` does next. -/
def Over (a : HS σ V E L) (t f : Nat) : Prop := (∃ r, Ev.done f r ∈ a.s.x.c.log) ∧ a.g.L f ⊆ a.g.T t

/-- The submitted tasks that may still be running when thread `t` takes its next step. -/
def Unseen (a : HS σ V E L) (t : Nat) (c : σ) : Prop := ∃ f w, Ev.submit f c w ∈ a.s.x.c.log ∧ ¬ Over a t f

/-- Executions: threads submit tasks that keep the rules (pend = 0), as `ok` allows it given those that may be running, wait for them, synchronise with each other and do other things,
and workers take steps, in any order. -/
inductive Reach [Inhabited E] [DecidableEq L] (body : σ → Act σ V E L) (pend : σ → Nat) (may : E → Prop) (ok : (σ → Prop) → σ → Prop) (m : L → E) :
    HS σ V E L → Prop
  | start (y : σ) : Reach body pend may ok m (HS.start y m)
  | submit {a : HS σ V E L} {c : σ} (t w : Nat) : Reach body pend may ok m a → Few a.s.x.c → pend c = 0 → ok (Unseen a t) c → Reach body pend may ok m (submit a t c w)
  | step {a a' : HS σ V E L} {w : Nat} {ch : Choice E} : Reach body pend may ok m a → Few a.s.x.c → Mem.Allowed may ch → step body w ch a = .ok a' →
      Reach body pend may ok m a'
  | wait {a a' : HS σ V E L} (t f : Nat) : Reach body pend may ok m a → wait a t f = .ok a' → Reach body pend may ok m a'
  | other {a : HS σ V E L} (t : Nat) : Reach body pend may ok m a → Reach body pend may ok m (other a t)
  | meet {a : HS σ V E L} (t u : Nat) : Reach body pend may ok m a → Reach body pend may ok m (meet a t u)

/-- Task `c` is `f` or one of its descendants. -/
inductive Under (par : Nat → Par) (f : Nat) : Nat → Prop
  | self : Under par f f
  | fork {c p : Nat} : par c = .fork p → Under par f p → Under par f c
  | call {c p : Nat} : par c = .call p → Under par f p → Under par f c

/-- Two accesses to one join counter, one of which is its construction, which is not atomic. -/
def Clash (r r' : Rec L) : Prop := ∃ p b b', r.cnt = some (p, b) ∧ r'.cnt = some (p, b') ∧ (b = true ∨ b' = true)

/-- Two accesses to one location of the shared memory, one of which is a write. -/
def Conflict (r r' : Rec L) : Prop := ∃ l b b', r.acc = some (l, b) ∧ r'.acc = some (l, b') ∧ (b = true ∨ b' = true)

end Verif.Hb
