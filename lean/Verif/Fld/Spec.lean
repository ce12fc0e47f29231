import Verif.Fld.Model
import Verif.Hb.Spec

/-!
The executions C76 is about, and what a race is.
-/
namespace Verif.Fld
open Verif.Runtime (Few)
open Verif.Exn (Choice)
open Verif.Mem (Act)
open Verif.Hb (HS)
variable {σ V E L : Type}

/-- Executions, as in Verif.Hb.Spec: threads submit tasks, wait for them, synchronise and do other things, and workers take steps, in any order. -/
inductive Reach [Inhabited E] [DecidableEq L] (body : σ → Act σ V E L) (pend : σ → Nat) (may : E → Prop) (ok : (σ → Prop) → σ → Prop) (m : L → E) :
    FS σ V E L → Prop
  | start (y : σ) : Reach body pend may ok m ⟨HS.start y m, []⟩
  | submit {o : FS σ V E L} {c : σ} (t w : Nat) : Reach body pend may ok m o → Few o.a.s.x.c → pend c = 0 → ok (Hb.Unseen o.a t) c → Reach body pend may ok m (submit o t c w)
  | step {o o' : FS σ V E L} {w : Nat} {ch : Choice E} : Reach body pend may ok m o → Few o.a.s.x.c → Mem.Allowed may ch → step body w ch o = .ok o' →
      Reach body pend may ok m o'
  | wait {o : FS σ V E L} {a' : HS σ V E L} (t f : Nat) : Reach body pend may ok m o → Hb.wait o.a t f = .ok a' → Reach body pend may ok m ⟨a', o.tr⟩
  | other {o : FS σ V E L} (t : Nat) : Reach body pend may ok m o → Reach body pend may ok m ⟨Hb.other o.a t, o.tr⟩
  | meet {o : FS σ V E L} (t u : Nat) : Reach body pend may ok m o → Reach body pend may ok m ⟨Hb.meet o.a t u, o.tr⟩

/-- Two accesses that must not be concurrent: to one member of one frame, not both reads and not both atomic. -/
def Clash (r r' : Acc) : Prop :=
  r.frame = r'.frame ∧ r.mbr = r'.mbr ∧ ¬ (r.kind = .read ∧ r'.kind = .read) ∧ ¬ (r.kind = .atomic ∧ r'.kind = .atomic)

end Verif.Fld
