import Verif.Own.Props
import Verif.Hb.Whole

/-!
C75 without a bound on the steals.
-/
namespace Verif.Own
open Verif.Exn (Choice)
open Verif.Mem (Act)
open Verif.Hb (HS)
variable {σ V E L : Type} [Inhabited E] [DecidableEq L] {body : σ → Act σ V E L} {pend : σ → Nat} {dirty : σ → Prop} {may : E → Prop} {ok : (σ → Prop) → σ → Prop} {m : L → E}

/-- Executions with any number of steals. -/
inductive ReachAny (body : σ → Act σ V E L) (pend : σ → Nat) (may : E → Prop) (ok : (σ → Prop) → σ → Prop) (m : L → E) : OS σ V E L → Prop
  | start (y : σ) : ReachAny body pend may ok m ⟨HS.start y m, []⟩
  | submit {o : OS σ V E L} {c : σ} (t w : Nat) : ReachAny body pend may ok m o → pend c = 0 → ok (Hb.Unseen o.a t) c → ReachAny body pend may ok m (submit o t c w)
  | step {o o' : OS σ V E L} {w : Nat} {ch : Choice E} : ReachAny body pend may ok m o → Mem.Allowed may ch → step body w ch o = .ok o' → ReachAny body pend may ok m o'
  | wait {o : OS σ V E L} {a' : HS σ V E L} (t f : Nat) : ReachAny body pend may ok m o → Hb.wait o.a t f = .ok a' → ReachAny body pend may ok m ⟨a', o.tr⟩
  | other {o : OS σ V E L} (t : Nat) : ReachAny body pend may ok m o → ReachAny body pend may ok m ⟨Hb.other o.a t, o.tr⟩
  | meet {o : OS σ V E L} (t u : Nat) : ReachAny body pend may ok m o → ReachAny body pend may ok m ⟨Hb.meet o.a t u, o.tr⟩

/-- A program whose scopes fork at most 65534 children meets the bound of `Reach` in every schedule. -/
theorem reach_of_bounded (hd : Mem.Disc body pend dirty) (hp : ∀ y, pend y ≤ 65534) {o : OS σ V E L} (h : ReachAny body pend may ok m o) : Reach body pend may ok m o := by
  induction h with
  | start y => exact .start y
  | submit t w _ h2 h3 ih => exact .submit t w ih (Hb.few hd hp (Hb.reach_x (reach_hb ih))) h2 h3
  | step _ h2 h3 ih => exact .step ih (Hb.few hd hp (Hb.reach_x (reach_hb ih))) h2 h3
  | wait t f _ hs ih => exact .wait t f ih hs
  | other t _ ih => exact .other t ih
  | meet t u _ ih => exact .meet t u ih

/-- C75 for programs whose scopes fork at most 65534 children, in every schedule. -/
theorem C75_bounded (hd : Mem.Disc body pend dirty) (hp : ∀ y, pend y ≤ 65534) {o : OS σ V E L} (h : ReachAny body pend may ok m o) :
    o.tr.Pairwise fun later earlier => later.stack = earlier.stack → earlier.no ∈ later.known := C75_stacks hd (reach_of_bounded hd hp h)

end Verif.Own
