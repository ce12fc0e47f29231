import Verif.Runtime.Legal
import Verif.Runtime.InvLocStep
import Verif.Runtime.InvLinkStep
import Verif.Runtime.InvCountStep
import Verif.Runtime.InvStStep
import Verif.Runtime.InvQStep
import Verif.Runtime.InvStkStep
import Verif.Runtime.InvValStep
import Verif.Runtime.InvLogStep

/-!
Reachable states, the whole invariant, and that no step goes wrong.
-/
namespace Verif.Runtime
variable {σ V : Type}

/-- The states reached by any number of workers taking steps in any order while root tasks are submitted at any time, as long as
no task is stolen more than 65534 times between two joins. -/
inductive Reach (body : σ → Act σ V) (pend : σ → Nat) : State σ V → Prop
  | start (x : σ) : Reach body pend (State.start x)
  | submit {s : State σ V} {c : σ} (w : Nat) : Reach body pend s → Few s → pend c = 0 → Reach body pend (submit s c w)
  | step {s s' : State σ V} {w : Nat} {ch : Choice} : Reach body pend s → Few s → step body w ch s = .ok s' →
      Reach body pend s'

structure Inv (body : σ → Act σ V) (pend : σ → Nat) (s : State σ V) : Prop where
  loc : InvLoc s
  link : InvLink s
  count : InvCount s
  st : InvSt body pend s
  q : InvQ s
  stk : InvStk s
  val : InvVal body s
  log : InvLog s
  res : InvRes body s
  legal : Legal s.log

theorem Inv.ctx {body : σ → Act σ V} {pend : σ → Nat} {s : State σ V} (h : Inv body pend s) (hf : Few s) : Ctx s :=
  ⟨h.loc, h.link, h.count, h.q, hf, h.stk⟩

theorem inv_step {body : σ → Act σ V} {pend : σ → Nat} (hd : Disc body pend) {s s' : State σ V} (h : Inv body pend s) (hf : Few s)
    (hP : ∀ c, P c → pend c = 0) (st : Step body P s s') : Inv body pend s' := by
  have hw := hw_of h.loc h.link h.count hf
  have hk := hk_of hd h.loc h.count h.st
  have hx := h.ctx hf
  exact ⟨invLoc_step h.loc h.link hw st, invLink_step h.loc h.link hw hk st, invCount_step h.loc h.link h.count hf st,
    invSt_step hd h.loc h.link h.count h.st hf hP st, invQ_step h.loc h.link h.q st, invStk_step hx st,
    invVal_step hd hx h.st h.val st, invLog_step hd hx h.st h.log st, invRes_step hd hx h.st h.val h.res st,
    legal_step hd hx h.st h.log h.legal st⟩

theorem inv_start (body : σ → Act σ V) (pend : σ → Nat) (x : σ) : Inv body pend (State.start x) := by
  have na : ∀ f, ¬ Alive ((State.start (V := V) x).loc f) := fun f h => h
  refine ⟨?_, ?_, ?_, ?_, ?_, ?_, ?_, ?_, ?_, ?_⟩
  · constructor <;> simp [State.start]
  · constructor <;> simp [State.start, Alive, forkPar]
  · constructor <;> simp [State.start, Alive]
  · constructor <;> simp [State.start, Alive]
  · constructor <;> simp [State.start, forkPar, QAdj]
  · constructor
    case fr2 => intro n _ w; simp only [State.start]; omega
    all_goals simp [State.start, SAdj, Alive, Zomb]
    omega
  · constructor <;> simp [State.start, Alive]
  · constructor <;> simp [State.start, status, forked]
  · constructor <;> simp [State.start]
  · trivial

theorem reach_inv {body : σ → Act σ V} {pend : σ → Nat} (hd : Disc body pend) {s : State σ V} (h : Reach body pend s) :
    Inv body pend s := by
  induction h with
  | start x => exact inv_start body pend x
  | submit w _ hf hp ih => exact inv_step hd ih hf (P := fun c => pend c = 0) (fun _ h => h) (.submit _ _ w hp)
  | step _ hf hs ih => exact inv_step hd ih hf (P := fun c => pend c = 0) (fun _ h => h) (step_rel hs)

end Verif.Runtime
