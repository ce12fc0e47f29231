import Verif.Runtime.Step

/-!
Invariants, first part: where every task is, and who its children are.
-/
namespace Verif.Runtime
variable {σ V : Type}

/-- The frame exists. -/
def Alive : Loc → Prop
  | .unborn => False
  | .finishing _ => False
  | .gone => False
  | _ => True

/-- The token of a task is in exactly one place. -/
structure InvLoc (s : State σ V) : Prop where
  fresh : ∀ f, s.loc f = .unborn ↔ s.nf ≤ f
  run : ∀ w f, s.loc f = .running w ↔ (s.pc w = .run f ∨ s.pc w = .joinLoad f ∨ s.pc w = .joinSub f)
  sto : ∀ w f, s.loc f = .stolenBy w ↔ s.pc w = .stole f
  win : ∀ w f, s.loc f = .winning w ↔ (s.pc w = .joinTake f ∨ ∃ b, s.pc w = .finWin f b)
  fin : ∀ w f, s.loc f = .finishing w ↔ ∃ p, (s.pc w = .finPop p f ∨ ∃ b, s.pc w = .finDec p f b)
  queue : ∀ w f c, s.loc f = .queued w c ↔ (f, c) ∈ s.q w
  inb : ∀ w f, s.loc f = .inbox w ↔ f ∈ s.inbox w
  qnd : ∀ w, (s.q w).Nodup
  ind : ∀ w, (s.inbox w).Nodup

/-- The parent of a forked task. -/
def forkPar : Link → Option Nat
  | .fork p _ => some p
  | _ => none

/-- Parents and children. -/
structure InvLink (s : State σ V) : Prop where
  olderF : ∀ f p, f < s.nf → forkPar (s.link f) = some p → p < f
  olderC : ∀ f p, f < s.nf → s.link f = .call p → p < f
  callw : ∀ p c, s.loc p = .callwait c ↔ (s.link c = .call p ∧ Alive (s.loc c))
  qlink : ∀ w p c, (p, c) ∈ s.q w → forkPar (s.link c) = some p
  qborn : ∀ w p c, (p, c) ∈ s.q w → s.loc c ≠ .unborn
  flink : ∀ w p c, s.pc w = .finPop p c → forkPar (s.link c) = some p
  flink' : ∀ w p c b, s.pc w = .finDec p c b → forkPar (s.link c) = some p
  kid : ∀ c p, forkPar (s.link c) = some p → s.loc c ≠ .unborn → s.loc c ≠ .gone → Alive (s.loc p)
  knd : ∀ p, (s.fr p).kids.Nodup
  kids : ∀ p, Alive (s.loc p) → ∀ c, c ∈ (s.fr p).kids ↔ forkPar (s.link c) = some p ∧ s.loc c ≠ .unborn ∧ s.loc c ≠ .gone

theorem upd_same {α : Type} (f : Nat → α) (i : Nat) (v : α) : upd f i v i = v := by simp [upd]
theorem upd_ne {α : Type} (f : Nat → α) {i j : Nat} (v : α) (h : j ≠ i) : upd f i v j = f j := by simp [upd, h]
theorem upd_apply {α : Type} (f : Nat → α) (i : Nat) (v : α) (j : Nat) : upd f i v j = if j = i then v else f j := rfl

end Verif.Runtime
