import Verif.Weak.Model
import Verif.Weak.Wf

/-! Invariants of the deque on the view machine, first part: views. -/
namespace Verif.Weak
open Verif.Deque (Ev OOp ORet SRet setT)
variable {ι : Type} [DecidableEq ι]

/-- All views refer to existing messages. -/
structure IW (s : St ι) : Prop where
  m : MWf s.mem
  o : TWf s.mem s.otv
  t : ∀ i, TWf s.mem (s.ttv i)

theorem IW.init (junk : Nat → Nat → Int) : IW (St.init junk : St ι) := ⟨.init _, .init _, fun _ => .init _⟩

theorem setT_all {α : Type} {P : α → Prop} {f : ι → α} (h : ∀ j, P (f j)) {i : ι} {x : α} (hx : P x) : ∀ j, P (setT f i x j) := by
  intro j; unfold setT; split
  · exact hx
  · exact h j

theorem IW.step {relBuf : Bool} {cap : Nat} {s s' : St ι} {e : Option (Ev ι Int)} (h : IW s)
    (st : Step relBuf cap s e s') : IW s' := by
  obtain ⟨m, o, t⟩ := h
  cases st
  case oinvPush | oinvPop | oret | sinv | sret | copied => exact ⟨m, o, t⟩
  case osync w h1 h2 => exact ⟨m, o.sync h2, t⟩
  case tsync i w h1 h2 => exact ⟨m, o, setT_all t ((t i).sync h2)⟩
  case copy v b t' i buf j h1 h2 h3 =>
    have ho := o.read m (l := slot cap buf i) false h3.2
    exact ⟨m.store ho _ _ _, ho.bump _ _ _, fun i => (t i).append _ _ _⟩
  case push4 h1 => exact ⟨m.store o _ _ _, o.bump _ _ _, fun i => (t i).append _ _ _⟩
  case push5 h1 => exact ⟨m.store o _ _ _, o.bump _ _ _, fun i => (t i).append _ _ _⟩
  case push7 h1 => exact ⟨m.store o _ _ _, o.bump _ _ _, fun i => (t i).append _ _ _⟩
  case pop2 h1 => exact ⟨m.store o _ _ _, o.bump _ _ _, fun i => (t i).append _ _ _⟩
  case pop5 h1 => exact ⟨m.store o _ _ _, o.bump _ _ _, fun i => (t i).append _ _ _⟩
  case pop6 h1 => exact ⟨m.store o _ _ _, o.bump _ _ _, fun i => (t i).append _ _ _⟩
  case odata h1 => exact ⟨m.store o _ _ _, o.bump _ _ _, fun i => (t i).append _ _ _⟩
  case tdata i n v h1 => exact ⟨m.store (t i) _ _ _, o.append _ _ _, setT_all (fun j => (t j).append _ _ _) ((t i).bump _ _ _)⟩
  case push6 => exact ⟨m, o.fenceRel, t⟩
  case popF => exact ⟨m.fenceSC o, o.fenceSC m, fun i => (t i).fenceSC'⟩
  case pop4ok => exact ⟨m.rmw o _ _, o.rmw m _ _, fun i => (t i).append _ _ _⟩
  case stF i _ _ => exact ⟨m.fenceSC (t i), o.fenceSC', setT_all (fun j => (t j).fenceSC') ((t i).fenceSC m)⟩
  case st4ok i _ _ _ _ _ => exact ⟨m.rmw (t i) _ _, o.append _ _ _, setT_all (fun j => (t j).append _ _ _) ((t i).rmw m _ _)⟩
  case st0 i _ _ h => exact ⟨m, o, setT_all t ((t i).read m true h.2)⟩
  case st1 i _ _ _ h _ => exact ⟨m, o, setT_all t ((t i).read m true h.2)⟩
  case st1empty i _ _ _ h _ => exact ⟨m, o, setT_all t ((t i).read m true h.2)⟩
  case st2 i _ _ _ _ h => exact ⟨m, o, setT_all t ((t i).read m true h.2)⟩
  case st3 i _ _ _ _ _ h => exact ⟨m, o, setT_all t ((t i).read m false h.2)⟩
  case st4fail i _ _ _ _ _ h _ => exact ⟨m, o, setT_all t ((t i).read m false h.2)⟩
  all_goals first
    | exact ⟨m, o.read m _ (CanRead.right ‹_›), t⟩
    | (rename_i h; exact ⟨m, o.read m _ h.2, t⟩)
    | (rename_i h _; exact ⟨m, o.read m _ h.2, t⟩)

end Verif.Weak
