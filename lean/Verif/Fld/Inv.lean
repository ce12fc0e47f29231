import Verif.Fld.Spec
import Verif.Hb.Whole

/-!
Who knows about the accesses to a frame: its task, and of those that exclude the children, the children.
-/
namespace Verif.Fld
open Verif.Runtime (State Res Fr Pc Loc Link Alive Few forkPar upd upd_apply upd_same upd_ne maxU16)
open Verif.Exn (XS Choice)
open Verif.Mem (MS Act)
open Verif.Hb (HS Clk Ord Par I Fx JX All who sync order)

variable {σ V E L : Type}

/-- `c` is a child of `p`. -/
def Kid (g : Ord) (c p : Nat) : Prop := g.par c = .fork p ∨ g.par c = .call p

/-- What a child does with its parent's frame. -/
def Up : Mbr → Kind → Prop
  | .fixed, .read => True
  | .join, .atomic => True
  | .flag, .atomic => True
  | .eptr, .write => True
  | _, _ => False

/-- What does not go together with the children's accesses, but for the exception itself. -/
def Hard : Mbr → Kind → Prop
  | .fixed, .write => True
  | .fixed, .atomic => True
  | .join, .read => True
  | .join, .write => True
  | .flag, .read => True
  | .flag, .write => True
  | _, _ => False

theorem hard_not_up {m : Mbr} {k : Kind} (h : Hard m k) : ¬ Up m k := by cases m <;> cases k <;> first | exact id | exact fun _ => h

theorem soft_up {m : Mbr} {k k' : Kind} (h1 : ¬ Hard m k) (h2 : m ≠ .eptr) (h3 : Up m k') (h4 : ¬ (k = .read ∧ k' = .read)) : k = .atomic ∧ k' = .atomic := by
  cases m <;> cases k <;> cases k' <;> first | exact ⟨rfl, rfl⟩ | exact absurd ⟨rfl, rfl⟩ h4 | exact absurd trivial h1 | exact h3.elim | exact absurd rfl h2

theorem up_hard {m : Mbr} {k k' : Kind} (h1 : Up m k) (h2 : m ≠ .eptr) (h3 : ¬ (k = .read ∧ k' = .read)) (h4 : ¬ (k = .atomic ∧ k' = .atomic)) : Hard m k' := by
  cases m <;> cases k <;> cases k' <;> first | trivial | exact absurd ⟨rfl, rfl⟩ h3 | exact absurd ⟨rfl, rfl⟩ h4 | exact h1.elim | exact absurd rfl h2

structure FI (x : XS σ V E) (g : Ord) (tr : List Acc) : Prop where
  cls : ∀ r ∈ tr, r.frame < x.c.nf ∧ (r.no ∈ g.L r.frame ∨ ∃ c, c < x.c.nf ∧ Kid g c r.frame ∧ r.no ∈ g.L c ∧ Up r.mbr r.kind)
  hard : ∀ r ∈ tr, Hard r.mbr r.kind → ∀ c, c < x.c.nf → Kid g c r.frame → x.c.loc c ≠ .gone → r.no ∈ g.L c
  e1 : ∀ r ∈ tr, r.mbr = .eptr → x.exc r.frame = none → r.no ∈ g.L r.frame
  e2 : ∀ r ∈ tr, r.mbr = .eptr → x.exc r.frame = none → ∀ c, c < x.c.nf → Kid g c r.frame → x.c.loc c ≠ .gone → r.no ∈ g.L c

/-- The worker's step starts a new task from `f`. -/
def New (body : σ → Act σ V E L) (w : Nat) (ch : Choice E) (x : XS σ V E) (f : Nat) : Prop :=
  x.c.pc w = .run f ∧ (∃ o, ch = .go o) ∧ ((∃ c k z, body (x.c.fr f).st = .fork c k z) ∨ ∃ c k z, body (x.c.fr f).st = .call c k z)

/-- The worker's step ends `f`. -/
def End (body : σ → Act σ V E L) (w : Nat) (ch : Choice E) (x : XS σ V E) (f : Nat) : Prop :=
  x.c.pc w = .run f ∧ (∃ o, ch = .go o) ∧ ((∃ v, body (x.c.fr f).st = .ret v) ∨ ∃ v, body (x.c.fr f).st = .throw v)

/-- The worker's step completes a join of `f`. -/
def Pass (body : σ → Act σ V E L) (w : Nat) (ch : Choice E) (x : XS σ V E) (f : Nat) : Prop :=
  x.c.pc w = .joinTake f ∨ (∃ b, x.c.pc w = .finWin f b) ∨
    x.c.pc w = .run f ∧ (∃ o, ch = .go o) ∧ (∃ k z, body (x.c.fr f).st = .join k z) ∧ (x.c.fr f).steal = 0

/-- The worker's step captures an exception in the frame of `p`. -/
def Catch (body : σ → Act σ V E L) (w : Nat) (ch : Choice E) (x : XS σ V E) (f p : Nat) : Prop :=
  x.c.pc w = .run f ∧ (∃ o, ch = .go o) ∧ (∃ e, body (x.c.fr f).st = .throw e) ∧ (x.c.link f = .call p ∨ ∃ i, x.c.link f = .fork p i)

/-- Why a step accesses a member. -/
def Why (body : σ → Act σ V E L) (w : Nat) (ch : Choice E) (x : XS σ V E) (t : Nat) (y : Nat × Mbr × Kind) : Prop :=
  (y.1 = t ∧ ((¬ Hard y.2.1 y.2.2 ∧ y.2.1 ≠ .eptr) ∨ Pass body w ch x t ∨ End body w ch x t)) ∨
  (y.1 = x.c.nf ∧ New body w ch x t) ∨
  ((x.c.link t = .call y.1 ∨ forkPar (x.c.link t) = some y.1) ∧ Up y.2.1 y.2.2 ∧ (y.2.1 = .eptr → x.exc y.1 = none ∧ Catch body w ch x t y.1))

theorem whole_why {P : Nat × Mbr × Kind → Prop} {f : Nat} (h : ∀ m k, P (f, m, k)) : ∀ y ∈ whole f, P y := by
  intro y hy
  simp only [whole, List.mem_cons, List.not_mem_nil, or_false] at hy
  rcases hy with rfl | rfl | rfl | rfl | rfl | rfl <;> exact h _ _

theorem rethrow_why {P : Nat × Mbr × Kind → Prop} {f : Nat} {e : Option E} (h : ∀ m k, P (f, m, k)) : ∀ y ∈ rethrow f e, P y := by
  intro y hy
  unfold rethrow at hy
  split at hy <;> simp only [List.mem_cons, List.not_mem_nil, or_false] at hy
  · rcases hy with rfl | rfl | rfl | rfl <;> exact h _ _
  · rcases hy with rfl | rfl | rfl | rfl | rfl | rfl <;> exact h _ _

theorem asserts_why {P : Nat × Mbr × Kind → Prop} {f : Nat} (h : ∀ m k, P (f, m, k)) : ∀ y ∈ asserts f, P y := by
  intro y hy
  simp only [asserts, List.mem_cons, List.not_mem_nil, or_false] at hy
  rcases hy with rfl | rfl | rfl | rfl <;> exact h _ _

theorem capture_why {P : Nat × Mbr × Kind → Prop} {p : Nat} {e : Option E} (h1 : P (p, .flag, .atomic)) (h2 : e = none → P (p, .eptr, .write)) : ∀ y ∈ capture p e, P y := by
  intro y hy
  unfold capture at hy
  split at hy <;> simp only [List.mem_cons, List.not_mem_nil, or_false] at hy
  · rcases hy with rfl | rfl
    · exact h1
    · exact h2 rfl
  · subst hy; exact h1

theorem why_run {body : σ → Act σ V E L} {w f : Nat} {ch : Choice E} {x : XS σ V E} (hp : x.c.pc w = .run f) : ∀ y ∈ touchRun body f ch x, Why body w ch x f y := by
  have soft : ∀ m k, ¬ Hard m k → m ≠ .eptr → Why body w ch x f (f, m, k) := fun m k h1 h2 => .inl ⟨rfl, .inl ⟨h1, h2⟩⟩
  have up : ∀ p, x.c.link f = .call p → Why body w ch x f (p, .fixed, .read) := fun p hl => .inr (.inr ⟨.inl hl, trivial, fun h => by cases h⟩)
  intro y hy
  unfold touchRun at hy
  rcases List.mem_cons.1 hy with rfl | hy
  · exact soft _ _ id (by simp)
  split at hy
  · rename_i v o hb _
    have en : ∀ m k, Why body w (.go o) x f (f, m, k) := fun m k => .inl ⟨rfl, .inr (.inr ⟨hp, ⟨o, rfl⟩, .inl ⟨v, hb⟩⟩)⟩
    rcases List.mem_append.1 hy with hy | hy
    · rcases List.mem_append.1 hy with hy | hy
      · exact asserts_why en y hy
      · exact whole_why en y hy
    · split at hy
      · rename_i p hl; rcases List.mem_singleton.1 hy with rfl; exact up p hl
      · cases hy
      · cases hy
  · rename_i v o hb _
    have en : ∀ m k, Why body w (.go o) x f (f, m, k) := fun m k => .inl ⟨rfl, .inr (.inr ⟨hp, ⟨o, rfl⟩, .inr ⟨v, hb⟩⟩)⟩
    rcases List.mem_append.1 hy with hy | hy
    · rcases List.mem_append.1 hy with hy | hy
      · exact asserts_why en y hy
      · exact whole_why en y hy
    · split at hy
      · rename_i p hl
        rcases List.mem_cons.1 hy with rfl | hy
        · exact up p hl
        · exact capture_why (P := Why body w (.go o) x f) (.inr (.inr ⟨.inl hl, trivial, fun h => by cases h⟩))
            (fun he => .inr (.inr ⟨.inl hl, trivial, fun _ => ⟨he, hp, ⟨o, rfl⟩, ⟨v, hb⟩, .inl hl⟩⟩)) y hy
      · rename_i p i hl
        have hl' : forkPar (x.c.link f) = some p := by rw [hl]; rfl
        exact capture_why (P := Why body w (.go o) x f) (.inr (.inr ⟨.inr hl', trivial, fun h => by cases h⟩))
            (fun he => .inr (.inr ⟨.inr hl', trivial, fun _ => ⟨he, hp, ⟨o, rfl⟩, ⟨v, hb⟩, .inr ⟨i, hl⟩⟩⟩)) y hy
      · cases hy
  · rename_i c k z o hb _
    rcases List.mem_cons.1 hy with rfl | hy
    · exact soft _ _ id (by simp)
    · exact whole_why (fun _ _ => .inr (.inl ⟨rfl, hp, ⟨o, rfl⟩, .inl ⟨c, k, z, hb⟩⟩)) y hy
  · rename_i c k z o hb _
    exact whole_why (fun _ _ => .inr (.inl ⟨rfl, hp, ⟨o, rfl⟩, .inr ⟨c, k, z, hb⟩⟩)) y hy
  · rename_i k z o hb _
    rcases List.mem_cons.1 hy with rfl | hy
    · exact soft _ _ id (by simp)
    · split at hy
      · rename_i h0
        exact rethrow_why (fun _ _ => .inl ⟨rfl, .inr (.inl (.inr (.inr ⟨hp, ⟨o, rfl⟩, ⟨k, z, hb⟩, h0⟩)))⟩) y hy
      · cases hy
  · simp only [List.mem_cons, List.not_mem_nil, or_false] at hy
    rcases hy with rfl | rfl <;> exact soft _ _ id (by simp)
  · cases hy

/-- Every access belongs to the step's task. -/
theorem why {body : σ → Act σ V E L} {w : Nat} {ch : Choice E} {x : XS σ V E} (F : Fx x) : ∀ y ∈ touch body w ch x, ∃ t, who w ch x = some t ∧ Why body w ch x t y := by
  have soft : ∀ t m k, ¬ Hard m k → m ≠ .eptr → Why body w ch x t (t, m, k) := fun t m k h1 h2 => .inl ⟨rfl, .inl ⟨h1, h2⟩⟩
  intro y hy
  unfold touch at hy
  split at hy
  · rename_i hp
    split at hy
    · rename_i f r hb
      refine ⟨f, by simp only [who, hp, hb], ?_⟩
      simp only [List.mem_cons, List.not_mem_nil, or_false] at hy
      rcases hy with rfl | rfl | rfl <;> exact soft _ _ _ id (by simp)
    · cases hy
  · rename_i f hp
    exact ⟨f, by simp only [who, hp], why_run hp y hy⟩
  · rename_i f hp
    refine ⟨f, by simp only [who, hp], ?_⟩
    simp only [List.mem_cons, List.not_mem_nil, or_false] at hy
    rcases hy with rfl | rfl <;> exact soft _ _ _ id (by simp)
  · rename_i f hp
    refine ⟨f, by simp only [who, hp], ?_⟩
    simp only [List.mem_cons, List.not_mem_nil, or_false] at hy
    rcases hy with rfl | rfl | rfl <;> exact soft _ _ _ id (by simp)
  · rename_i f hp
    refine ⟨f, by simp only [who, hp], ?_⟩
    have pa : ∀ m k, Why body w ch x f (f, m, k) := fun m k => .inl ⟨rfl, .inr (.inl (.inl hp))⟩
    simp only [List.mem_cons] at hy
    rcases hy with rfl | rfl | rfl | hy
    · exact pa _ _
    · exact pa _ _
    · exact pa _ _
    · exact rethrow_why pa y hy
  · rename_i p c hp
    split at hy
    · rename_i hq
      refine ⟨c, by simp only [who, hp, hq, if_true], ?_⟩
      rcases List.mem_singleton.1 hy with rfl
      exact .inr (.inr ⟨.inr (F.flink w p c (.inl hp)), trivial, fun h => by cases h⟩)
    · rename_i hq
      refine ⟨p, by simp only [who, hp, hq, if_false], ?_⟩
      simp only [List.mem_cons, List.not_mem_nil, or_false] at hy
      rcases hy with rfl | rfl | rfl <;> exact soft _ _ _ id (by simp)
  · rename_i p c b hp
    refine ⟨c, by simp only [who, hp], ?_⟩
    rcases List.mem_singleton.1 hy with rfl
    exact .inr (.inr ⟨.inr (F.flink w p c (.inr ⟨b, hp⟩)), trivial, fun h => by cases h⟩)
  · rename_i f b hp
    refine ⟨f, by simp only [who, hp], ?_⟩
    have pa : ∀ m k, Why body w ch x f (f, m, k) := fun m k => .inl ⟨rfl, .inr (.inl (.inr (.inl ⟨b, hp⟩)))⟩
    simp only [List.mem_cons] at hy
    rcases hy with rfl | rfl | rfl | hy
    · exact pa _ _
    · exact pa _ _
    · exact pa _ _
    · exact rethrow_why pa y hy
  · rename_i p hp
    refine ⟨p, by simp only [who, hp], ?_⟩
    simp only [List.mem_cons, List.not_mem_nil, or_false] at hy
    rcases hy with rfl | rfl | rfl <;> exact soft _ _ _ id (by simp)
  · cases hy
  · cases hy
  · cases hy

end Verif.Fld
