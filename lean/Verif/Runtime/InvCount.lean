import Verif.Runtime.InvLoc

/-!
Invariants, second part: the steal and join counters, and the states tasks wait in.
-/
namespace Verif.Runtime
variable {σ V : Type}

/-- What the compiler and the task's author ensure: a number of outstanding forks is attached to every state, a task joins
before it returns (in libfork: promise.hpp:301-311 asserts it) and a child starts with none. -/
structure Disc (body : σ → Act σ V) (pend : σ → Nat) : Prop where
  ret : ∀ s v, body s = .ret v → pend s = 0
  fork : ∀ s c k, body s = .fork c k → pend c = 0 ∧ pend k = pend s + 1
  call : ∀ s c k, body s = .call c k → pend c = 0 ∧ ∀ v, pend (k v) = pend s
  join : ∀ s k, body s = .join k → ∀ l, pend (k l) = 0
  switch : ∀ s d k, body s = .switch d k → pend k = pend s

/-- The task has been pushed to a queue and not resumed since. -/
def tok : Loc → Nat
  | .queued _ _ => 1
  | .stolenBy _ => 1
  | _ => 0

/-- The join counter, depending on where the task is. -/
def JoinOk (l : Loc) (g : Fr σ V) : Prop :=
  match l with
  | .parked => g.join = g.kids.length ∧ g.kids ≠ []
  | .winning _ => g.kids = []
  | _ => g.join + g.joined = maxU16

structure InvCount (s : State σ V) : Prop where
  cnt : ∀ p, Alive (s.loc p) → (s.fr p).kids.length + (s.fr p).joined = (s.fr p).stolen + tok (s.loc p)
  slot : ∀ p, Alive (s.loc p) → (s.fr p).stolen + tok (s.loc p) ≤ (s.fr p).slots.length
  steal : ∀ p, Alive (s.loc p) → (s.fr p).steal = (s.fr p).stolen
  join : ∀ p, Alive (s.loc p) → JoinOk (s.loc p) (s.fr p)
  jl : ∀ w f, s.pc w = .joinLoad f → (s.fr f).steal ≠ 0
  js : ∀ w f, s.pc w = .joinSub f → (s.fr f).steal ≠ 0
  jt : ∀ w f, s.pc w = .joinTake f → (s.fr f).steal ≠ 0

/-- No task has been stolen more than 65534 times since its last join, counting the steal that may be about to happen. -/
def Few (s : State σ V) : Prop := ∀ p, (s.fr p).stolen + tok (s.loc p) ≤ 65534

theorem hw_of {s : State σ V} (h : InvLoc s) (hl : InvLink s) (hc : InvCount s) (hf : Few s) :
    ∀ w p c b, s.pc w = .finDec p c b → (s.fr p).join = 1 → s.loc p = .parked := by
  intro w p c b h1 h2
  have e1 : s.loc c = .finishing w := (h.fin w c).2 ⟨p, Or.inr ⟨b, h1⟩⟩
  have e2 := hl.flink' w p c b h1
  have e3 : Alive (s.loc p) := hl.kid c p e2 (by simp [e1]) (by simp [e1])
  have e4 : c ∈ (s.fr p).kids := (hl.kids p e3 c).2 ⟨e2, by simp [e1], by simp [e1]⟩
  have e5 := hc.cnt p e3
  have e6 := hf p
  have e7 := hc.join p e3
  have e8 := List.length_pos_of_mem e4
  cases hx : s.loc p <;> simp only [hx, JoinOk, tok, maxU16, Alive] at e3 e5 e6 e7 ⊢ <;>
    first
      | omega
      | (rw [e7] at e4; cases e4)

theorem joinOk_slots (l : Loc) (g : Fr σ V) (x : List (Option V)) : JoinOk l { g with slots := x } = JoinOk l g := by
  cases l <;> rfl

end Verif.Runtime
