import Verif.Runtime.InvCount

/-!
Invariants, third part: the states tasks wait in.
-/
namespace Verif.Runtime
variable {σ V : Type}

def AtJoin (body : σ → Act σ V) (x : σ) : Prop := ∃ k, body x = .join k
def AtCall (body : σ → Act σ V) (x c : σ) : Prop := ∃ k, body x = .call c k

structure InvSt (body : σ → Act σ V) (pend : σ → Nat) (s : State σ V) : Prop where
  pd : ∀ f, Alive (s.loc f) → pend (s.fr f).st = (s.fr f).slots.length
  jl : ∀ w f, s.pc w = .joinLoad f → AtJoin body (s.fr f).st
  js : ∀ w f, s.pc w = .joinSub f → AtJoin body (s.fr f).st
  wi : ∀ w f, s.loc f = .winning w → AtJoin body (s.fr f).st
  pk : ∀ f, s.loc f = .parked → AtJoin body (s.fr f).st
  cw : ∀ p c, s.loc p = .callwait c → AtCall body (s.fr p).st (s.init c)
  cb : ∀ p c, s.loc p = .callwait c → c < s.nf

theorem hk_of {body : σ → Act σ V} {pend : σ → Nat} (hd : Disc body pend) {s : State σ V} (h : InvLoc s) (hc : InvCount s)
    (hs : InvSt body pend s) : ∀ w f v, s.pc w = .run f → body (s.fr f).st = .ret v → (s.fr f).kids = [] := by
  intro w f v h1 h2
  have e1 : s.loc f = .running w := (h.run w f).2 (Or.inl h1)
  have e2 := hd.ret _ _ h2
  have e3 := hs.pd f (by simp [e1, Alive])
  have e4 := hc.cnt f (by simp [e1, Alive])
  have e5 := hc.slot f (by simp [e1, Alive])
  simp only [e1, tok] at e4 e5
  rw [← List.length_eq_zero_iff]; omega

end Verif.Runtime
