import Verif.Runtime.InvVal

/-!
Invariants, seventh part: the history.
-/
namespace Verif.Runtime
variable {σ V : Type}

def IsForkWait : Status → Prop
  | .waiting (.fork _) => True
  | _ => False

def InboxOk (w : Nat) : Status → Prop
  | .submitted d => w = d
  | .waiting (.switch d) => w = d
  | _ => False

structure InvLog (s : State σ V) : Prop where
  un : ∀ f, s.loc f = .unborn → status f s.log = .new
  rn : ∀ w f, s.pc w = .run f → status f s.log = .running w
  jl : ∀ w f, s.pc w = .joinLoad f → status f s.log = .waiting .join
  js : ∀ w f, s.pc w = .joinSub f → status f s.log = .waiting .join
  wi : ∀ w f, s.loc f = .winning w → status f s.log = .waiting .join
  pk : ∀ f, s.loc f = .parked → status f s.log = .waiting .join
  qd : ∀ w f c, s.loc f = .queued w c → status f s.log = .waiting (.fork c)
  sb : ∀ w f, s.loc f = .stolenBy w → IsForkWait (status f s.log)
  cw : ∀ f c, s.loc f = .callwait c → status f s.log = .waiting (.call c)
  ib : ∀ w f, s.loc f = .inbox w → InboxOk w (status f s.log)
  fi : ∀ w f, s.loc f = .finishing w → status f s.log = .done
  go : ∀ f, s.loc f = .gone → status f s.log = .done
  fk : ∀ p c, c ∈ forked p s.log → forkPar (s.link c) = some p ∧ s.loc c ≠ .unborn

/-- Only the worker's current task runs on it. -/
theorem run_of_status {s : State σ V} (h : InvLoc s) (hg : InvLog s) {f w : Nat} (hs : status f s.log = .running w) :
    s.pc w = .run f := by
  cases hx : s.loc f with
  | unborn => rw [hg.un f hx] at hs; cases hs
  | running v =>
    rcases (h.run v f).1 hx with e | e | e
    · have := hg.rn v f e; rw [this] at hs; cases hs; exact e
    · rw [hg.jl v f e] at hs; cases hs
    · rw [hg.js v f e] at hs; cases hs
  | stolenBy v => have := hg.sb v f hx; rw [hs] at this; exact this.elim
  | queued v c => rw [hg.qd v f c hx] at hs; cases hs
  | inbox v => have := hg.ib v f hx; rw [hs] at this; exact this.elim
  | callwait c => rw [hg.cw f c hx] at hs; cases hs
  | parked => rw [hg.pk f hx] at hs; cases hs
  | winning v => rw [hg.wi v f hx] at hs; cases hs
  | finishing v => rw [hg.fi v f hx] at hs; cases hs
  | gone => rw [hg.go f hx] at hs; cases hs

/-- With no outstanding child, all the children ever forked are done. -/
theorem forked_done {s : State σ V} (hl : InvLink s) (hg : InvLog s) {p : Nat} (ha : Alive (s.loc p)) (hk : (s.fr p).kids = []) :
    ∀ c ∈ forked p s.log, status c s.log = .done := by
  intro c hc
  obtain ⟨h1, h2⟩ := hg.fk p c hc
  by_cases h3 : s.loc c = .gone
  · exact hg.go c h3
  · have : c ∈ (s.fr p).kids := (hl.kids p ha c).2 ⟨h1, h2, h3⟩
    rw [hk] at this; cases this

theorem status_cons_ne_resume {f g w : Nat} (l : List (Ev σ V)) (h : g ≠ f) : status f (.resume g w :: l) = status f l := by
  simp [status, h]

end Verif.Runtime
