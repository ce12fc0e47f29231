import Verif.Runtime.InvStk

/-! The stack invariant is preserved. -/
namespace Verif.Runtime
variable {σ V : Type}

/-- The tasks mentioned anywhere exist. -/
structure Born (s : State σ V) : Prop where
  run : ∀ w g, s.pc w = .run g → g ≠ s.nf
  jl : ∀ w g, s.pc w = .joinLoad g → g ≠ s.nf
  js : ∀ w g, s.pc w = .joinSub g → g ≠ s.nf
  jt : ∀ w g, s.pc w = .joinTake g → g ≠ s.nf
  st : ∀ w g, s.pc w = .stole g → g ≠ s.nf
  po : ∀ w p c, s.pc w = .finPop p c → p ≠ s.nf ∧ c ≠ s.nf
  de : ∀ w p c b, s.pc w = .finDec p c b → p ≠ s.nf ∧ c ≠ s.nf
  wi : ∀ w p b, s.pc w = .finWin p b → p ≠ s.nf
  q : ∀ w p c, (p, c) ∈ s.q w → p ≠ s.nf ∧ c ≠ s.nf
  cw : ∀ p c, s.loc p = .callwait c → p ≠ s.nf ∧ c ≠ s.nf
  al : ∀ k, s.nf ∉ s.al k

theorem born_of {s : State σ V} (h : InvLoc s) (hl : InvLink s) (hk : InvStk s) : Born s := by
  have e2 : s.loc s.nf = .unborn := (h.fresh _).2 (Nat.le_refl _)
  have key : ∀ {l g}, s.loc g = l → l ≠ .unborn → g ≠ s.nf := by
    rintro l g h1 h2 rfl; rw [e2] at h1; exact h2 h1.symm
  have key2 : ∀ {g}, Alive (s.loc g) → g ≠ s.nf := by
    rintro g h1 rfl; rw [e2] at h1; exact h1
  have fp : ∀ w p c, s.loc c = .finishing w → forkPar (s.link c) = some p → p ≠ s.nf ∧ c ≠ s.nf :=
    fun w p c h1 h2 => ⟨key2 (hl.kid c p h2 (by simp [h1]) (by simp [h1])), key h1 (by simp)⟩
  constructor
  · exact fun w g e => key ((h.run w g).2 (Or.inl e)) (by simp)
  · exact fun w g e => key ((h.run w g).2 (Or.inr (Or.inl e))) (by simp)
  · exact fun w g e => key ((h.run w g).2 (Or.inr (Or.inr e))) (by simp)
  · exact fun w g e => key ((h.win w g).2 (Or.inl e)) (by simp)
  · exact fun w g e => key ((h.sto w g).2 e) (by simp)
  · exact fun w p c e => fp w p c ((h.fin w c).2 ⟨p, Or.inl e⟩) (hl.flink w p c e)
  · exact fun w p c b e => fp w p c ((h.fin w c).2 ⟨p, Or.inr ⟨b, e⟩⟩) (hl.flink' w p c b e)
  · exact fun w p b e => key ((h.win w p).2 (Or.inr ⟨b, e⟩)) (by simp)
  · exact fun w p c e => ⟨key ((h.queue w p c).2 e) (by simp), fun e' => hl.qborn w p c e (by rw [e', e2])⟩
  · exact fun p c e => ⟨key e (by simp), key2 ((hl.callw p c).1 e).2⟩
  · intro k hm
    exact key2 ((hk.mem _ k).1 hm).1 rfl

/-- Everything known about the state before a step. -/
structure Ctx (s : State σ V) : Prop where
  loc : InvLoc s
  link : InvLink s
  count : InvCount s
  q : InvQ s
  few : Few s
  stk : InvStk s

end Verif.Runtime
