import Verif.Runtime.InvLoc

/-! Parents and children: preservation. -/
namespace Verif.Runtime
variable {σ V : Type}

set_option maxHeartbeats 1000000 in
theorem invLink_step {body : σ → Act σ V} {s s' : State σ V} (h : InvLoc s) (hl : InvLink s)
    (hw : ∀ w p c b, s.pc w = .finDec p c b → (s.fr p).join = 1 → s.loc p = .parked)
    (hk : ∀ w f v, s.pc w = .run f → body (s.fr f).st = .ret v → (s.fr f).kids = [])
    (st : Step body P s s') : InvLink s' := by
  obtain ⟨fresh, run, sto, win, fin, queue, inb, qnd, ind⟩ := h
  obtain ⟨olderF, olderC, callw, qlink, qborn, flink, flink', kid, knd, kids⟩ := hl
  cases st with
  | fork w f c k h1 h2 =>
    have e1 : s.loc f = .running w := (run w f).2 (Or.inl h1)
    have e2 : s.loc s.nf = .unborn := (fresh _).2 (Nat.le_refl _)
    have e3 : f < s.nf := by have := fresh f; grind
    have e4 : f ≠ s.nf := Nat.ne_of_lt e3
    have e5 : ∀ p, Alive (s.loc p) → s.nf ∉ (s.fr p).kids := fun p hp hm => ((kids p hp _).1 hm).2.1 e2
    have e7 : ∀ w p c, s.pc w = .finPop p c → c ≠ s.nf := by
      rintro w p _ hp rfl; have := (fin w s.nf).2 ⟨p, Or.inl hp⟩; rw [e2] at this; cases this
    have e8 : ∀ w p c b, s.pc w = .finDec p c b → c ≠ s.nf := by
      rintro w p _ b hp rfl; have := (fin w s.nf).2 ⟨p, Or.inr ⟨b, hp⟩⟩; rw [e2] at this; cases this
    have e6 : Alive (s.loc f) := by simp [e1, Alive]
    constructor <;> simp only [doFork, newFrame, upd_apply] <;> grind [Alive, forkPar]
  | call w f c k h1 h2 =>
    have e1 : s.loc f = .running w := (run w f).2 (Or.inl h1)
    have e2 : s.loc s.nf = .unborn := (fresh _).2 (Nat.le_refl _)
    have e3 : f < s.nf := by have := fresh f; grind
    have e4 : f ≠ s.nf := Nat.ne_of_lt e3
    have e5 : ∀ p, Alive (s.loc p) → s.nf ∉ (s.fr p).kids := fun p hp hm => ((kids p hp _).1 hm).2.1 e2
    have e7 : ∀ w p c, s.pc w = .finPop p c → c ≠ s.nf := by
      rintro w p _ hp rfl; have := (fin w s.nf).2 ⟨p, Or.inl hp⟩; rw [e2] at this; cases this
    have e8 : ∀ w p c b, s.pc w = .finDec p c b → c ≠ s.nf := by
      rintro w p _ b hp rfl; have := (fin w s.nf).2 ⟨p, Or.inr ⟨b, hp⟩⟩; rw [e2] at this; cases this
    have e6 : Alive (s.loc f) := by simp [e1, Alive]
    constructor <;> simp only [doCall, newFrame, upd_apply] <;> grind [Alive, forkPar]
  | joinNow w f k vs h1 =>
    have e1 : s.loc f = .running w := (run w f).2 (Or.inl h1)
    constructor <;> simp only [passed, upd_apply] <;> grind [Alive, forkPar]
  | joinWait w f k h1 =>
    have e1 : s.loc f = .running w := (run w f).2 (Or.inl h1)
    constructor <;> simp only [upd_apply] <;> grind [Alive, forkPar]
  | loadWin w f h1 =>
    have e1 : s.loc f = .running w := (run w f).2 (by grind)
    constructor <;> simp only [upd_apply] <;> grind [Alive, forkPar]
  | loadLose w f h1 =>
    have e1 : s.loc f = .running w := (run w f).2 (by grind)
    constructor <;> simp only [upd_apply] <;> grind [Alive, forkPar]
  | subWin w f h1 =>
    have e1 : s.loc f = .running w := (run w f).2 (by grind)
    constructor <;> simp only [upd_apply] <;> grind [Alive, forkPar]
  | subLose w f h1 =>
    have e1 : s.loc f = .running w := (run w f).2 (by grind)
    constructor <;> simp only [upd_apply] <;> grind [Alive, forkPar]
  | joinTake w f k vs h1 =>
    have e1 : s.loc f = .winning w := (win w f).2 (by grind)
    constructor <;> simp only [passed, reset, upd_apply] <;> grind [Alive, forkPar]
  | retRoot w f v h1 h2 =>
    have e1 : s.loc f = .running w := (run w f).2 (Or.inl h1)
    have e3 := hk w f v h1 h2
    have e6 : Alive (s.loc f) := by simp [e1, Alive]
    have e5 : ∀ c, forkPar (s.link c) = some f → s.loc c = .unborn ∨ s.loc c = .gone := by
      intro c hc; have := kids f e6 c; rw [e3] at this; grind
    constructor <;> simp only [destroyed, upd_apply] <;> grind [Alive, forkPar]
  | retCall w f p v c k h1 h2 h3 h4 =>
    have e1 : s.loc f = .running w := (run w f).2 (Or.inl h1)
    have e2 : s.loc p = .callwait f := (callw p f).2 ⟨h4, by simp [e1, Alive]⟩
    have e3 := hk w f v h1 h2
    have e6 : Alive (s.loc f) := by simp [e1, Alive]
    have e5 : ∀ c, forkPar (s.link c) = some f → s.loc c = .unborn ∨ s.loc c = .gone := by
      intro c hc; have := kids f e6 c; rw [e3] at this; grind
    constructor <;> simp only [destroyed, upd_apply] <;> grind [Alive, forkPar]
  | retFork w f p i v h1 h2 h3 h4 =>
    have e1 : s.loc f = .running w := (run w f).2 (Or.inl h1)
    have e3 := hk w f v h1 h2
    have e6 : Alive (s.loc f) := by simp [e1, Alive]
    have e5 : ∀ c, forkPar (s.link c) = some f → s.loc c = .unborn ∨ s.loc c = .gone := by
      intro c hc; have := kids f e6 c; rw [e3] at this; grind
    constructor <;> simp only [destroyed, upd_apply] <;> grind [Alive, forkPar]
  | popHit w p c c' r h1 h2 =>
    have e1 : s.loc c = .finishing w := (fin w c).2 ⟨p, Or.inl h1⟩
    have e2 : s.loc p = .queued w c' := (queue w p c').2 (by simp [h2])
    constructor <;> simp only [report, upd_apply] <;> grind [Alive, forkPar]
  | popMiss w p c h1 h2 =>
    have e1 : s.loc c = .finishing w := (fin w c).2 ⟨p, Or.inl h1⟩
    constructor <;> simp only [upd_apply] <;> grind [Alive, forkPar]
  | decWin w p c same h1 h2 =>
    have e1 : s.loc c = .finishing w := (fin w c).2 ⟨p, Or.inr ⟨_, h1⟩⟩
    have e2 := hw w p c same h1 h2
    constructor <;> simp only [report, upd_apply] <;> grind [Alive, forkPar]
  | decLose w p c same h1 h2 =>
    have e1 : s.loc c = .finishing w := (fin w c).2 ⟨p, Or.inr ⟨_, h1⟩⟩
    constructor <;> simp only [report, upd_apply] <;> grind [Alive, forkPar]
  | finWin w p same k vs h1 =>
    have e1 : s.loc p = .winning w := (win w p).2 (by grind)
    constructor <;> simp only [passed, reset, upd_apply] <;> grind [Alive, forkPar]
  | finLose w same h1 =>
    cases same <;> constructor <;> simp only [release, upd_apply] <;> grind [Alive, forkPar]
  | selfSteal w p c r h1 h2 =>
    have e2 : s.loc p = .queued w c := (queue w p c).2 (by simp [h2])
    constructor <;> simp only [upd_apply] <;> grind [Alive, forkPar]
  | selfNone w h1 h2 => constructor <;> simp only [upd_apply] <;> grind [Alive, forkPar]
  | stole w p h1 =>
    have e2 : s.loc p = .stolenBy w := (sto w p).2 h1
    constructor <;> simp only [upd_apply] <;> grind [Alive, forkPar]
  | switch w f d k z h1 =>
    have e1 : s.loc f = .running w := (run w f).2 (Or.inl h1)
    constructor <;> simp only [upd_apply] <;> grind [Alive, forkPar]
  | switchRel w z h1 =>
    cases z <;> constructor <;> simp only [release, upd_apply] <;> grind [Alive, forkPar]
  | steal w v p c r h1 h2 h3 =>
    have e2 : s.loc p = .queued v c := (queue v p c).2 (by simp [h3])
    constructor <;> simp only [upd_apply] <;> grind [Alive, forkPar]
  | take w f r h1 h2 =>
    have e1 : s.loc f = .inbox w := (inb w f).2 (by simp [h2])
    constructor <;> simp only [upd_apply] <;> grind [Alive, forkPar]
  | submit c w =>
    have e2 : s.loc s.nf = .unborn := (fresh _).2 (Nat.le_refl _)
    have e5 : ∀ p, Alive (s.loc p) → s.nf ∉ (s.fr p).kids := fun p hp hm => ((kids p hp _).1 hm).2.1 e2
    have e7 : ∀ w p c, s.pc w = .finPop p c → c ≠ s.nf := by
      rintro w p _ hp rfl; have := (fin w s.nf).2 ⟨p, Or.inl hp⟩; rw [e2] at this; cases this
    have e8 : ∀ w p c b, s.pc w = .finDec p c b → c ≠ s.nf := by
      rintro w p _ b hp rfl; have := (fin w s.nf).2 ⟨p, Or.inr ⟨b, hp⟩⟩; rw [e2] at this; cases this
    constructor <;> simp only [submit, newFrame, upd_apply] <;> grind [Alive, forkPar]

end Verif.Runtime
