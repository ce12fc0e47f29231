import Verif.Runtime.InvLoc

/-! Where tasks are: preservation. -/
namespace Verif.Runtime
variable {σ V : Type}

set_option maxHeartbeats 1000000 in
theorem invLoc_step {body : σ → Act σ V} {s s' : State σ V} (h : InvLoc s) (hl : InvLink s)
    (hw : ∀ w p c b, s.pc w = .finDec p c b → (s.fr p).join = 1 → s.loc p = .parked) (st : Step body P s s') : InvLoc s' := by
  obtain ⟨fresh, run, sto, win, fin, queue, inb, qnd, ind⟩ := h
  obtain ⟨olderF, olderC, callw, qlink, qborn, flink, flink', kid, knd, kids⟩ := hl
  cases st with
  | fork w f c k h1 h2 =>
    have e1 : s.loc f = .running w := (run w f).2 (Or.inl h1)
    have e2 : s.loc s.nf = .unborn := (fresh _).2 (Nat.le_refl _)
    constructor <;> simp only [doFork, newFrame, upd_apply] <;> grind
  | call w f c k h1 h2 =>
    have e1 : s.loc f = .running w := (run w f).2 (Or.inl h1)
    have e2 : s.loc s.nf = .unborn := (fresh _).2 (Nat.le_refl _)
    constructor <;> simp only [doCall, newFrame, upd_apply] <;> grind
  | joinNow w f k vs h1 =>
    have e1 : s.loc f = .running w := (run w f).2 (Or.inl h1)
    constructor <;> simp only [passed, upd_apply] <;> grind
  | joinWait w f k h1 =>
    have e1 : s.loc f = .running w := (run w f).2 (Or.inl h1)
    constructor <;> simp only [upd_apply] <;> grind
  | loadWin w f h1 =>
    have e1 : s.loc f = .running w := (run w f).2 (by grind)
    constructor <;> simp only [upd_apply] <;> grind
  | loadLose w f h1 =>
    have e1 : s.loc f = .running w := (run w f).2 (by grind)
    constructor <;> simp only [upd_apply] <;> grind
  | subWin w f h1 =>
    have e1 : s.loc f = .running w := (run w f).2 (by grind)
    constructor <;> simp only [upd_apply] <;> grind
  | subLose w f h1 =>
    have e1 : s.loc f = .running w := (run w f).2 (by grind)
    constructor <;> simp only [upd_apply] <;> grind
  | joinTake w f k vs h1 =>
    have e1 : s.loc f = .winning w := (win w f).2 (by grind)
    constructor <;> simp only [passed, upd_apply] <;> grind
  | retRoot w f v h1 =>
    have e1 : s.loc f = .running w := (run w f).2 (Or.inl h1)
    constructor <;> simp only [destroyed, upd_apply] <;> grind
  | retCall w f p v c k h1 h2 h3 h4 =>
    have e1 : s.loc f = .running w := (run w f).2 (Or.inl h1)
    have e2 : s.loc p = .callwait f := (callw p f).2 ⟨h4, by simp [e1, Alive]⟩
    constructor <;> simp only [destroyed, upd_apply] <;> grind
  | retFork w f p i v h1 h2 h3 h4 =>
    have e1 : s.loc f = .running w := (run w f).2 (Or.inl h1)
    constructor
    case fin =>
      intro w' f'
      simp only [destroyed, upd_apply]
      by_cases hw' : w' = w
      · subst hw'
        by_cases hf : f' = f
        · subst hf
          simp only [if_true, true_iff]
          exact ⟨p, Or.inl rfl⟩
        · have := fin w' f'
          simp only [hf, if_false, if_true]
          grind
      · have := fin w' f'
        simp only [hw', if_false]
        grind
    all_goals simp only [destroyed, upd_apply] <;> grind
  | popHit w p c c' r h1 h2 =>
    have e1 : s.loc c = .finishing w := (fin w c).2 ⟨p, Or.inl h1⟩
    have e2 : s.loc p = .queued w c' := (queue w p c').2 (by simp [h2])
    constructor <;> simp only [report, upd_apply] <;> grind
  | popMiss w p c h1 h2 =>
    have e1 : s.loc c = .finishing w := (fin w c).2 ⟨p, Or.inl h1⟩
    constructor <;> simp only [upd_apply] <;> grind
  | decWin w p c same h1 h2 =>
    have e1 : s.loc c = .finishing w := (fin w c).2 ⟨p, Or.inr ⟨_, h1⟩⟩
    have e2 := hw w p c same h1 h2
    constructor <;> simp only [report, upd_apply] <;> grind
  | decLose w p c same h1 h2 =>
    have e1 : s.loc c = .finishing w := (fin w c).2 ⟨p, Or.inr ⟨_, h1⟩⟩
    constructor <;> simp only [report, upd_apply] <;> grind
  | finWin w p same k vs h1 =>
    have e1 : s.loc p = .winning w := (win w p).2 (by grind)
    constructor <;> simp only [passed, upd_apply] <;> grind
  | finLose w same h1 =>
    cases same <;> constructor <;> simp only [release, upd_apply] <;> grind
  | selfSteal w p c r h1 h2 =>
    have e2 : s.loc p = .queued w c := (queue w p c).2 (by simp [h2])
    constructor <;> simp only [upd_apply] <;> grind
  | selfNone w h1 h2 => constructor <;> simp only [upd_apply] <;> grind
  | stole w p h1 =>
    have e2 : s.loc p = .stolenBy w := (sto w p).2 h1
    constructor <;> simp only [upd_apply] <;> grind
  | switch w f d k z h1 =>
    have e1 : s.loc f = .running w := (run w f).2 (Or.inl h1)
    constructor <;> simp only [upd_apply] <;> grind
  | switchRel w z h1 =>
    cases z <;> constructor <;> simp only [release, upd_apply] <;> grind
  | steal w v p c r h1 h2 h3 =>
    have e2 : s.loc p = .queued v c := (queue v p c).2 (by simp [h3])
    constructor <;> simp only [upd_apply] <;> grind
  | take w f r h1 h2 =>
    have e1 : s.loc f = .inbox w := (inb w f).2 (by simp [h2])
    constructor <;> simp only [upd_apply] <;> grind
  | submit c w =>
    have e2 : s.loc s.nf = .unborn := (fresh _).2 (Nat.le_refl _)
    constructor <;> simp only [submit, newFrame, upd_apply] <;> grind

end Verif.Runtime
