import Verif.Runtime.InvQ

/-! The queues: preservation. -/
namespace Verif.Runtime
variable {σ V : Type}

set_option maxHeartbeats 1000000 in
theorem invQ_step {body : σ → Act σ V} {s s' : State σ V} (h : InvLoc s) (hl : InvLink s) (hq : InvQ s)
    (st : Step body P s s') : InvQ s' := by
  obtain ⟨fresh, run, sto, win, fin, queue, inb, qnd, ind⟩ := h
  obtain ⟨bf, br, bc, adj, qrun, qjl, qjs, qjt, qsto, qfp, qidl, qfd, qfw, qfl⟩ := hq
  have rn : ∀ w f, s.pc w = .run f → s.loc f = .running w := fun w f e => (run w f).2 (Or.inl e)
  have rl : ∀ w f, s.pc w = .joinLoad f → s.loc f = .running w := fun w f e => (run w f).2 (Or.inr (Or.inl e))
  have rs : ∀ w f, s.pc w = .joinSub f → s.loc f = .running w := fun w f e => (run w f).2 (Or.inr (Or.inr e))
  have rt : ∀ w f, s.pc w = .joinTake f → s.loc f = .winning w := fun w f e => (win w f).2 (Or.inl e)
  have ro : ∀ w f, s.pc w = .stole f → s.loc f = .stolenBy w := fun w f e => (sto w f).2 e
  cases st with
  | fork w f c k h1 h2 =>
    have e1 : s.loc f = .running w := (run w f).2 (Or.inl h1)
    have e2 : s.loc s.nf = .unborn := (fresh _).2 (Nat.le_refl _)
    have e3 : f < s.nf := by have := fresh f; grind
    have e4 : ∀ w, ∀ x ∈ s.q w, (upd s.base s.nf s.nf) x.1 = s.base x.1 := by
      intro w x hx
      have := (queue w x.1 x.2).2 hx
      rw [upd_ne]; rintro e; rw [e, e2] at this; cases this
    have e5 : ∀ w, QAdj (upd s.base s.nf s.nf) (s.q w) := fun w => qadj_congr (e4 w) (adj w)
    have e6 : QAdj (upd s.base s.nf s.nf) ((f, s.nf) :: s.q w) := by
      refine qadj_cons (e5 w) ?_
      rw [upd_ne _ _ (Nat.ne_of_lt e3)]; exact qrun w f h1
    have e7 := qhead_cons f s.nf (s.q w)
    have e8 := hl.olderC
    constructor
    case adj => intro w'; simp only [doFork, newFrame, upd_apply s.q]; split <;> simp only [e5, e6, *]
    all_goals simp only [doFork, newFrame, upd_apply] <;> grind [forkPar]
  | call w f c k h1 h2 =>
    have e1 : s.loc f = .running w := (run w f).2 (Or.inl h1)
    have e2 : s.loc s.nf = .unborn := (fresh _).2 (Nat.le_refl _)
    have e3 : f < s.nf := by have := fresh f; grind
    have e4 : ∀ w, ∀ x ∈ s.q w, (upd s.base s.nf (s.base f)) x.1 = s.base x.1 := by
      intro w x hx
      have := (queue w x.1 x.2).2 hx
      rw [upd_ne]; rintro e; rw [e, e2] at this; cases this
    have e5 : ∀ w, QAdj (upd s.base s.nf (s.base f)) (s.q w) := fun w => qadj_congr (e4 w) (adj w)
    have e8 := hl.olderC
    constructor
    case adj => exact e5
    all_goals simp only [doCall, newFrame, upd_apply] <;> grind [forkPar]
  | joinNow w f k vs h1 h2 =>
    constructor <;> simp only [passed, upd_apply] <;> grind
  | joinWait w f k h1 h2 =>
    constructor <;> simp only [upd_apply] <;> grind
  | loadWin w f h1 h2 =>
    constructor <;> simp only [upd_apply] <;> grind
  | loadLose w f h1 =>
    constructor <;> simp only [upd_apply] <;> grind
  | subWin w f h1 h2 =>
    constructor <;> simp only [upd_apply] <;> grind
  | subLose w f h1 h2 =>
    constructor <;> simp only [upd_apply] <;> grind
  | joinTake w f k vs h1 h2 =>
    constructor <;> simp only [passed, reset, upd_apply] <;> grind
  | retRoot w f v h1 h2 =>
    constructor <;> simp only [destroyed, upd_apply] <;> grind
  | retCall w f p v c k h1 h2 h3 h4 h5 h6 =>
    have e1 : s.loc f = .running w := (run w f).2 (Or.inl h1)
    have e3 : f < s.nf := by have := fresh f; grind
    constructor <;> simp only [destroyed, upd_apply] <;> grind
  | retFork w f p i v h1 h2 h3 h4 =>
    have e1 : s.loc f = .running w := (run w f).2 (Or.inl h1)
    have e3 : f < s.nf := by have := fresh f; grind
    have e4 : s.base f = f := bf f p e3 (by rw [h4]; rfl)
    constructor <;> simp only [destroyed, upd_apply] <;> grind
  | popHit w p c c' r h1 h2 =>
    have a1 := adj w
    rw [h2] at a1
    have a2 := qadj_tail a1
    have a3 := qhead_tail a1
    constructor <;> simp only [report, upd_apply] <;> grind
  | popMiss w p c h1 h2 =>
    constructor <;> simp only [upd_apply] <;> grind
  | decWin w p c same h1 h2 =>
    constructor <;> simp only [report, upd_apply, if_true] <;> grind
  | decLose w p c same h1 h2 =>
    constructor <;> simp only [report, upd_apply, if_true] <;> grind
  | finWin w p same k vs h1 h2 =>
    have e0 := qfw w p same h1
    have e1 := qhead_nil (s.base p)
    constructor <;> simp only [passed, reset, upd_apply] <;> grind
  | finLose w same h1 =>
    cases same <;> constructor <;> simp only [release, upd_apply] <;> grind
  | selfSteal w p c r h1 h2 =>
    have a1 := adj w
    rw [h2] at a1
    have a2 := qadj_tail a1
    have a3 := qhead_tail a1
    constructor <;> simp only [upd_apply] <;> grind
  | selfNone w h1 h2 => constructor <;> simp only [upd_apply] <;> grind
  | stole w p h1 =>
    constructor <;> simp only [upd_apply] <;> grind
  | switch w f d k z h1 h2 =>
    constructor <;> simp only [upd_apply] <;> grind
  | switchRel w z h1 =>
    cases z <;> constructor <;> simp only [release, upd_apply] <;> grind
  | steal w v p c r h1 h2 h3 h4 =>
    have a1 := adj v
    rw [h3] at a1
    have a2 := qadj_front a1
    have a3 : ∀ b, QHead b (s.q v) → QHead b r := by intro b hb; rw [h3] at hb; exact qhead_front hb
    have e1 := qhead_nil (s.base p)
    constructor <;> simp only [upd_apply] <;> grind
  | take w f r h1 h2 h3 =>
    have e1 := qhead_nil (s.base f)
    constructor <;> simp only [upd_apply] <;> grind
  | submit c w =>
    have e2 : s.loc s.nf = .unborn := (fresh _).2 (Nat.le_refl _)
    have e4 : ∀ w, ∀ x ∈ s.q w, (upd s.base s.nf s.nf) x.1 = s.base x.1 := by
      intro w x hx
      have := (queue w x.1 x.2).2 hx
      rw [upd_ne]; rintro e; rw [e, e2] at this; cases this
    have e5 : ∀ w, QAdj (upd s.base s.nf s.nf) (s.q w) := fun w => qadj_congr (e4 w) (adj w)
    have e8 := hl.olderC
    constructor
    case adj => exact e5
    all_goals simp only [submit, newFrame, upd_apply] <;> grind [forkPar]

end Verif.Runtime
