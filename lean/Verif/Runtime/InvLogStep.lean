import Verif.Runtime.InvLog

/-! The history: preservation. -/
namespace Verif.Runtime
variable {σ V : Type}

set_option maxHeartbeats 4000000 in
theorem invLog_step {body : σ → Act σ V} {pend : σ → Nat} (hd : Disc body pend) {s s' : State σ V} (hx : Ctx s)
    (hs : InvSt body pend s) (hg : InvLog s) (stp : Step body P s s') : InvLog s' := by
  have hl := hx.link
  have hc := hx.count
  have hw := hw_of hx.loc hl hc hx.few
  obtain ⟨b1, b2, b3, b4, b5, b6, b7, b8, b9, b10, b11⟩ := born_of hx.loc hl hx.stk
  obtain ⟨fresh, run, sto, win, fin, queue, inb, qnd, ind⟩ := hx.loc
  have e0 : s.loc s.nf = .unborn := (fresh _).2 (Nat.le_refl _)
  have frn : ∀ w g, s.pc w = .run g → s.loc g = .running w := fun w g e => (run w g).2 (Or.inl e)
  have frl : ∀ w g, s.pc w = .joinLoad g → s.loc g = .running w := fun w g e => (run w g).2 (Or.inr (Or.inl e))
  have frs : ∀ w g, s.pc w = .joinSub g → s.loc g = .running w := fun w g e => (run w g).2 (Or.inr (Or.inr e))
  obtain ⟨un, rn, jl, js, wi, pk, qd, sb, cw, ib, fi, go, fk⟩ := hg
  cases stp with
  | fork w f c k h1 h2 =>
    have e1 : s.loc f = .running w := (run w f).2 (Or.inl h1)
    constructor <;> simp only [doFork, newFrame, upd_apply, status, forked] <;> grind [forkPar]
  | call w f c k h1 h2 =>
    have e1 : s.loc f = .running w := (run w f).2 (Or.inl h1)
    constructor <;> simp only [doCall, newFrame, upd_apply, status, forked] <;> grind
  | joinNow w f k vs h1 h2 h3 h4 h5 h6 =>
    have e1 : s.loc f = .running w := (run w f).2 (Or.inl h1)
    constructor <;> simp only [passed, upd_apply, status, forked] <;> grind
  | joinWait w f k h1 h2 =>
    have e1 : s.loc f = .running w := (run w f).2 (Or.inl h1)
    constructor <;> simp only [upd_apply, status, forked] <;> grind
  | loadWin w f h1 h2 =>
    have e1 : s.loc f = .running w := (run w f).2 (by grind)
    constructor <;> simp only [upd_apply] <;> grind
  | loadLose w f h1 h2 =>
    have e1 : s.loc f = .running w := (run w f).2 (by grind)
    constructor <;> simp only [upd_apply] <;> grind
  | subWin w f h1 h2 =>
    have e1 : s.loc f = .running w := (run w f).2 (by grind)
    constructor <;> simp only [upd_apply] <;> grind
  | subLose w f h1 h2 =>
    have e1 : s.loc f = .running w := (run w f).2 (by grind)
    constructor <;> simp only [upd_apply] <;> grind
  | joinTake w f k vs h1 h2 h3 h4 h5 h6 =>
    have e1 : s.loc f = .winning w := (win w f).2 (by grind)
    constructor <;> simp only [passed, upd_apply, status, forked] <;> grind
  | retRoot w f v h1 h2 h3 h4 =>
    have e1 : s.loc f = .running w := (run w f).2 (Or.inl h1)
    constructor <;> simp only [destroyed, upd_apply, status, forked] <;> grind
  | retCall w f p v c k h1 h2 h3 h4 h5 h6 =>
    have e1 : s.loc f = .running w := (run w f).2 (Or.inl h1)
    have e3 : s.loc p = .callwait f := (hl.callw p f).2 ⟨h4, by simp [e1, Alive]⟩
    constructor <;> simp only [destroyed, upd_apply, status, forked] <;> grind
  | retFork w f p i v h1 h2 h3 h4 =>
    have e1 : s.loc f = .running w := (run w f).2 (Or.inl h1)
    constructor <;> simp only [destroyed, upd_apply, status, forked] <;> grind
  | popHit w p c c' r h1 h2 =>
    have e1 : s.loc c = .finishing w := (fin w c).2 ⟨p, Or.inl h1⟩
    have e2 : s.loc p = .queued w c' := (queue w p c').2 (by simp [h2])
    constructor <;> simp only [report, upd_apply, status, forked] <;> grind
  | popMiss w p c h1 h2 =>
    constructor <;> simp only [upd_apply] <;> grind
  | decWin w p c same h1 h2 =>
    have e1 : s.loc c = .finishing w := (fin w c).2 ⟨p, Or.inr ⟨_, h1⟩⟩
    have e2 := hw w p c same h1 h2
    constructor <;> simp only [report, upd_apply] <;> grind
  | decLose w p c same h1 h2 =>
    have e1 : s.loc c = .finishing w := (fin w c).2 ⟨p, Or.inr ⟨_, h1⟩⟩
    constructor <;> simp only [report, upd_apply] <;> grind
  | finWin w f same k vs h1 h2 h3 h4 h5 h6 =>
    have e1 : s.loc f = .winning w := (win w f).2 (by grind)
    constructor <;> simp only [passed, upd_apply, status, forked] <;> grind
  | finLose w same h1 =>
    cases same <;> constructor <;> simp only [release, upd_apply, if_true, Bool.false_eq_true, if_false] <;> grind
  | selfSteal w p c r h1 h2 =>
    have e2 : s.loc p = .queued w c := (queue w p c).2 (by simp [h2])
    constructor <;> simp only [upd_apply] <;> grind [IsForkWait]
  | selfNone w h1 h2 =>
    constructor <;> simp only [upd_apply] <;> grind
  | stole w p h1 =>
    have e2 : s.loc p = .stolenBy w := (sto w p).2 h1
    constructor <;> simp only [upd_apply, status, forked] <;> grind
  | switch w f d k z h1 h2 =>
    have e1 : s.loc f = .running w := (run w f).2 (Or.inl h1)
    constructor <;> simp only [upd_apply, status, forked] <;> grind [InboxOk]
  | switchRel w z h1 =>
    cases z <;> constructor <;> simp only [release, upd_apply, if_true, Bool.false_eq_true, if_false] <;> grind
  | steal w v p c r h1 h2 h3 =>
    have e2 : s.loc p = .queued v c := (queue v p c).2 (by simp [h3])
    constructor <;> simp only [upd_apply] <;> grind [IsForkWait]
  | take w f r h1 h2 =>
    have e1 : s.loc f = .inbox w := (inb w f).2 (by simp [h2])
    constructor <;> simp only [upd_apply, status, forked] <;> grind
  | submit c w =>
    constructor <;> simp only [submit, newFrame, upd_apply, status, forked] <;> grind [InboxOk]

end Verif.Runtime
