import Verif.Runtime.InvSt

/-! The states tasks wait in: preservation. -/
namespace Verif.Runtime
variable {σ V : Type}

set_option maxHeartbeats 1000000 in
theorem invSt_step {body : σ → Act σ V} {pend : σ → Nat} (hd : Disc body pend) {s s' : State σ V} (h : InvLoc s) (hl : InvLink s)
    (hc : InvCount s) (hs : InvSt body pend s) (hf : Few s) (hP : ∀ c, P c → pend c = 0)
    (st : Step body P s s') : InvSt body pend s' := by
  have hw := hw_of h hl hc hf
  obtain ⟨fresh, run, sto, win, fin, queue, inb, qnd, ind⟩ := h
  obtain ⟨pd, jl, js, wi, pk, cw, cb⟩ := hs
  obtain ⟨dret, dfork, dcall, djoin, dswitch⟩ := hd
  have rl : ∀ w f, s.pc w = .joinLoad f → s.loc f = .running w := fun w f e => (run w f).2 (Or.inr (Or.inl e))
  have rs : ∀ w f, s.pc w = .joinSub f → s.loc f = .running w := fun w f e => (run w f).2 (Or.inr (Or.inr e))
  cases st with
  | fork w f c k h1 h2 =>
    have e1 : s.loc f = .running w := (run w f).2 (Or.inl h1)
    have e2 : s.loc s.nf = .unborn := (fresh _).2 (Nat.le_refl _)
    have e3 := dfork _ _ _ h2
    constructor <;> simp only [doFork, newFrame, upd_apply] <;> grind [Alive]
  | call w f c k h1 h2 =>
    have e1 : s.loc f = .running w := (run w f).2 (Or.inl h1)
    have e2 : s.loc s.nf = .unborn := (fresh _).2 (Nat.le_refl _)
    have e3 := dcall _ _ _ h2
    have e4 : AtCall body (s.fr f).st c := ⟨k, h2⟩
    constructor <;> simp only [doCall, newFrame, upd_apply] <;> grind [Alive]
  | joinNow w f k vs h1 h2 =>
    have e1 : s.loc f = .running w := (run w f).2 (Or.inl h1)
    have e3 := djoin _ _ h2
    constructor <;> simp only [passed, upd_apply] <;> grind [Alive]
  | joinWait w f k h1 h2 =>
    have e1 : s.loc f = .running w := (run w f).2 (Or.inl h1)
    have e3 : AtJoin body (s.fr f).st := ⟨k, h2⟩
    constructor <;> simp only [upd_apply] <;> grind [Alive]
  | loadWin w f h1 h2 =>
    have e1 : s.loc f = .running w := (run w f).2 (by grind)
    constructor <;> simp only [upd_apply] <;> grind [Alive]
  | loadLose w f h1 =>
    have e1 : s.loc f = .running w := (run w f).2 (by grind)
    constructor <;> simp only [upd_apply] <;> grind [Alive]
  | subWin w f h1 h2 =>
    have e1 : s.loc f = .running w := (run w f).2 (by grind)
    constructor <;> simp only [upd_apply] <;> grind [Alive]
  | subLose w f h1 h2 =>
    have e1 : s.loc f = .running w := (run w f).2 (by grind)
    constructor <;> simp only [upd_apply] <;> grind [Alive]
  | joinTake w f k vs h1 h2 =>
    have e1 : s.loc f = .winning w := (win w f).2 (by grind)
    have e3 := djoin _ _ h2
    constructor <;> simp only [passed, reset, upd_apply] <;> grind [Alive]
  | retRoot w f v h1 h2 =>
    have e1 : s.loc f = .running w := (run w f).2 (Or.inl h1)
    constructor <;> simp only [destroyed, upd_apply] <;> grind [Alive]
  | retCall w f p v c k h1 h2 h3 h4 h5 h6 =>
    have e1 : s.loc f = .running w := (run w f).2 (Or.inl h1)
    have e2 : s.loc p = .callwait f := (hl.callw p f).2 ⟨h4, by simp [e1, Alive]⟩
    have e3 := dcall _ _ _ h6
    constructor <;> simp only [destroyed, upd_apply] <;> grind [Alive]
  | retFork w f p i v h1 h2 h3 h4 =>
    have e1 : s.loc f = .running w := (run w f).2 (Or.inl h1)
    constructor <;> simp only [destroyed, upd_apply] <;> grind [Alive]
  | popHit w p c c' r h1 h2 =>
    have e1 : s.loc c = .finishing w := (fin w c).2 ⟨p, Or.inl h1⟩
    have e2 : s.loc p = .queued w c' := (queue w p c').2 (by simp [h2])
    constructor <;> simp only [report, upd_apply] <;> grind [Alive]
  | popMiss w p c h1 h2 =>
    have e1 : s.loc c = .finishing w := (fin w c).2 ⟨p, Or.inl h1⟩
    constructor <;> simp only [upd_apply] <;> grind [Alive]
  | decWin w p c same h1 h2 =>
    have e1 : s.loc c = .finishing w := (fin w c).2 ⟨p, Or.inr ⟨_, h1⟩⟩
    have e2 := hw w p c same h1 h2
    constructor <;> simp only [report, upd_apply, if_true] <;> grind [Alive]
  | decLose w p c same h1 h2 =>
    have e1 : s.loc c = .finishing w := (fin w c).2 ⟨p, Or.inr ⟨_, h1⟩⟩
    constructor <;> simp only [report, upd_apply, if_true] <;> grind [Alive]
  | finWin w p same k vs h1 h2 =>
    have e1 : s.loc p = .winning w := (win w p).2 (by grind)
    have e3 := djoin _ _ h2
    constructor <;> simp only [passed, reset, upd_apply] <;> grind [Alive]
  | finLose w same h1 =>
    cases same <;> constructor <;> simp only [release, upd_apply] <;> grind [Alive]
  | selfSteal w p c r h1 h2 =>
    have e2 : s.loc p = .queued w c := (queue w p c).2 (by simp [h2])
    constructor <;> simp only [upd_apply] <;> grind [Alive]
  | selfNone w h1 h2 => constructor <;> simp only [upd_apply] <;> grind [Alive]
  | stole w p h1 =>
    have e2 : s.loc p = .stolenBy w := (sto w p).2 h1
    constructor <;> simp only [upd_apply] <;> grind [Alive]
  | switch w f d k z h1 h2 =>
    have e1 : s.loc f = .running w := (run w f).2 (Or.inl h1)
    have e3 := dswitch _ _ _ h2
    constructor <;> simp only [upd_apply] <;> grind [Alive]
  | switchRel w z h1 =>
    cases z <;> constructor <;> simp only [release, upd_apply] <;> grind [Alive]
  | steal w v p c r h1 h2 h3 =>
    have e2 : s.loc p = .queued v c := (queue v p c).2 (by simp [h3])
    constructor <;> simp only [upd_apply] <;> grind [Alive]
  | take w f r h1 h2 =>
    have e1 : s.loc f = .inbox w := (inb w f).2 (by simp [h2])
    constructor <;> simp only [upd_apply] <;> grind [Alive]
  | submit c w hp =>
    have e2 : s.loc s.nf = .unborn := (fresh _).2 (Nat.le_refl _)
    have e3 := hP c hp
    constructor <;> simp only [submit, newFrame, upd_apply] <;> grind [Alive]

end Verif.Runtime
