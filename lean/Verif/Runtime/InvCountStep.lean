import Verif.Runtime.InvCount

/-! The counters: preservation. -/
namespace Verif.Runtime
variable {σ V : Type}

set_option maxHeartbeats 1000000 in
theorem invCount_step {body : σ → Act σ V} {s s' : State σ V} (h : InvLoc s) (hl : InvLink s) (hc : InvCount s) (hf : Few s)
    (st : Step body P s s') : InvCount s' := by
  have hw := hw_of h hl hc hf
  obtain ⟨fresh, run, sto, win, fin, queue, inb, qnd, ind⟩ := h
  obtain ⟨cnt, slot, steal, join, jl, js, jt⟩ := hc
  unfold Few at hf
  have rl : ∀ w f, s.pc w = .joinLoad f → s.loc f = .running w := fun w f e => (run w f).2 (Or.inr (Or.inl e))
  have rs : ∀ w f, s.pc w = .joinSub f → s.loc f = .running w := fun w f e => (run w f).2 (Or.inr (Or.inr e))
  have rt : ∀ w f, s.pc w = .joinTake f → s.loc f = .winning w := fun w f e => (win w f).2 (Or.inl e)
  cases st with
  | fork w f c k h1 h2 =>
    have e1 : s.loc f = .running w := (run w f).2 (Or.inl h1)
    have e2 : s.loc s.nf = .unborn := (fresh _).2 (Nat.le_refl _)
    constructor <;> simp only [doFork, newFrame, upd_apply] <;> grind [Alive, tok, JoinOk, maxU16]
  | call w f c k h1 h2 =>
    have e1 : s.loc f = .running w := (run w f).2 (Or.inl h1)
    have e2 : s.loc s.nf = .unborn := (fresh _).2 (Nat.le_refl _)
    constructor <;> simp only [doCall, newFrame, upd_apply] <;> grind [Alive, tok, JoinOk, maxU16]
  | joinNow w f k vs h1 =>
    have e1 : s.loc f = .running w := (run w f).2 (Or.inl h1)
    constructor <;> simp only [passed, upd_apply] <;> grind [Alive, tok, JoinOk, maxU16]
  | joinWait w f k h1 =>
    have e1 : s.loc f = .running w := (run w f).2 (Or.inl h1)
    constructor <;> simp only [upd_apply] <;> grind [Alive, tok, JoinOk, maxU16]
  | loadWin w f h1 h2 =>
    have e1 : s.loc f = .running w := (run w f).2 (by grind)
    have c1 := cnt f (by simp [e1, Alive])
    have c2 := steal f (by simp [e1, Alive])
    have c3 := join f (by simp [e1, Alive])
    simp only [e1, tok, JoinOk, maxU16] at c1 c3 h2
    have e3 : (s.fr f).kids = [] := by rw [← List.length_eq_zero_iff]; omega
    constructor <;> simp only [upd_apply] <;> grind [Alive, tok, JoinOk, maxU16]
  | loadLose w f h1 =>
    have e1 : s.loc f = .running w := (run w f).2 (by grind)
    constructor <;> simp only [upd_apply] <;> grind [Alive, tok, JoinOk, maxU16]
  | subWin w f h1 h2 =>
    have e1 : s.loc f = .running w := (run w f).2 (by grind)
    have c1 := cnt f (by simp [e1, Alive])
    have c2 := steal f (by simp [e1, Alive])
    have c3 := join f (by simp [e1, Alive])
    simp only [e1, tok, JoinOk, maxU16] at c1 c3 h2
    have e3 : (s.fr f).kids = [] := by rw [← List.length_eq_zero_iff]; omega
    constructor <;> simp only [upd_apply] <;> grind [Alive, tok, JoinOk, maxU16]
  | subLose w f h1 h2 =>
    have e1 : s.loc f = .running w := (run w f).2 (by grind)
    have c1 := cnt f (by simp [e1, Alive])
    have c2 := steal f (by simp [e1, Alive])
    have c3 := join f (by simp [e1, Alive])
    have c4 := hf f
    simp only [e1, tok, JoinOk, maxU16] at c1 c3 c4 h2
    have e3 : (s.fr f).kids ≠ [] := by rw [Ne, ← List.length_eq_zero_iff]; omega
    have e4 : ((s.fr f).join + U16 - (maxU16 - (s.fr f).steal)) % U16 = (s.fr f).kids.length := by
      simp only [U16, maxU16]; omega
    simp only [e4]
    constructor <;> simp only [upd_apply] <;> grind [Alive, tok, JoinOk, maxU16]
  | joinTake w f k vs h1 =>
    have e1 : s.loc f = .winning w := (win w f).2 (by grind)
    have c3 := join f (by simp [e1, Alive])
    simp only [e1, JoinOk] at c3
    constructor <;> simp only [passed, reset, upd_apply] <;> grind [Alive, tok, JoinOk, maxU16]
  | retRoot w f v h1 h2 =>
    have e1 : s.loc f = .running w := (run w f).2 (Or.inl h1)
    constructor <;> simp only [destroyed, upd_apply] <;> grind [Alive, tok, JoinOk, maxU16]
  | retCall w f p v c k h1 h2 h3 h4 =>
    have e1 : s.loc f = .running w := (run w f).2 (Or.inl h1)
    have e2 : s.loc p = .callwait f := (hl.callw p f).2 ⟨h4, by simp [e1, Alive]⟩
    constructor <;> simp only [destroyed, upd_apply] <;> grind [Alive, tok, JoinOk, maxU16]
  | retFork w f p i v h1 h2 h3 h4 =>
    have e1 : s.loc f = .running w := (run w f).2 (Or.inl h1)
    constructor <;> simp only [destroyed, upd_apply] <;> grind [Alive, tok, joinOk_slots]
  | popHit w p c c' r h1 h2 =>
    have e1 : s.loc c = .finishing w := (fin w c).2 ⟨p, Or.inl h1⟩
    have e2 : s.loc p = .queued w c' := (queue w p c').2 (by simp [h2])
    have e4 : c ∈ (s.fr p).kids :=
      (hl.kids p (by simp [e2, Alive]) c).2 ⟨hl.flink w p c h1, by simp [e1], by simp [e1]⟩
    have e5 := List.length_erase_of_mem e4
    have e6 := List.length_pos_of_mem e4
    constructor <;> simp only [report, upd_apply] <;> grind [Alive, tok, JoinOk, maxU16]
  | popMiss w p c h1 h2 =>
    have e1 : s.loc c = .finishing w := (fin w c).2 ⟨p, Or.inl h1⟩
    constructor <;> simp only [upd_apply] <;> grind [Alive, tok, JoinOk, maxU16]
  | decWin w p c same h1 h2 =>
    have e1 : s.loc c = .finishing w := (fin w c).2 ⟨p, Or.inr ⟨_, h1⟩⟩
    have e2 := hw w p c same h1 h2
    have e4 : c ∈ (s.fr p).kids :=
      (hl.kids p (by simp [e2, Alive]) c).2 ⟨hl.flink' w p c _ h1, by simp [e1], by simp [e1]⟩
    have e5 := List.length_erase_of_mem e4
    have e6 := List.length_pos_of_mem e4
    have c1 := cnt p (by simp [e2, Alive])
    have c3 := join p (by simp [e2, Alive])
    simp only [e2, tok, JoinOk, maxU16] at c1 c3
    have e7 : (s.fr p).kids.erase c = [] := by rw [← List.length_eq_zero_iff]; omega
    constructor <;> simp only [report, upd_apply, if_true, e7] <;> grind [Alive, tok, JoinOk, maxU16]
  | decLose w p c same h1 h2 =>
    have e1 : s.loc c = .finishing w := (fin w c).2 ⟨p, Or.inr ⟨_, h1⟩⟩
    have e0 := hl.flink' w p c _ h1
    have e2 := hl.kid c p e0 (by simp [e1]) (by simp [e1])
    have e4 : c ∈ (s.fr p).kids := (hl.kids p e2 c).2 ⟨hl.flink' w p c _ h1, by simp [e1], by simp [e1]⟩
    have e5 := List.length_erase_of_mem e4
    have e6 := List.length_pos_of_mem e4
    have c1 := cnt p e2
    have c3 := join p e2
    have c4 := hf p
    have e8 : p ≠ c := by rintro rfl; rw [e1] at e2; exact e2
    have key : JoinOk (s.loc p) { s.fr p with
        kids := (s.fr p).kids.erase c, join := ((s.fr p).join + U16 - 1) % U16, joined := (s.fr p).joined + 1 } := by
      cases hx : s.loc p <;> simp only [hx, JoinOk, tok, maxU16, U16] at c1 c3 c4 ⊢ <;>
        first
          | omega
          | (constructor
             · omega
             · rw [Ne, ← List.length_eq_zero_iff]; omega)
          | (rw [c3] at e4; cases e4)
    constructor
    case join =>
      intro p' hp'
      simp only [report, upd_apply, if_true] at hp' ⊢
      by_cases hpp : p' = p
      · subst hpp; simpa [e8] using key
      · by_cases hpc : p' = c
        · subst hpc; simp [Alive] at hp'
        · simp only [hpp, hpc, if_false] at hp' ⊢; exact join p' hp'
    all_goals simp only [report, upd_apply, if_true] <;> grind [Alive, tok]
  | finWin w p same k vs h1 =>
    have e1 : s.loc p = .winning w := (win w p).2 (by grind)
    have c3 := join p (by simp [e1, Alive])
    simp only [e1, JoinOk] at c3
    constructor <;> simp only [passed, reset, upd_apply] <;> grind [Alive, tok, JoinOk, maxU16]
  | finLose w same h1 =>
    cases same <;> constructor <;> simp only [release, upd_apply] <;> grind [Alive, tok, JoinOk, maxU16]
  | selfSteal w p c r h1 h2 =>
    have e2 : s.loc p = .queued w c := (queue w p c).2 (by simp [h2])
    constructor <;> simp only [upd_apply] <;> grind [Alive, tok, JoinOk, maxU16]
  | selfNone w h1 h2 => constructor <;> simp only [upd_apply] <;> grind [Alive, tok, JoinOk, maxU16]
  | stole w p h1 =>
    have e2 : s.loc p = .stolenBy w := (sto w p).2 h1
    have c2 := steal p (by simp [e2, Alive])
    have c4 := hf p
    have e3 : ((s.fr p).steal + 1) % U16 = (s.fr p).stolen + 1 := by simp only [e2, tok] at c4; simp only [U16]; omega
    simp only [e3]
    constructor <;> simp only [upd_apply] <;> grind [Alive, tok, JoinOk, maxU16]
  | switch w f d k z h1 =>
    have e1 : s.loc f = .running w := (run w f).2 (Or.inl h1)
    constructor <;> simp only [upd_apply] <;> grind [Alive, tok, JoinOk, maxU16]
  | switchRel w z h1 =>
    cases z <;> constructor <;> simp only [release, upd_apply] <;> grind [Alive, tok, JoinOk, maxU16]
  | steal w v p c r h1 h2 h3 =>
    have e2 : s.loc p = .queued v c := (queue v p c).2 (by simp [h3])
    constructor <;> simp only [upd_apply] <;> grind [Alive, tok, JoinOk, maxU16]
  | take w f r h1 h2 =>
    have e1 : s.loc f = .inbox w := (inb w f).2 (by simp [h2])
    constructor <;> simp only [upd_apply] <;> grind [Alive, tok, JoinOk, maxU16]
  | submit c w =>
    have e2 : s.loc s.nf = .unborn := (fresh _).2 (Nat.le_refl _)
    constructor <;> simp only [submit, newFrame, upd_apply] <;> grind [Alive, tok, JoinOk, maxU16]

end Verif.Runtime
