import Verif.Runtime.InvStkBase

/-! The stack invariant is preserved, by cases. -/
namespace Verif.Runtime
variable {σ V : Type}

set_option maxHeartbeats 1000000 in
theorem stk_joinNow {body : σ → Act σ V} {s : State σ V} (hx : Ctx s) (w f : Nat) (k : List V → σ) (vs : List V)
    (h1 : s.pc w = .run f) (h2 : body (s.fr f).st = .join k) (h3 : (s.fr f).steal = 0) (h4 : (s.fr f).join = maxU16) (h5 : Top s (s.wk w) f) (h6 : results (s.fr f).slots = some vs) :
    InvStk ((passed { s with log := .suspend f .join :: s.log } w f k vs)) := by
  have h' := hx.loc
  have hl := hx.link
  have hc := hx.count
  have hq := hx.q
  have hk' := hx.stk
  have hw := hw_of h' hl hc hx.few
  obtain ⟨fresh, run, sto, win, fin, queue, inb, qnd, ind⟩ := hx.loc
  obtain ⟨mem, nd, adj, inj, chq, chc, fr1, fr2, ro, re, jl, js, jt, st, po, pe, dO, de, wo, we, le, se, ss, id⟩ := hx.stk
  clear hx
  have e1 : s.loc f = .running w := (run w f).2 (Or.inl h1)
  constructor <;> simp only [passed, upd_apply] <;> grind [Zomb, Alive]

set_option maxHeartbeats 1000000 in
theorem stk_joinWait {body : σ → Act σ V} {s : State σ V} (hx : Ctx s) (w f : Nat) (k : List V → σ)
    (h1 : s.pc w = .run f) (h2 : body (s.fr f).st = .join k) (h3 : (s.fr f).steal ≠ 0) :
    InvStk ({ s with log := .suspend f .join :: s.log, pc := upd s.pc w (.joinLoad f) }) := by
  have h' := hx.loc
  have hl := hx.link
  have hc := hx.count
  have hq := hx.q
  have hk' := hx.stk
  have hw := hw_of h' hl hc hx.few
  obtain ⟨fresh, run, sto, win, fin, queue, inb, qnd, ind⟩ := hx.loc
  obtain ⟨mem, nd, adj, inj, chq, chc, fr1, fr2, ro, re, jl, js, jt, st, po, pe, dO, de, wo, we, le, se, ss, id⟩ := hx.stk
  clear hx
  have e1 : s.loc f = .running w := (run w f).2 (Or.inl h1)
  have e3 := hc.steal f (by simp [e1, Alive])
  constructor <;> simp only [upd_apply] <;> grind [Zomb, Alive]

set_option maxHeartbeats 1000000 in
theorem stk_loadWin {s : State σ V} (hx : Ctx s) (w f : Nat)
    (h1 : s.pc w = .joinLoad f) (h2 : (s.fr f).steal = maxU16 - (s.fr f).join) :
    InvStk ({ s with pc := upd s.pc w (.joinTake f), loc := upd s.loc f (.winning w) }) := by
  have h' := hx.loc
  have hl := hx.link
  have hc := hx.count
  have hq := hx.q
  have hk' := hx.stk
  have hw := hw_of h' hl hc hx.few
  obtain ⟨fresh, run, sto, win, fin, queue, inb, qnd, ind⟩ := hx.loc
  obtain ⟨mem, nd, adj, inj, chq, chc, fr1, fr2, ro, re, jl, js, jt, st, po, pe, dO, de, wo, we, le, se, ss, id⟩ := hx.stk
  clear hx
  have e1 : s.loc f = .running w := (run w f).2 (by grind)
  constructor <;> simp only [upd_apply] <;> grind [Zomb, Alive]

set_option maxHeartbeats 1000000 in
theorem stk_loadLose {s : State σ V} (hx : Ctx s) (w f : Nat)
    (h1 : s.pc w = .joinLoad f) (h2 : (s.fr f).steal ≠ maxU16 - (s.fr f).join) :
    InvStk ({ s with pc := upd s.pc w (.joinSub f) }) := by
  have h' := hx.loc
  have hl := hx.link
  have hc := hx.count
  have hq := hx.q
  have hk' := hx.stk
  have hw := hw_of h' hl hc hx.few
  obtain ⟨fresh, run, sto, win, fin, queue, inb, qnd, ind⟩ := hx.loc
  obtain ⟨mem, nd, adj, inj, chq, chc, fr1, fr2, ro, re, jl, js, jt, st, po, pe, dO, de, wo, we, le, se, ss, id⟩ := hx.stk
  clear hx
  have e1 : s.loc f = .running w := (run w f).2 (by grind)
  constructor <;> simp only [upd_apply] <;> grind [Zomb, Alive]

set_option maxHeartbeats 1000000 in
theorem stk_subWin {s : State σ V} (hx : Ctx s) (w f : Nat)
    (h1 : s.pc w = .joinSub f) (h2 : (s.fr f).steal = maxU16 - (s.fr f).join) :
    InvStk ({ s with
      fr := upd s.fr f { s.fr f with join := ((s.fr f).join + U16 - (maxU16 - (s.fr f).steal)) % U16 }
      pc := upd s.pc w (.joinTake f)
      loc := upd s.loc f (.winning w) }) := by
  have h' := hx.loc
  have hl := hx.link
  have hc := hx.count
  have hq := hx.q
  have hk' := hx.stk
  have hw := hw_of h' hl hc hx.few
  obtain ⟨fresh, run, sto, win, fin, queue, inb, qnd, ind⟩ := hx.loc
  obtain ⟨mem, nd, adj, inj, chq, chc, fr1, fr2, ro, re, jl, js, jt, st, po, pe, dO, de, wo, we, le, se, ss, id⟩ := hx.stk
  clear hx
  have e1 : s.loc f = .running w := (run w f).2 (by grind)
  constructor <;> simp only [upd_apply] <;> grind [Zomb, Alive]

set_option maxHeartbeats 1000000 in
theorem stk_subLose {s : State σ V} (hx : Ctx s) (w f : Nat)
    (h1 : s.pc w = .joinSub f) (h2 : (s.fr f).steal ≠ maxU16 - (s.fr f).join) :
    InvStk ({ s with
      fr := upd s.fr f { s.fr f with join := ((s.fr f).join + U16 - (maxU16 - (s.fr f).steal)) % U16 }
      pc := upd s.pc w .selfSteal
      loc := upd s.loc f .parked }) := by
  have h' := hx.loc
  have hl := hx.link
  have hc := hx.count
  have hq := hx.q
  have hk' := hx.stk
  have hw := hw_of h' hl hc hx.few
  obtain ⟨fresh, run, sto, win, fin, queue, inb, qnd, ind⟩ := hx.loc
  obtain ⟨mem, nd, adj, inj, chq, chc, fr1, fr2, ro, re, jl, js, jt, st, po, pe, dO, de, wo, we, le, se, ss, id⟩ := hx.stk
  clear hx
  have e1 : s.loc f = .running w := (run w f).2 (by grind)
  constructor <;> simp only [upd_apply] <;> grind [Zomb, Alive]

set_option maxHeartbeats 1000000 in
theorem stk_popMiss {s : State σ V} (hx : Ctx s) (w p c : Nat)
    (h1 : s.pc w = .finPop p c) (h2 : s.q w = []) (h3 : (s.stk p = s.wk w → Top s (s.wk w) p)) :
    InvStk ({ s with pc := upd s.pc w (.finDec p c (decide (s.stk p = s.wk w))) }) := by
  have h' := hx.loc
  have hl := hx.link
  have hc := hx.count
  have hq := hx.q
  have hk' := hx.stk
  have hw := hw_of h' hl hc hx.few
  obtain ⟨fresh, run, sto, win, fin, queue, inb, qnd, ind⟩ := hx.loc
  obtain ⟨mem, nd, adj, inj, chq, chc, fr1, fr2, ro, re, jl, js, jt, st, po, pe, dO, de, wo, we, le, se, ss, id⟩ := hx.stk
  clear hx
  have e1 : s.loc c = .finishing w := (fin w c).2 ⟨p, Or.inl h1⟩
  have e2 := po w p c h1
  have e3 := pe w p c h1
  by_cases hs : s.stk p = s.wk w
  · have e4 := h3 hs
    have e5 := e4.1
    have e6 := e4.2
    constructor <;> simp only [upd_apply, hs, decide_true] <;> grind [Zomb, Alive]
  · have e4 : s.stk c ≠ s.stk p := fun e => hs (e2 e).1.symm
    have e5 := e3 e4
    constructor <;> simp only [upd_apply, hs, decide_false] <;> grind [Zomb, Alive]

set_option maxHeartbeats 1000000 in
theorem stk_decWin {s : State σ V} (hx : Ctx s) (w p c : Nat) (same : Bool)
    (h1 : s.pc w = .finDec p c same) (h2 : (s.fr p).join = 1) :
    InvStk ({ report s p c with
      fr := upd (report s p c).fr p { (report s p c).fr p with
      join := (((report s p c).fr p).join + U16 - 1) % U16, joined := ((report s p c).fr p).joined + 1 }
      pc := upd s.pc w (.finWin p same)
      loc := upd (report s p c).loc p (.winning w) }) := by
  have h' := hx.loc
  have hl := hx.link
  have hc := hx.count
  have hq := hx.q
  have hk' := hx.stk
  have hw := hw_of h' hl hc hx.few
  obtain ⟨fresh, run, sto, win, fin, queue, inb, qnd, ind⟩ := hx.loc
  obtain ⟨mem, nd, adj, inj, chq, chc, fr1, fr2, ro, re, jl, js, jt, st, po, pe, dO, de, wo, we, le, se, ss, id⟩ := hx.stk
  clear hx
  have e1 : s.loc c = .finishing w := (fin w c).2 ⟨p, Or.inr ⟨_, h1⟩⟩
  have e2 := hw w p c same h1 h2
  constructor <;> simp only [report, upd_apply, if_true] <;> grind [Zomb, Alive]

set_option maxHeartbeats 1000000 in
theorem stk_decLose {s : State σ V} (hx : Ctx s) (w p c : Nat) (same : Bool)
    (h1 : s.pc w = .finDec p c same) (h2 : (s.fr p).join ≠ 1) :
    InvStk ({ report s p c with
      fr := upd (report s p c).fr p { (report s p c).fr p with
      join := (((report s p c).fr p).join + U16 - 1) % U16, joined := ((report s p c).fr p).joined + 1 }
      pc := upd s.pc w (.finLose same) }) := by
  have h' := hx.loc
  have hl := hx.link
  have hc := hx.count
  have hq := hx.q
  have hk' := hx.stk
  have hw := hw_of h' hl hc hx.few
  obtain ⟨fresh, run, sto, win, fin, queue, inb, qnd, ind⟩ := hx.loc
  obtain ⟨mem, nd, adj, inj, chq, chc, fr1, fr2, ro, re, jl, js, jt, st, po, pe, dO, de, wo, we, le, se, ss, id⟩ := hx.stk
  clear hx
  have e1 : s.loc c = .finishing w := (fin w c).2 ⟨p, Or.inr ⟨_, h1⟩⟩
  constructor <;> simp only [report, upd_apply, if_true] <;> grind [Zomb, Alive]

end Verif.Runtime
