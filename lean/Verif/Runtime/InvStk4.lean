import Verif.Runtime.InvStkBase

/-! The stack invariant is preserved, by cases. -/
namespace Verif.Runtime
variable {σ V : Type}

set_option maxHeartbeats 1000000 in
theorem stk_joinTake {body : σ → Act σ V} {s : State σ V} (hx : Ctx s) (w f : Nat) (k : List V → σ) (vs : List V)
    (h1 : s.pc w = .joinTake f) (h2 : body (s.fr f).st = .join k) (h3 : (s.fr f).steal ≠ 0) (h4 : s.al (s.wk w) = []) (h5 : Top s (s.stk f) f) (h6 : results (s.fr f).slots = some vs) :
    InvStk ((passed { s with wk := upd s.wk w (s.stk f), fr := upd s.fr f (reset (s.fr f)) } w f k vs)) := by
  have h' := hx.loc
  have hl := hx.link
  have hc := hx.count
  have hq := hx.q
  have hk' := hx.stk
  have hw := hw_of h' hl hc hx.few
  obtain ⟨fresh, run, sto, win, fin, queue, inb, qnd, ind⟩ := hx.loc
  obtain ⟨mem, nd, adj, inj, chq, chc, fr1, fr2, ro, re, jl, js, jt, st, po, pe, dO, de, wo, we, le, se, ss, id⟩ := hx.stk
  clear hx
  have fq : ∀ w p c, (p, c) ∈ s.q w → s.loc p = .queued w c := fun w p c => (queue w p c).2
  have fr : ∀ w g, s.pc w = .run g → s.loc g = .running w := fun w g e => (run w g).2 (Or.inl e)
  have e1 : s.loc f = .winning w := (win w f).2 (by grind)
  have c3 := hc.join f (by simp [e1, Alive])
  simp only [e1, JoinOk] at c3
  have a5 : ∀ w', w' ≠ w → ¬ Zomb (s.pc w') → s.wk w' ≠ s.stk f := by
    intro w' hne hz e
    rcases unowned h' hl hk' (p := f) (by simp [e1, Alive]) c3 (by simp [e1]) hz e with h0 | h0 <;> rw [e1] at h0 <;> simp_all
  have a6 := top_of hl hk' (p := f) (by simp [e1, Alive]) c3 (by simp [e1])
  have a7 := mem f (s.stk f)
  constructor <;> simp only [passed, reset, upd_apply] <;> grind [Zomb, Alive]

set_option maxHeartbeats 1000000 in
theorem stk_finWin {body : σ → Act σ V} {s : State σ V} (hx : Ctx s) (w p : Nat) (same : Bool) (k : List V → σ) (vs : List V)
    (h1 : s.pc w = .finWin p same) (h2 : body (s.fr p).st = .join k) (h3 : results (s.fr p).slots = some vs) (h4 : (same = true → s.wk w = s.stk p)) (h5 : (same = false → s.al (s.wk w) = [])) (h6 : Top s (s.stk p) p) :
    InvStk ((passed { s with
      wk := if same then s.wk else upd s.wk w (s.stk p), fr := upd s.fr p (reset (s.fr p)) } w p k vs)) := by
  have h' := hx.loc
  have hl := hx.link
  have hc := hx.count
  have hq := hx.q
  have hk' := hx.stk
  have hw := hw_of h' hl hc hx.few
  obtain ⟨fresh, run, sto, win, fin, queue, inb, qnd, ind⟩ := hx.loc
  obtain ⟨mem, nd, adj, inj, chq, chc, fr1, fr2, ro, re, jl, js, jt, st, po, pe, dO, de, wo, we, le, se, ss, id⟩ := hx.stk
  clear hx
  have fq : ∀ w p c, (p, c) ∈ s.q w → s.loc p = .queued w c := fun w p c => (queue w p c).2
  have fr : ∀ w g, s.pc w = .run g → s.loc g = .running w := fun w g e => (run w g).2 (Or.inl e)
  have e1 : s.loc p = .winning w := (win w p).2 (by grind)
  have c3 := hc.join p (by simp [e1, Alive])
  simp only [e1, JoinOk] at c3
  have a5 : ∀ w', w' ≠ w → ¬ Zomb (s.pc w') → s.wk w' ≠ s.stk p := by
    intro w' hne hz e
    rcases unowned h' hl hk' (p := p) (by simp [e1, Alive]) c3 (by simp [e1]) hz e with h0 | h0 <;> rw [e1] at h0 <;> simp_all
  have a6 := top_of hl hk' (p := p) (by simp [e1, Alive]) c3 (by simp [e1])
  have a7 := mem p (s.stk p)
  cases same <;> constructor <;> simp only [passed, reset, upd_apply, if_true, Bool.false_eq_true, if_false] <;>
    grind [Zomb, Alive]

set_option maxHeartbeats 1000000 in
theorem stk_take {s : State σ V} (hx : Ctx s) (w f : Nat) (r : List Nat)
    (h1 : s.pc w = .idle) (h2 : s.inbox w = f :: r) (h3 : s.q w = []) (h4 : s.al (s.wk w) = []) (h5 : ((s.fr f).steal = 0 → Top s (s.stk f) f)) :
    InvStk ({ s with
      inbox := upd s.inbox w r
      wk := if (s.fr f).steal = 0 then upd s.wk w (s.stk f) else s.wk
      pc := upd s.pc w (.run f)
      loc := upd s.loc f (.running w)
      log := .resume f w :: s.log }) := by
  have h' := hx.loc
  have hl := hx.link
  have hc := hx.count
  have hq := hx.q
  have hk' := hx.stk
  have hw := hw_of h' hl hc hx.few
  obtain ⟨fresh, run, sto, win, fin, queue, inb, qnd, ind⟩ := hx.loc
  obtain ⟨mem, nd, adj, inj, chq, chc, fr1, fr2, ro, re, jl, js, jt, st, po, pe, dO, de, wo, we, le, se, ss, id⟩ := hx.stk
  clear hx
  have fq : ∀ w p c, (p, c) ∈ s.q w → s.loc p = .queued w c := fun w p c => (queue w p c).2
  have fr : ∀ w g, s.pc w = .run g → s.loc g = .running w := fun w g e => (run w g).2 (Or.inl e)
  have e1 : s.loc f = .inbox w := (inb w f).2 (by simp [h2])
  have c4 := hc.steal f (by simp [e1, Alive])
  by_cases h0 : (s.fr f).steal = 0
  · have c3 : (s.fr f).kids = [] := by
      have := hc.cnt f (by simp [e1, Alive])
      simp only [e1, tok] at this
      rw [← List.length_eq_zero_iff]; omega
    have a5 : ∀ w', ¬ Zomb (s.pc w') → s.wk w' ≠ s.stk f := by
      intro w' hz e
      rcases unowned h' hl hk' (p := f) (by simp [e1, Alive]) c3 (by simp [e1]) hz e with h0 | h0 <;> rw [e1] at h0 <;> cases h0
    have a6 := top_of hl hk' (p := f) (by simp [e1, Alive]) c3 (by simp [e1])
    have a7 := mem f (s.stk f)
    constructor <;> simp only [h0, if_true, upd_apply] <;> grind [Zomb, Alive]
  · constructor <;> simp only [h0, if_false, upd_apply] <;> grind [Zomb, Alive]

set_option maxHeartbeats 1000000 in
theorem stk_popHit {s : State σ V} (hx : Ctx s) (w p c c' : Nat) (r : List (Nat × Nat))
    (h1 : s.pc w = .finPop p c) (h2 : s.q w = (p, c') :: r) :
    InvStk ({ report s p c with
      q := upd s.q w r
      pc := upd s.pc w (.run p)
      loc := upd (report s p c).loc p (.running w)
      log := .resume p w :: s.log }) := by
  have h' := hx.loc
  have hl := hx.link
  have hc := hx.count
  have hq := hx.q
  have hk' := hx.stk
  have hw := hw_of h' hl hc hx.few
  obtain ⟨fresh, run, sto, win, fin, queue, inb, qnd, ind⟩ := hx.loc
  obtain ⟨mem, nd, adj, inj, chq, chc, fr1, fr2, ro, re, jl, js, jt, st, po, pe, dO, de, wo, we, le, se, ss, id⟩ := hx.stk
  clear hx
  have fq : ∀ w p c, (p, c) ∈ s.q w → s.loc p = .queued w c := fun w p c => (queue w p c).2
  have fr : ∀ w g, s.pc w = .run g → s.loc g = .running w := fun w g e => (run w g).2 (Or.inl e)
  have e1 : s.loc c = .finishing w := (fin w c).2 ⟨p, Or.inl h1⟩
  have e2 : s.loc p = .queued w c' := (queue w p c').2 (by simp [h2])
  have e3 : c' = c := hq.fp w p c h1 (p, c') (by rw [h2]; rfl)
  subst e3
  have e4 := chq w p c' (by simp [h2])
  constructor <;> simp only [report, upd_apply] <;> grind [Zomb, Alive]

end Verif.Runtime
