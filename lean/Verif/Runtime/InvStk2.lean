import Verif.Runtime.InvStkBase

/-! The stack invariant is preserved, by cases. -/
namespace Verif.Runtime
variable {σ V : Type}

set_option maxHeartbeats 1000000 in
theorem stk_finLose {s : State σ V} (hx : Ctx s) (w : Nat) (same : Bool)
    (h1 : s.pc w = .finLose same) (h2 : (same = false → s.al (s.wk w) = [])) (h3 : s.q w = []) :
    InvStk ({ (if same then release s w else s) with pc := upd s.pc w .idle }) := by
  have h' := hx.loc
  have hl := hx.link
  have hc := hx.count
  have hq := hx.q
  have hk' := hx.stk
  have hw := hw_of h' hl hc hx.few
  obtain ⟨fresh, run, sto, win, fin, queue, inb, qnd, ind⟩ := hx.loc
  obtain ⟨mem, nd, adj, inj, chq, chc, fr1, fr2, ro, re, jl, js, jt, st, po, pe, dO, de, wo, we, le, se, ss, id⟩ := hx.stk
  clear hx
  have fq : ∀ w p c, (p, c) ∈ s.q w → s.loc p = .queued w c := fun w p c => (queue w p c).2
  have fr : ∀ w g, s.pc w = .run g → s.loc g = .running w := fun w g e => (run w g).2 (Or.inl e)
  have a1 := fr1 s.ns (Nat.le_refl _)
  have a2 := fr2 s.ns (Nat.le_refl _)
  cases same <;> constructor <;> simp only [release, upd_apply, if_true, Bool.false_eq_true, if_false] <;> grind [Zomb]

set_option maxHeartbeats 1000000 in
theorem stk_selfSteal {s : State σ V} (hx : Ctx s) (w p c : Nat) (r : List (Nat × Nat))
    (h1 : s.pc w = .selfSteal) (h2 : s.q w = (p, c) :: r) :
    InvStk ({ s with q := upd s.q w r, pc := upd s.pc w (.stole p), loc := upd s.loc p (.stolenBy w) }) := by
  have h' := hx.loc
  have hl := hx.link
  have hc := hx.count
  have hq := hx.q
  have hk' := hx.stk
  have hw := hw_of h' hl hc hx.few
  obtain ⟨fresh, run, sto, win, fin, queue, inb, qnd, ind⟩ := hx.loc
  obtain ⟨mem, nd, adj, inj, chq, chc, fr1, fr2, ro, re, jl, js, jt, st, po, pe, dO, de, wo, we, le, se, ss, id⟩ := hx.stk
  clear hx
  have fq : ∀ w p c, (p, c) ∈ s.q w → s.loc p = .queued w c := fun w p c => (queue w p c).2
  have fr : ∀ w g, s.pc w = .run g → s.loc g = .running w := fun w g e => (run w g).2 (Or.inl e)
  have e2 : s.loc p = .queued w c := (queue w p c).2 (by simp [h2])
  constructor <;> simp only [upd_apply] <;> grind [Zomb, Alive]

set_option maxHeartbeats 1000000 in
theorem stk_selfNone {s : State σ V} (hx : Ctx s) (w : Nat)
    (h1 : s.pc w = .selfSteal) (h2 : s.q w = []) (h3 : s.al (s.wk w) = []) :
    InvStk ({ s with pc := upd s.pc w .idle }) := by
  have h' := hx.loc
  have hl := hx.link
  have hc := hx.count
  have hq := hx.q
  have hk' := hx.stk
  have hw := hw_of h' hl hc hx.few
  obtain ⟨fresh, run, sto, win, fin, queue, inb, qnd, ind⟩ := hx.loc
  obtain ⟨mem, nd, adj, inj, chq, chc, fr1, fr2, ro, re, jl, js, jt, st, po, pe, dO, de, wo, we, le, se, ss, id⟩ := hx.stk
  clear hx
  have fq : ∀ w p c, (p, c) ∈ s.q w → s.loc p = .queued w c := fun w p c => (queue w p c).2
  have fr : ∀ w g, s.pc w = .run g → s.loc g = .running w := fun w g e => (run w g).2 (Or.inl e)
  constructor <;> simp only [upd_apply] <;> grind [Zomb, Alive]

set_option maxHeartbeats 1000000 in
theorem stk_stole {s : State σ V} (hx : Ctx s) (w p : Nat)
    (h1 : s.pc w = .stole p) :
    InvStk ({ s with
      fr := upd s.fr p { s.fr p with steal := ((s.fr p).steal + 1) % U16, stolen := (s.fr p).stolen + 1 }
      pc := upd s.pc w (.run p)
      loc := upd s.loc p (.running w)
      log := .resume p w :: s.log }) := by
  have h' := hx.loc
  have hl := hx.link
  have hc := hx.count
  have hq := hx.q
  have hk' := hx.stk
  have hw := hw_of h' hl hc hx.few
  obtain ⟨fresh, run, sto, win, fin, queue, inb, qnd, ind⟩ := hx.loc
  obtain ⟨mem, nd, adj, inj, chq, chc, fr1, fr2, ro, re, jl, js, jt, st, po, pe, dO, de, wo, we, le, se, ss, id⟩ := hx.stk
  clear hx
  have fq : ∀ w p c, (p, c) ∈ s.q w → s.loc p = .queued w c := fun w p c => (queue w p c).2
  have fr : ∀ w g, s.pc w = .run g → s.loc g = .running w := fun w g e => (run w g).2 (Or.inl e)
  have e2 : s.loc p = .stolenBy w := (sto w p).2 h1
  constructor <;> simp only [upd_apply] <;> grind [Zomb, Alive]

set_option maxHeartbeats 1000000 in
theorem stk_switch {body : σ → Act σ V} {s : State σ V} (hx : Ctx s) (w f d : Nat) (k : σ) (z : Bool)
    (h1 : s.pc w = .run f) (h2 : body (s.fr f).st = .switch d k) (h3 : z = decide ((s.fr f).steal = 0)) (h4 : (z = true → Top s (s.wk w) f)) (h5 : (z = false → s.wk w ≠ s.stk f)) :
    InvStk ({ s with
      fr := upd s.fr f { s.fr f with st := k }
      pc := upd s.pc w (.switchRel z)
      inbox := upd s.inbox d (s.inbox d ++ [f])
      loc := upd s.loc f (.inbox d)
      log := .suspend f (.switch d) :: s.log }) := by
  have h' := hx.loc
  have hl := hx.link
  have hc := hx.count
  have hq := hx.q
  have hk' := hx.stk
  have hw := hw_of h' hl hc hx.few
  obtain ⟨fresh, run, sto, win, fin, queue, inb, qnd, ind⟩ := hx.loc
  obtain ⟨mem, nd, adj, inj, chq, chc, fr1, fr2, ro, re, jl, js, jt, st, po, pe, dO, de, wo, we, le, se, ss, id⟩ := hx.stk
  clear hx
  have fq : ∀ w p c, (p, c) ∈ s.q w → s.loc p = .queued w c := fun w p c => (queue w p c).2
  have fr : ∀ w g, s.pc w = .run g → s.loc g = .running w := fun w g e => (run w g).2 (Or.inl e)
  have e1 : s.loc f = .running w := (run w f).2 (Or.inl h1)
  have e3 := hc.steal f (by simp [e1, Alive])
  cases z <;> constructor <;> simp only [upd_apply] <;> grind [Zomb, Alive]

set_option maxHeartbeats 1000000 in
theorem stk_switchRel {s : State σ V} (hx : Ctx s) (w : Nat) (z : Bool)
    (h1 : s.pc w = .switchRel z) (h2 : (z = false → s.al (s.wk w) = [])) :
    InvStk ({ (if z then release s w else s) with pc := upd s.pc w .selfSteal }) := by
  have h' := hx.loc
  have hl := hx.link
  have hc := hx.count
  have hq := hx.q
  have hk' := hx.stk
  have hw := hw_of h' hl hc hx.few
  obtain ⟨fresh, run, sto, win, fin, queue, inb, qnd, ind⟩ := hx.loc
  obtain ⟨mem, nd, adj, inj, chq, chc, fr1, fr2, ro, re, jl, js, jt, st, po, pe, dO, de, wo, we, le, se, ss, id⟩ := hx.stk
  clear hx
  have fq : ∀ w p c, (p, c) ∈ s.q w → s.loc p = .queued w c := fun w p c => (queue w p c).2
  have fr : ∀ w g, s.pc w = .run g → s.loc g = .running w := fun w g e => (run w g).2 (Or.inl e)
  have a1 := fr1 s.ns (Nat.le_refl _)
  have a2 := fr2 s.ns (Nat.le_refl _)
  cases z <;> constructor <;> simp only [release, upd_apply, if_true, Bool.false_eq_true, if_false] <;> grind [Zomb]

set_option maxHeartbeats 1000000 in
theorem stk_steal {s : State σ V} (hx : Ctx s) (w v p c : Nat) (r : List (Nat × Nat))
    (h1 : s.pc w = .idle) (h2 : w ≠ v) (h3 : s.q v = r ++ [(p, c)]) (h4 : s.q w = []) (h5 : s.al (s.wk w) = []) :
    InvStk ({ s with q := upd s.q v r, pc := upd s.pc w (.stole p), loc := upd s.loc p (.stolenBy w) }) := by
  have h' := hx.loc
  have hl := hx.link
  have hc := hx.count
  have hq := hx.q
  have hk' := hx.stk
  have hw := hw_of h' hl hc hx.few
  obtain ⟨fresh, run, sto, win, fin, queue, inb, qnd, ind⟩ := hx.loc
  obtain ⟨mem, nd, adj, inj, chq, chc, fr1, fr2, ro, re, jl, js, jt, st, po, pe, dO, de, wo, we, le, se, ss, id⟩ := hx.stk
  clear hx
  have fq : ∀ w p c, (p, c) ∈ s.q w → s.loc p = .queued w c := fun w p c => (queue w p c).2
  have fr : ∀ w g, s.pc w = .run g → s.loc g = .running w := fun w g e => (run w g).2 (Or.inl e)
  have e2 : s.loc p = .queued v c := (queue v p c).2 (by simp [h3])
  constructor <;> simp only [upd_apply] <;> grind [Zomb, Alive]

end Verif.Runtime
