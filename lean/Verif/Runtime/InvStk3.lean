import Verif.Runtime.InvStkBase

/-! The stack invariant is preserved, by cases. -/
namespace Verif.Runtime
variable {σ V : Type}

set_option maxHeartbeats 1000000 in
theorem stk_fork {body : σ → Act σ V} {s : State σ V} (hx : Ctx s) (w f : Nat) (c k : σ)
    (h1 : s.pc w = .run f) (h2 : body (s.fr f).st = .fork c k) :
    InvStk ((doFork s w f c k)) := by
  have h' := hx.loc
  have hl := hx.link
  have hc := hx.count
  have hq := hx.q
  have hk' := hx.stk
  have hw := hw_of h' hl hc hx.few
  obtain ⟨fresh, run, sto, win, fin, queue, inb, qnd, ind⟩ := hx.loc
  obtain ⟨mem, nd, adj, inj, chq, chc, fr1, fr2, ro, re, jl, js, jt, st, po, pe, dO, de, wo, we, le, se, ss, id⟩ := hx.stk
  clear hx
  have fq : ∀ w p c, (p, c) ∈ s.q w → s.loc p = .queued w c := fun w p c => (queue w p c).2
  have fr : ∀ w g, s.pc w = .run g → s.loc g = .running w := fun w g e => (run w g).2 (Or.inl e)
  obtain ⟨b1, b2, b3, b4, b5, b6, b7, b8, b9, b10, b11⟩ := born_of h' hl hk'
  have e1 : s.loc f = .running w := (run w f).2 (Or.inl h1)
  have e2 : s.loc s.nf = .unborn := (fresh _).2 (Nat.le_refl _)
  have a2 := fr2 s.ns (Nat.le_refl _)
  have a3 : ∀ k, SAdj (upd s.link s.nf (.fork f (s.fr f).slots.length)) (s.al k) := fun k =>
    sadj_congr (fun x hx => upd_ne _ _ (by rintro rfl; exact b11 k hx)) (adj k)
  have a4 : SAdj (upd s.link s.nf (.fork f (s.fr f).slots.length)) (s.nf :: s.al (s.wk w)) := by
    refine ⟨fun y hy => ?_, a3 _⟩
    rw [upd_same]
    by_cases h0 : (s.fr f).stolen = 0
    · have := ro w f h1 h0
      rw [this.1, this.2] at hy; cases hy; rfl
    · rw [re w f h1 h0] at hy; cases hy
  have a5 : ∀ w', w' ≠ w → ¬ Zomb (s.pc w') → s.wk w' ≠ s.wk w := fun w' hne hz e =>
    hne (inj w' w hz (by rw [h1]; exact fun x => x) e)
  have a6 : s.wk w = s.stk f ↔ (s.fr f).stolen = 0 := by
    constructor
    · intro e
      by_cases h0 : (s.fr f).stolen = 0
      · exact h0
      · have m := (mem f (s.stk f)).2 ⟨by simp [e1, Alive], rfl⟩
        rw [← e, re w f h1 h0] at m; cases m
    · exact fun h0 => (ro w f h1 h0).1
  constructor
  case adj =>
    intro k
    simp only [doFork, newFrame, upd_apply s.al]
    split
    · exact a4
    · exact a3 k
  all_goals clear adj a3 a4
  all_goals simp only [doFork, newFrame, upd_apply] <;> grind [Zomb, Alive]

set_option maxHeartbeats 1000000 in
theorem stk_call {body : σ → Act σ V} {s : State σ V} (hx : Ctx s) (w f : Nat) (c : σ) (k : V → σ)
    (h1 : s.pc w = .run f) (h2 : body (s.fr f).st = .call c k) :
    InvStk ((doCall s w f c)) := by
  have h' := hx.loc
  have hl := hx.link
  have hc := hx.count
  have hq := hx.q
  have hk' := hx.stk
  have hw := hw_of h' hl hc hx.few
  obtain ⟨fresh, run, sto, win, fin, queue, inb, qnd, ind⟩ := hx.loc
  obtain ⟨mem, nd, adj, inj, chq, chc, fr1, fr2, ro, re, jl, js, jt, st, po, pe, dO, de, wo, we, le, se, ss, id⟩ := hx.stk
  clear hx
  have fq : ∀ w p c, (p, c) ∈ s.q w → s.loc p = .queued w c := fun w p c => (queue w p c).2
  have fr : ∀ w g, s.pc w = .run g → s.loc g = .running w := fun w g e => (run w g).2 (Or.inl e)
  obtain ⟨b1, b2, b3, b4, b5, b6, b7, b8, b9, b10, b11⟩ := born_of h' hl hk'
  have e1 : s.loc f = .running w := (run w f).2 (Or.inl h1)
  have e2 : s.loc s.nf = .unborn := (fresh _).2 (Nat.le_refl _)
  have a2 := fr2 s.ns (Nat.le_refl _)
  have a3 : ∀ k, SAdj (upd s.link s.nf (.call f)) (s.al k) := fun k =>
    sadj_congr (fun x hx => upd_ne _ _ (by rintro rfl; exact b11 k hx)) (adj k)
  have a4 : SAdj (upd s.link s.nf (.call f)) (s.nf :: s.al (s.wk w)) := by
    refine ⟨fun y hy => ?_, a3 _⟩
    rw [upd_same]
    by_cases h0 : (s.fr f).stolen = 0
    · have := ro w f h1 h0
      rw [this.1, this.2] at hy; cases hy; rfl
    · rw [re w f h1 h0] at hy; cases hy
  have a5 : ∀ w', w' ≠ w → ¬ Zomb (s.pc w') → s.wk w' ≠ s.wk w := fun w' hne hz e =>
    hne (inj w' w hz (by rw [h1]; exact fun x => x) e)
  have a6 : s.wk w = s.stk f ↔ (s.fr f).stolen = 0 := by
    constructor
    · intro e
      by_cases h0 : (s.fr f).stolen = 0
      · exact h0
      · have m := (mem f (s.stk f)).2 ⟨by simp [e1, Alive], rfl⟩
        rw [← e, re w f h1 h0] at m; cases m
    · exact fun h0 => (ro w f h1 h0).1
  constructor
  case adj =>
    intro k
    simp only [doCall, newFrame, upd_apply s.al]
    split
    · exact a4
    · exact a3 k
  all_goals clear adj a3 a4
  all_goals simp only [doCall, newFrame, upd_apply] <;> grind [Zomb, Alive]

set_option maxHeartbeats 1000000 in
theorem stk_submit {s : State σ V} (hx : Ctx s) (c : σ) (w : Nat)
     :
    InvStk ((submit s c w)) := by
  have h' := hx.loc
  have hl := hx.link
  have hc := hx.count
  have hq := hx.q
  have hk' := hx.stk
  have hw := hw_of h' hl hc hx.few
  obtain ⟨fresh, run, sto, win, fin, queue, inb, qnd, ind⟩ := hx.loc
  obtain ⟨mem, nd, adj, inj, chq, chc, fr1, fr2, ro, re, jl, js, jt, st, po, pe, dO, de, wo, we, le, se, ss, id⟩ := hx.stk
  clear hx
  have fq : ∀ w p c, (p, c) ∈ s.q w → s.loc p = .queued w c := fun w p c => (queue w p c).2
  have fr : ∀ w g, s.pc w = .run g → s.loc g = .running w := fun w g e => (run w g).2 (Or.inl e)
  obtain ⟨b1, b2, b3, b4, b5, b6, b7, b8, b9, b10, b11⟩ := born_of h' hl hk'
  have e2 : s.loc s.nf = .unborn := (fresh _).2 (Nat.le_refl _)
  have a1 := fr1 s.ns (Nat.le_refl _)
  have a2 := fr2 s.ns (Nat.le_refl _)
  have a3 : ∀ k, SAdj (upd s.link s.nf .root) (s.al k) := fun k =>
    sadj_congr (fun x hx => upd_ne _ _ (by rintro rfl; exact b11 k hx)) (adj k)
  have a4 : SAdj (upd s.link s.nf .root) (s.nf :: s.al (2 * s.ns)) := by
    refine ⟨fun y hy => ?_, a3 _⟩
    rw [a1] at hy; cases hy
  constructor
  case adj =>
    intro k
    simp only [submit, newFrame, upd_apply s.al]
    split
    · exact a4
    · exact a3 k
  all_goals clear adj a3 a4
  all_goals simp only [submit, newFrame, upd_apply] <;> grind [Zomb, Alive]

set_option maxHeartbeats 1000000 in
theorem stk_retRoot {body : σ → Act σ V} {s : State σ V} (hx : Ctx s) (w f : Nat) (v : V)
    (h1 : s.pc w = .run f) (h2 : body (s.fr f).st = .ret v) (h3 : (s.fr f).steal = 0) (h4 : s.link f = .root) (h5 : Top s (s.wk w) f) (h6 : s.al (s.wk w) = [f]) (h7 : s.q w = []) :
    InvStk ({ destroyed s w with pc := upd s.pc w .idle, loc := upd s.loc f .gone, log := .done f v :: s.log }) := by
  have h' := hx.loc
  have hl := hx.link
  have hc := hx.count
  have hq := hx.q
  have hk' := hx.stk
  have hw := hw_of h' hl hc hx.few
  obtain ⟨fresh, run, sto, win, fin, queue, inb, qnd, ind⟩ := hx.loc
  obtain ⟨mem, nd, adj, inj, chq, chc, fr1, fr2, ro, re, jl, js, jt, st, po, pe, dO, de, wo, we, le, se, ss, id⟩ := hx.stk
  clear hx
  have fq : ∀ w p c, (p, c) ∈ s.q w → s.loc p = .queued w c := fun w p c => (queue w p c).2
  have fr : ∀ w g, s.pc w = .run g → s.loc g = .running w := fun w g e => (run w g).2 (Or.inl e)
  have e1 : s.loc f = .running w := (run w f).2 (Or.inl h1)
  have e2 := h5.1
  have a5 : ∀ w', w' ≠ w → ¬ Zomb (s.pc w') → s.wk w' ≠ s.wk w := fun w' hne hz e =>
    hne (inj w' w hz (by rw [h1]; exact fun x => x) e)
  have a3 : SAdj s.link [] := trivial
  constructor <;> simp only [destroyed, upd_apply, h6, List.tail_cons] <;> grind [Zomb, Alive]

set_option maxHeartbeats 1000000 in
theorem stk_retCall {body : σ → Act σ V} {s : State σ V} (hx : Ctx s) (w f p : Nat) (v : V) (c : σ) (k : V → σ)
    (h1 : s.pc w = .run f) (h2 : body (s.fr f).st = .ret v) (h3 : (s.fr f).steal = 0) (h4 : s.link f = .call p) (h5 : Top s (s.wk w) f) (h6 : body (s.fr p).st = .call c k) :
    InvStk ({ destroyed s w with
      fr := upd s.fr p { s.fr p with st := k v }
      pc := upd s.pc w (.run p)
      loc := upd (upd s.loc f .gone) p (.running w)
      log := .resume p w :: .done f v :: s.log }) := by
  have h' := hx.loc
  have hl := hx.link
  have hc := hx.count
  have hq := hx.q
  have hk' := hx.stk
  have hw := hw_of h' hl hc hx.few
  obtain ⟨fresh, run, sto, win, fin, queue, inb, qnd, ind⟩ := hx.loc
  obtain ⟨mem, nd, adj, inj, chq, chc, fr1, fr2, ro, re, jl, js, jt, st, po, pe, dO, de, wo, we, le, se, ss, id⟩ := hx.stk
  clear hx
  have fq : ∀ w p c, (p, c) ∈ s.q w → s.loc p = .queued w c := fun w p c => (queue w p c).2
  have fr : ∀ w g, s.pc w = .run g → s.loc g = .running w := fun w g e => (run w g).2 (Or.inl e)
  have e1 : s.loc f = .running w := (run w f).2 (Or.inl h1)
  have e2 := h5.1
  obtain ⟨t, ht⟩ := top_cons h5
  have a5 : ∀ w', w' ≠ w → ¬ Zomb (s.pc w') → s.wk w' ≠ s.wk w := fun w' hne hz e =>
    hne (inj w' w hz (by rw [h1]; exact fun x => x) e)
  have a3 := adj (s.wk w)
  rw [ht] at a3
  have a4 : SAdj s.link t := a3.2
  have a8 : ∀ y, t.head? = some y → y = p := by
    intro y hy; have := a3.1 y hy; rw [h4] at this; cases this; rfl
  have a9 := nd (s.wk w)
  rw [ht] at a9
  have a10 := (List.nodup_cons.1 a9).1
  have a11 := (List.nodup_cons.1 a9).2
  have a12 : p ∈ t ∨ t = [] := by
    cases t with
    | nil => exact Or.inr rfl
    | cons y t => left; rw [a8 y rfl]; exact List.mem_cons_self ..
  have a13 : p ∈ t → t.head? = some p := by
    intro hp
    cases t with
    | nil => cases hp
    | cons y t => rw [a8 y rfl]; rfl
  have a14 : ∀ g, g ∈ s.al (s.wk w) ↔ g = f ∨ g ∈ t := by intro g; rw [ht]; exact List.mem_cons
  have e3 : s.loc p = .callwait f := (hl.callw p f).2 ⟨h4, by simp [e1, Alive]⟩
  clear a3 a9
  constructor <;> simp only [destroyed, upd_apply, ht, List.tail_cons] <;> grind [Zomb, Alive]

set_option maxHeartbeats 1000000 in
theorem stk_retFork {body : σ → Act σ V} {s : State σ V} (hx : Ctx s) (w f p i : Nat) (v : V)
    (h1 : s.pc w = .run f) (h2 : body (s.fr f).st = .ret v) (h3 : (s.fr f).steal = 0) (h4 : s.link f = .fork p i) (h5 : Top s (s.wk w) f) :
    InvStk ({ destroyed s w with
      fr := upd s.fr p { s.fr p with slots := (s.fr p).slots.set i (some v) }
      pc := upd s.pc w (.finPop p f)
      loc := upd s.loc f (.finishing w)
      log := .done f v :: s.log }) := by
  have h' := hx.loc
  have hl := hx.link
  have hc := hx.count
  have hq := hx.q
  have hk' := hx.stk
  have hw := hw_of h' hl hc hx.few
  obtain ⟨fresh, run, sto, win, fin, queue, inb, qnd, ind⟩ := hx.loc
  obtain ⟨mem, nd, adj, inj, chq, chc, fr1, fr2, ro, re, jl, js, jt, st, po, pe, dO, de, wo, we, le, se, ss, id⟩ := hx.stk
  clear hx
  have fq : ∀ w p c, (p, c) ∈ s.q w → s.loc p = .queued w c := fun w p c => (queue w p c).2
  have fr : ∀ w g, s.pc w = .run g → s.loc g = .running w := fun w g e => (run w g).2 (Or.inl e)
  have e1 : s.loc f = .running w := (run w f).2 (Or.inl h1)
  have e2 := h5.1
  obtain ⟨t, ht⟩ := top_cons h5
  have a5 : ∀ w', w' ≠ w → ¬ Zomb (s.pc w') → s.wk w' ≠ s.wk w := fun w' hne hz e =>
    hne (inj w' w hz (by rw [h1]; exact fun x => x) e)
  have a3 := adj (s.wk w)
  rw [ht] at a3
  have a4 : SAdj s.link t := a3.2
  have a8 : ∀ y, t.head? = some y → y = p := by
    intro y hy; have := a3.1 y hy; rw [h4] at this; cases this; rfl
  have a9 := nd (s.wk w)
  rw [ht] at a9
  have a10 := (List.nodup_cons.1 a9).1
  have a11 := (List.nodup_cons.1 a9).2
  have a12 : p ∈ t ∨ t = [] := by
    cases t with
    | nil => exact Or.inr rfl
    | cons y t => left; rw [a8 y rfl]; exact List.mem_cons_self ..
  have a13 : p ∈ t → t.head? = some p := by
    intro hp
    cases t with
    | nil => cases hp
    | cons y t => rw [a8 y rfl]; rfl
  have a14 : ∀ g, g ∈ s.al (s.wk w) ↔ g = f ∨ g ∈ t := by intro g; rw [ht]; exact List.mem_cons
  have e3 : Alive (s.loc p) := hl.kid f p (by rw [h4]; rfl) (by simp [e1]) (by simp [e1])
  have a15 : s.stk f ≠ s.stk p → t = [] := by
    intro hne
    rcases a12 with h0 | h0
    · exact absurd (e2.trans ((mem p _).1 ((a14 p).2 (Or.inr h0))).2.symm) hne
    · exact h0
  have a16 : s.stk f = s.stk p → t.head? = some p := by
    intro he
    have hm : p ∈ s.al (s.wk w) := (mem p _).2 ⟨e3, by rw [← he, e2]⟩
    rcases (a14 p).1 hm with h0 | h0
    · have := hl.olderF f p (by have := fresh f; grind) (by rw [h4]; rfl)
      omega
    · exact a13 h0
  clear a3 a9
  constructor <;> simp only [destroyed, upd_apply, ht, List.tail_cons] <;> grind [Zomb, Alive]

end Verif.Runtime
