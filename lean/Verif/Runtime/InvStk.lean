import Verif.Runtime.InvQ

/-!
Invariants, fifth part: what is on the stacks and who owns them.
-/
namespace Verif.Runtime
variable {σ V : Type}

/-- The parent of a task. -/
def linkPar : Link → Option Nat
  | .root => none
  | .fork p _ => some p
  | .call p => some p

/-- A frame lies on top of its parent's. -/
def SAdj (link : Nat → Link) : List Nat → Prop
  | [] => True
  | x :: L => (∀ y, L.head? = some y → linkPar (link x) = some y) ∧ SAdj link L

theorem sadj_congr {link link' : Nat → Link} {L : List Nat} (hb : ∀ x ∈ L, link' x = link x) (h : SAdj link L) :
    SAdj link' L := by
  induction L with
  | nil => trivial
  | cons a L ih =>
    refine ⟨fun y hy => ?_, ih (fun x hx => hb x (List.mem_cons_of_mem _ hx)) h.2⟩
    rw [hb a (List.mem_cons_self ..)]; exact h.1 y hy

/-- The frame on top of a frame is that of a child. -/
theorem sadj_child {link : Nat → Link} {L : List Nat} (h : SAdj link L) {p : Nat} (hp : p ∈ L) (ht : L.head? ≠ some p) :
    ∃ c ∈ L, linkPar (link c) = some p := by
  induction L with
  | nil => cases hp
  | cons a L ih =>
    have hpL : p ∈ L := by
      rcases List.mem_cons.1 hp with rfl | h1
      · exact absurd rfl ht
      · exact h1
    by_cases hh : L.head? = some p
    · exact ⟨a, List.mem_cons_self .., h.1 p hh⟩
    · obtain ⟨c, h1, h2⟩ := ih h.2 hpL hh
      exact ⟨c, List.mem_cons_of_mem _ h1, h2⟩

/-- The worker has given its stack away and not yet got a new one. -/
def Zomb : Pc → Prop
  | .finLose true => True
  | .switchRel true => True
  | _ => False

structure InvStk (s : State σ V) : Prop where
  mem : ∀ f k, f ∈ s.al k ↔ Alive (s.loc f) ∧ s.stk f = k
  nd : ∀ k, (s.al k).Nodup
  adj : ∀ k, SAdj s.link (s.al k)
  inj : ∀ w w', ¬ Zomb (s.pc w) → ¬ Zomb (s.pc w') → s.wk w = s.wk w' → w = w'
  chq : ∀ w p c, (p, c) ∈ s.q w → (s.stk c = s.stk p ↔ (s.fr p).stolen = 0)
  chc : ∀ p c, s.loc p = .callwait c → (s.stk c = s.stk p ↔ (s.fr p).stolen = 0)
  fr1 : ∀ n, s.ns ≤ n → s.al (2 * n) = []
  fr2 : ∀ n, s.ns ≤ n → ∀ w, s.wk w ≠ 2 * n
  ro : ∀ w g, s.pc w = .run g → (s.fr g).stolen = 0 → s.wk w = s.stk g ∧ (s.al (s.stk g)).head? = some g
  re : ∀ w g, s.pc w = .run g → (s.fr g).stolen ≠ 0 → s.al (s.wk w) = []
  jl : ∀ w g, s.pc w = .joinLoad g → s.al (s.wk w) = []
  js : ∀ w g, s.pc w = .joinSub g → s.al (s.wk w) = []
  jt : ∀ w g, s.pc w = .joinTake g → s.al (s.wk w) = []
  st : ∀ w g, s.pc w = .stole g → s.al (s.wk w) = []
  po : ∀ w p c, s.pc w = .finPop p c → s.stk c = s.stk p → s.wk w = s.stk p ∧ (s.al (s.stk p)).head? = some p
  pe : ∀ w p c, s.pc w = .finPop p c → s.stk c ≠ s.stk p → s.al (s.wk w) = []
  dO : ∀ w p c, s.pc w = .finDec p c true → s.wk w = s.stk p ∧ (s.al (s.stk p)).head? = some p
  de : ∀ w p c, s.pc w = .finDec p c false → s.al (s.wk w) = []
  wo : ∀ w p, s.pc w = .finWin p true → s.wk w = s.stk p ∧ (s.al (s.stk p)).head? = some p
  we : ∀ w p, s.pc w = .finWin p false → s.al (s.wk w) = []
  le : ∀ w, s.pc w = .finLose false → s.al (s.wk w) = []
  se : ∀ w, s.pc w = .switchRel false → s.al (s.wk w) = []
  ss : ∀ w, s.pc w = .selfSteal → s.al (s.wk w) = []
  id : ∀ w, s.pc w = .idle → s.al (s.wk w) = []

/-- A task with no outstanding child that does not wait for a call is on top of its stack. -/
theorem top_of {s : State σ V} (hl : InvLink s) (hk : InvStk s) {p : Nat} (ha : Alive (s.loc p)) (hn : (s.fr p).kids = [])
    (hc : ∀ c, s.loc p ≠ .callwait c) : (s.al (s.stk p)).head? = some p := by
  by_cases ht : (s.al (s.stk p)).head? = some p
  · exact ht
  · exfalso
    obtain ⟨c, h1, h2⟩ := sadj_child (hk.adj _) ((hk.mem p _).2 ⟨ha, rfl⟩) ht
    have h3 := ((hk.mem c _).1 h1).1
    cases h4 : s.link c with
    | root => rw [h4] at h2; cases h2
    | fork p' i =>
      rw [h4] at h2; cases h2
      have : c ∈ (s.fr p).kids := (hl.kids p ha c).2 ⟨by rw [h4]; rfl, by rintro e; rw [e] at h3; exact h3,
        by rintro e; rw [e] at h3; exact h3⟩
      rw [hn] at this; cases this
    | call p' =>
      rw [h4] at h2; cases h2
      exact hc c ((hl.callw p c).2 ⟨h4, h3⟩)

/-- ... and no other worker owns that stack. -/
theorem unowned {s : State σ V} (h : InvLoc s) (hl : InvLink s) (hk : InvStk s) {p : Nat} (ha : Alive (s.loc p))
    (hn : (s.fr p).kids = []) (hc : ∀ c, s.loc p ≠ .callwait c) {w : Nat} (hz : ¬ Zomb (s.pc w))
    (hw : s.wk w = s.stk p) : s.loc p = .running w ∨ s.loc p = .winning w := by
  have ht := top_of hl hk ha hn hc
  have hne : s.al (s.wk w) ≠ [] := by intro e; rw [hw] at e; rw [e] at ht; cases ht
  have kid : ∀ c, forkPar (s.link c) = some p → s.loc c = .finishing w → False := by
    intro c h1 h2
    have : c ∈ (s.fr p).kids := (hl.kids p ha c).2 ⟨h1, by simp [h2], by simp [h2]⟩
    rw [hn] at this; cases this
  cases hp : s.pc w with
  | idle => exact absurd (hk.id w hp) hne
  | run g =>
    by_cases h0 : (s.fr g).stolen = 0
    · have := hk.ro w g hp h0
      rw [← this.1, hw, ht] at this
      cases this.2
      exact Or.inl ((h.run w _).2 (Or.inl hp))
    · exact absurd (hk.re w g hp h0) hne
  | joinLoad g => exact absurd (hk.jl w g hp) hne
  | joinSub g => exact absurd (hk.js w g hp) hne
  | joinTake g => exact absurd (hk.jt w g hp) hne
  | stole g => exact absurd (hk.st w g hp) hne
  | finPop p' c =>
    by_cases h0 : s.stk c = s.stk p'
    · have := hk.po w p' c hp h0
      rw [← this.1, hw, ht] at this
      cases this.2
      exact (kid c (hl.flink w _ c hp) ((h.fin w c).2 ⟨_, Or.inl hp⟩)).elim
    · exact absurd (hk.pe w p' c hp h0) hne
  | finDec p' c b =>
    cases b with
    | true =>
      have := hk.dO w p' c hp
      rw [← this.1, hw, ht] at this
      cases this.2
      exact (kid c (hl.flink' w _ c _ hp) ((h.fin w c).2 ⟨_, Or.inr ⟨_, hp⟩⟩)).elim
    | false => exact absurd (hk.de w p' c hp) hne
  | finWin p' b =>
    cases b with
    | true =>
      have := hk.wo w p' hp
      rw [← this.1, hw, ht] at this
      cases this.2
      exact Or.inr ((h.win w _).2 (Or.inr ⟨_, hp⟩))
    | false => exact absurd (hk.we w p' hp) hne
  | finLose b => cases b with
    | true => exact absurd (by rw [hp]; trivial) hz
    | false => exact absurd (hk.le w hp) hne
  | selfSteal => exact absurd (hk.ss w hp) hne
  | switchRel z => cases z with
    | true => exact absurd (by rw [hp]; trivial) hz
    | false => exact absurd (hk.se w hp) hne

theorem top_cons {s : State σ V} {k f : Nat} (h : Top s k f) : ∃ t, s.al k = f :: t := by
  have := h.2
  cases hx : s.al k with
  | nil => rw [hx] at this; cases this
  | cons a t => rw [hx] at this; cases this; exact ⟨t, rfl⟩

end Verif.Runtime
