import Verif.Space.Spec
import Verif.Runtime.Inv

/-! Every frame has a child or is in the hands of a worker, or waits in a submission list. -/
namespace Verif.Space
open Verif.Runtime
variable {σ V : Type}

theorem Anc.trans {link : Nat → Link} {f g h : Nat} (h1 : Anc link f g) (h2 : Anc link g h) : Anc link f h := by
  induction h2 with
  | refl => exact h1
  | up e _ ih => exact .up e ih

section
variable {s : State σ V} (hl : InvLoc s) (hk : InvLink s)
include hk

theorem older {f p : Nat} (hf : f < s.nf) (h : linkPar (s.link f) = some p) : p < f := by
  cases e : s.link f with
  | root => rw [e] at h; cases h
  | fork q i => rw [e] at h; cases h; exact hk.olderF f p hf (by rw [e]; rfl)
  | call q => rw [e] at h; cases h; exact hk.olderC f p hf e

theorem anc_line {f g : Nat} (h : Anc s.link f g) : ∀ {n}, g < n → g < s.nf → f ∈ line s.link n g := by
  induction h with
  | refl => intro n hn _; cases n with
    | zero => omega
    | succ n => exact List.mem_cons_self ..
  | @up p g e _ ih =>
    intro n hn hg
    cases n with
    | zero => omega
    | succ n =>
      have := older hk hg e
      simp only [line, e]
      exact List.mem_cons_of_mem _ (ih (by omega) (by omega))

omit hk in
include hl in
theorem alive_lt {f : Nat} (h : Alive (s.loc f)) : f < s.nf := by
  apply Classical.byContradiction
  intro hn
  have := (hl.fresh f).2 (by omega)
  rw [this] at h; exact h

theorem anc_lt {f g : Nat} (h : Anc s.link f g) : g < s.nf → f < s.nf := by
  induction h with
  | refl => exact id
  | up e _ ih => intro hg; exact ih (by have := older hk hg e; omega)

variable (hq : InvQ s)
include hl hq

/-- The nearest ancestor that was not called. -/
theorem base_alive : ∀ {f : Nat}, Alive (s.loc f) → Alive (s.loc (s.base f)) ∧ Anc s.link (s.base f) f := by
  intro f
  induction f using Nat.strongRecOn with
  | ind f ih =>
    intro ha
    have hf := alive_lt hl ha
    cases e : s.link f with
    | root => rw [hq.br f hf e]; exact ⟨ha, .refl⟩
    | fork q i => rw [hq.bf f q hf (by rw [e]; rfl)]; exact ⟨ha, .refl⟩
    | call q =>
      have h1 := hk.olderC f q hf e
      have h2 : s.loc q = .callwait f := (hk.callw q f).2 ⟨e, ha⟩
      obtain ⟨h3, h4⟩ := ih q h1 (by rw [h2]; trivial)
      rw [hq.bc f q hf e]
      exact ⟨h3, .up (by rw [e]; rfl) h4⟩

/-- In a queue the child of an entry that is not the newest lives, and the entry is an ancestor of the newest. -/
theorem queue_child {w : Nat} : ∀ {Q : List (Nat × Nat)} {x : Nat × Nat}, QAdj s.base (x :: Q) → (∀ y ∈ x :: Q, y ∈ s.q w) →
    ∀ y ∈ Q, Alive (s.loc y.2) ∧ linkPar (s.link y.2) = some y.1 ∧ Anc s.link y.1 x.1 := by
  intro Q
  induction Q with
  | nil => intro x _ _ y hy; cases hy
  | cons z Q ih =>
    intro x hadj hin y hy
    have hx : Alive (s.loc x.1) := by
      have := (hl.queue w x.1 x.2).2 (hin _ (List.mem_cons_self ..))
      rw [this]; trivial
    have hz : z.2 = s.base x.1 := hadj.1 z rfl
    obtain ⟨h1, h2⟩ := base_alive hl hk hq hx
    have hzl : linkPar (s.link z.2) = some z.1 := by
      have := hk.qlink w z.1 z.2 (hin z (List.mem_cons_of_mem _ (List.mem_cons_self ..)))
      cases e : s.link z.2 with
      | root => rw [e] at this; cases this
      | fork q i => rw [e] at this; cases this; rfl
      | call q => rw [e] at this; cases this
    have hz3 : Anc s.link z.1 x.1 := (Anc.up hzl (.refl)).trans (by rw [hz]; exact h2)
    rcases List.mem_cons.1 hy with rfl | hy
    · exact ⟨by rw [hz]; exact h1, hzl, hz3⟩
    · obtain ⟨h4, h5, h6⟩ := ih hadj.2 (fun u hu => hin u (List.mem_cons_of_mem _ hu)) y hy
      exact ⟨h4, h5, h6.trans hz3⟩

/-- The newest entry: the worker holds it, or its child lives and is an ancestor of what the worker holds. -/
theorem queue_head {w : Nat} {x : Nat × Nat} (h : (s.q w).head? = some x) :
    holds s w = some x.1 ∨ ∃ g, holds s w = some g ∧ g < s.nf ∧ Alive (s.loc x.2) ∧ linkPar (s.link x.2) = some x.1 ∧ Anc s.link x.1 g := by
  have hin : x ∈ s.q w := List.mem_of_mem_head? h
  have hlink : linkPar (s.link x.2) = some x.1 := by
    have := hk.qlink w x.1 x.2 hin
    cases e : s.link x.2 with
    | root => rw [e] at this; cases this
    | fork q i => rw [e] at this; cases this; rfl
    | call q => rw [e] at this; cases this
  have key : ∀ g, holds s w = some g → Alive (s.loc g) → QHead (s.base g) (s.q w) →
      ∃ g, holds s w = some g ∧ g < s.nf ∧ Alive (s.loc x.2) ∧ linkPar (s.link x.2) = some x.1 ∧ Anc s.link x.1 g := by
    intro g hg ha hh
    obtain ⟨h1, h2⟩ := base_alive hl hk hq ha
    have e := hh x h
    refine ⟨g, hg, alive_lt hl ha, by rw [e]; exact h1, hlink, ?_⟩
    exact (Anc.up hlink (.refl)).trans (by rw [e]; exact h2)
  cases hp : s.pc w with
  | idle => left; simp only [holds, hp, h, Option.map_some]
  | finLose _ => left; simp only [holds, hp, h, Option.map_some]
  | selfSteal => left; simp only [holds, hp, h, Option.map_some]
  | switchRel _ => left; simp only [holds, hp, h, Option.map_some]
  | run g => exact .inr (key g (by simp only [holds, hp]) (by rw [(hl.run w g).2 (.inl hp)]; trivial) (hq.run w g hp))
  | joinLoad g => exact .inr (key g (by simp only [holds, hp]) (by rw [(hl.run w g).2 (.inr (.inl hp))]; trivial) (hq.jl w g hp))
  | joinSub g => exact .inr (key g (by simp only [holds, hp]) (by rw [(hl.run w g).2 (.inr (.inr hp))]; trivial) (hq.js w g hp))
  | joinTake g => exact .inr (key g (by simp only [holds, hp]) (by rw [(hl.win w g).2 (.inl hp)]; trivial) (hq.jt w g hp))
  | stole g => exact .inr (key g (by simp only [holds, hp]) (by rw [(hl.sto w g).2 hp]; trivial) (hq.sto w g hp))
  | finPop p c =>
    left
    have e := hq.fp w p c hp x h
    have := hk.flink w p c hp
    rw [← e] at this
    have h2 := hk.qlink w x.1 x.2 hin
    rw [this] at h2; cases h2
    simp only [holds, hp]
  | finDec p c b => rw [hq.fd w p c b hp] at h; cases h
  | finWin p b => rw [hq.fw w p b hp] at h; cases h

/-- The leaves are busy. -/
theorem busy_leaf (hc : InvCount s) {f : Nat} (ha : Alive (s.loc f)) :
    (∃ w, holds s w = some f) ∨ (∃ w, f ∈ s.inbox w) ∨ ∃ c, Alive (s.loc c) ∧ linkPar (s.link c) = some f := by
  cases e : s.loc f with
  | unborn => rw [e] at ha; exact ha.elim
  | finishing w => rw [e] at ha; exact ha.elim
  | gone => rw [e] at ha; exact ha.elim
  | running w =>
    left; refine ⟨w, ?_⟩
    rcases (hl.run w f).1 e with h | h | h <;> simp only [holds, h]
  | stolenBy w => exact .inl ⟨w, by simp only [holds, (hl.sto w f).1 e]⟩
  | winning w =>
    left; refine ⟨w, ?_⟩
    rcases (hl.win w f).1 e with h | ⟨b, h⟩ <;> simp only [holds, h]
  | inbox w => exact .inr (.inl ⟨w, (hl.inb w f).1 e⟩)
  | callwait c =>
    have := (hk.callw f c).1 e
    exact .inr (.inr ⟨c, this.2, by rw [this.1]; rfl⟩)
  | queued w c =>
    have hin := (hl.queue w f c).1 e
    have hadj := hq.adj w
    cases hQ : s.q w with
    | nil => rw [hQ] at hin; cases hin
    | cons x Q =>
      rw [hQ] at hin hadj
      rcases List.mem_cons.1 hin with h | h
      · subst h
        rcases queue_head hl hk hq (w := w) (x := (f, c)) (by rw [hQ]; rfl) with h | ⟨_, _, _, h1, h2, _⟩
        · exact .inl ⟨w, h⟩
        · exact .inr (.inr ⟨c, h1, h2⟩)
      · obtain ⟨h1, h2, _⟩ := queue_child hl hk hq hadj (w := w) (fun y hy => by rw [hQ]; exact hy) (f, c) h
        exact .inr (.inr ⟨c, h1, h2⟩)
  | parked =>
    have h1 := hc.join f ha
    rw [e] at h1
    cases h2 : (s.fr f).kids with
    | nil => exact absurd h2 h1.2
    | cons c l =>
      have h3 := (hk.kids f ha c).1 (by rw [h2]; exact List.mem_cons_self ..)
      have h4 : linkPar (s.link c) = some f := by
        cases e : s.link c with
        | root => rw [e] at h3; cases h3.1
        | fork q i => rw [e] at h3; cases h3.1; rfl
        | call q => rw [e] at h3; cases h3.1
      by_cases h5 : Alive (s.loc c)
      · exact .inr (.inr ⟨c, h5, h4⟩)
      · left
        cases h6 : s.loc c with
        | unborn => exact absurd h6 h3.2.1
        | gone => exact absurd h6 h3.2.2
        | finishing w =>
          refine ⟨w, ?_⟩
          obtain ⟨p, h7 | ⟨b, h7⟩⟩ := (hl.fin w c).1 h6
          · have := hk.flink w p c h7
            rw [h3.1] at this; cases this
            simp only [holds, h7]
          · have := hk.flink' w p c b h7
            rw [h3.1] at this; cases this
            simp only [holds, h7]
        | _ => rw [h6] at h5; exact (h5 trivial).elim

/-- Every frame is an ancestor of what a worker holds or of what waits in a submission list. -/
theorem below (hc : InvCount s) {f : Nat} (ha : Alive (s.loc f)) : ∃ g, g < s.nf ∧ Anc s.link f g ∧ ((∃ w, holds s w = some g) ∨ ∃ w, g ∈ s.inbox w) := by
  generalize hn : s.nf - f = n
  induction n using Nat.strongRecOn generalizing f with
  | ind n ih =>
    have hf := alive_lt hl ha
    rcases busy_leaf hl hk hq hc ha with h | h | ⟨c, h1, h2⟩
    · exact ⟨f, hf, .refl, .inl h⟩
    · exact ⟨f, hf, .refl, .inr h⟩
    · have hc' := alive_lt hl h1
      have := older hk hc' h2
      obtain ⟨g, h3, h4, h5⟩ := ih (s.nf - c) (by omega) h1 rfl
      exact ⟨g, h3, (Anc.up h2 .refl).trans h4, h5⟩

/-- Every entry of a worker's queue is an ancestor of what the worker holds. -/
theorem queue_line {w : Nat} {x : Nat × Nat} (h : x ∈ s.q w) : ∃ g, holds s w = some g ∧ g < s.nf ∧ Anc s.link x.1 g := by
  have hadj := hq.adj w
  cases hQ : s.q w with
  | nil => rw [hQ] at h; cases h
  | cons y Q =>
    have hy : y ∈ s.q w := by rw [hQ]; exact List.mem_cons_self ..
    have ha : Alive (s.loc y.1) := by rw [(hl.queue w y.1 y.2).2 hy]; trivial
    have hhead : ∃ g, holds s w = some g ∧ g < s.nf ∧ Anc s.link y.1 g := by
      rcases queue_head hl hk hq (w := w) (x := y) (by rw [hQ]; rfl) with h | ⟨g, h1, h2, _, _, h5⟩
      · exact ⟨y.1, h, alive_lt hl ha, .refl⟩
      · exact ⟨g, h1, h2, h5⟩
    rw [hQ] at h hadj
    rcases List.mem_cons.1 h with rfl | h
    · exact hhead
    · obtain ⟨_, _, h3⟩ := queue_child hl hk hq hadj (w := w) (fun u hu => by rw [hQ]; exact hu) x h
      obtain ⟨g, h4, h5, h6⟩ := hhead
      exact ⟨g, h4, h5, h3.trans h6⟩

end
end Verif.Space
