import Verif.Mem.Commute

/-! Steps of different tasks commute if they do not race: the lemma. -/
namespace Verif.Mem
open Verif.Exn (errs oks)

variable {σ V E L : Type} [DecidableEq L]
variable {body : σ → Act σ V E L} {may : E → Prop} {ok : (σ → Prop) → σ → Prop}

/-- Equal but for the order of the accesses. -/
def Same (a b : FJ σ V E L) : Prop := ∃ h, b = { a with hist := h }

theorem Same.refl (a : FJ σ V E L) : Same a a := ⟨a.hist, rfl⟩
theorem Same.trans {a b c : FJ σ V E L} : Same a b → Same b c → Same a c := by
  rintro ⟨h, rfl⟩ ⟨h', rfl⟩; exact ⟨h', rfl⟩
theorem Same.mode {a b : FJ σ V E L} : Same a b → b.mode = a.mode := by rintro ⟨h, rfl⟩; rfl
theorem Same.roots {a b : FJ σ V E L} : Same a b → b.roots = a.roots := by rintro ⟨h, rfl⟩; rfl
theorem Same.m {a b : FJ σ V E L} : Same a b → b.m = a.m := by rintro ⟨h, rfl⟩; rfl

/-- Not the task that steps, and not the one it makes. -/
def Other (u : U σ V E L) (f g : Nat) : Prop := g ≠ f ∧ ∀ n c, u.new = some (n, c) → g ≠ n

section
variable {u : U σ V E L} {f g : Nat} {a : FJ σ V E L}

theorem base_mode (h : ∀ n c, u.new = some (n, c) → g ≠ n) : (u.base a).mode g = a.mode g := by
  unfold U.base; split
  · rfl
  · rename_i n c e; exact set_ne _ _ (h n c e)
theorem base_st (h : ∀ n c, u.new = some (n, c) → g ≠ n) : (u.base a).st g = a.st g := by
  unfold U.base; split
  · rfl
  · rename_i n c e; exact set_ne _ _ (h n c e)
theorem base_kids (h : ∀ n c, u.new = some (n, c) → g ≠ n) : (u.base a).kids g = a.kids g := by
  unfold U.base; split
  · rfl
  · rename_i n c e; exact set_ne _ _ (h n c e)
theorem base_threw (h : ∀ n c, u.new = some (n, c) → g ≠ n) : (u.base a).threw g = a.threw g := by
  unfold U.base; split
  · rfl
  · rename_i n c e; exact set_ne _ _ (h n c e)

theorem app_mode (h : Other u f g) : (u.app f a).mode g = a.mode g := (set_ne _ _ h.1).trans (base_mode h.2)
theorem app_st (h : Other u f g) : (u.app f a).st g = a.st g := (set_ne _ _ h.1).trans (base_st h.2)
theorem app_kids (h : Other u f g) : (u.app f a).kids g = a.kids g := (set_ne _ _ h.1).trans (base_kids h.2)
theorem app_threw (h : Other u f g) : (u.app f a).threw g = a.threw g := (set_ne _ _ h.1).trans (base_threw h.2)
end

namespace View
variable {f g : Nat} {a b : FJ σ V E L} {u : U σ V E L}

theorem other (h : View body may f a b u) (hg : g ≠ f) (hl : a.mode g ≠ .none) : Other u f g :=
  ⟨hg, fun n c e e' => hl (by rw [e']; exact h.new n c e)⟩

theorem ended (h : View body may f a b u) {r : Except E V} (hg : a.mode g = .ended r) : b.mode g = .ended r := by
  have hne : g ≠ f := by rintro rfl; exact h.live.2 r hg
  rw [h.eq, app_mode (h.other hne (by rw [hg]; simp)), hg]

theorem self (h : View body may f a b u) : b.mode f = u.mode := by rw [h.eq]; exact set_same _ _ _

theorem made (h : View body may f a b u) {n : Nat} {c : σ} (hn : u.new = some (n, c)) : n ≠ f ∧ b.mode n = .run := by
  have hne : n ≠ f := by rintro rfl; exact h.live.1 (h.new n c hn)
  refine ⟨hne, ?_⟩
  rw [h.eq]
  show set (u.base a).mode f u.mode n = .run
  rw [set_ne _ _ hne]
  unfold U.base
  rw [hn]
  exact set_same _ _ _

theorem none (h : View body may f a b u) (hb : b.mode g = .none) : a.mode g = .none := by
  have h1 : g ≠ f := by rintro rfl; rw [h.self] at hb; exact h.mode hb
  have h2 : ∀ n c, u.new = some (n, c) → g ≠ n := by
    rintro n c hn rfl
    rw [(h.made hn).2] at hb; cases hb
  rw [h.eq, app_mode ⟨h1, h2⟩] at hb
  exact hb

theorem m_eq (h : View body may f a b u) {l : L} (hl : ∀ d, u.wr ≠ some (l, d)) : b.m l = a.m l := by
  rw [h.eq]
  exact putO_ne hl

end View

theorem set4 {α : Type} (s : Nat → α) {f g : Nat} (x y : α) (u v : Option (Nat × α)) (hfg : f ≠ g)
    (h1 : ∀ n c, u = some (n, c) → n ≠ g) (h2 : ∀ n c, v = some (n, c) → n ≠ f)
    (h3 : ∀ n c n' c', u = some (n, c) → v = some (n', c') → n ≠ n') :
    set (match (motive := Option (Nat × α) → Nat → α) u with
        | none => set (match (motive := Option (Nat × α) → Nat → α) v with | none => s | some (n, c) => set s n c) g y
        | some (n, c) => set (set (match (motive := Option (Nat × α) → Nat → α) v with | none => s | some (n, c) => set s n c) g y) n c) f x =
      set (match (motive := Option (Nat × α) → Nat → α) v with
        | none => set (match (motive := Option (Nat × α) → Nat → α) u with | none => s | some (n, c) => set s n c) f x
        | some (n, c) => set (set (match (motive := Option (Nat × α) → Nat → α) u with | none => s | some (n, c) => set s n c) f x) n c) g y := by
  funext j
  rcases u with _ | ⟨n, c⟩ <;> rcases v with _ | ⟨n', c'⟩ <;> simp only [set]
  · grind
  · have := h2 n' c' rfl; grind
  · have := h1 n c rfl; grind
  · have := h1 n c rfl; have := h2 n' c' rfl; have := h3 n c n' c' rfl rfl; grind

theorem app_same {uf ug : U σ V E L} {f g : Nat} (a : FJ σ V E L) (hfg : f ≠ g) (h1 : ∀ n c, uf.new = some (n, c) → n ≠ g)
    (h2 : ∀ n c, ug.new = some (n, c) → n ≠ f) (h3 : ∀ n c n' c', uf.new = some (n, c) → ug.new = some (n', c') → n ≠ n')
    (h4 : ∀ l d l' d', uf.wr = some (l, d) → ug.wr = some (l', d') → l ≠ l') :
    Same (uf.app f (ug.app g a)) (ug.app g (uf.app f a)) := by
  refine ⟨(ug.app g (uf.app f a)).hist, ?_⟩
  obtain ⟨s1, m1, k1, t1, n1, r1, w1, c1⟩ := uf
  obtain ⟨s2, m2, k2, t2, n2, r2, w2, c2⟩ := ug
  simp only at h1 h2 h3 h4
  have key : ∀ {α : Type} (s : Nat → α) (x y : α) (i : σ → α), 
      set (match (motive := Option (Nat × α) → Nat → α) (n1.map fun p => (p.1, i p.2)) with
        | none => set (match (motive := Option (Nat × α) → Nat → α) (n2.map fun p => (p.1, i p.2)) with | none => s | some (n, c) => set s n c) g y
        | some (n, c) => set (set (match (motive := Option (Nat × α) → Nat → α) (n2.map fun p => (p.1, i p.2)) with | none => s | some (n, c) => set s n c) g y) n c) f x =
      set (match (motive := Option (Nat × α) → Nat → α) (n2.map fun p => (p.1, i p.2)) with
        | none => set (match (motive := Option (Nat × α) → Nat → α) (n1.map fun p => (p.1, i p.2)) with | none => s | some (n, c) => set s n c) f x
        | some (n, c) => set (set (match (motive := Option (Nat × α) → Nat → α) (n1.map fun p => (p.1, i p.2)) with | none => s | some (n, c) => set s n c) f x) n c) g y := by
    intro α s x y i
    refine set4 s x y _ _ hfg ?_ ?_ ?_
    · intro n c h
      rcases n1 with _ | ⟨n, c'⟩
      · cases h
      · cases h; exact h1 _ _ rfl
    · intro n c h
      rcases n2 with _ | ⟨n, c'⟩
      · cases h
      · cases h; exact h2 _ _ rfl
    · intro n c n' c' h h'
      rcases n1 with _ | ⟨n, c⟩
      · cases h
      · rcases n2 with _ | ⟨n', c'⟩
        · cases h'
        · cases h; cases h'; exact h3 _ _ _ _ rfl rfl
  have hm := putO_comm (m := a.m) h4
  have e1 := key a.st s1 s2 id
  have e2 := key a.mode m1 m2 fun _ => .run
  have e3 := key a.kids k1 k2 fun _ => []
  have e4 := key a.threw t1 t2 fun _ => []
  rcases n1 with _ | ⟨n, c⟩ <;> rcases n2 with _ | ⟨n', c'⟩ <;>
    simp only [Option.map_none, Option.map_some, id] at e1 e2 e3 e4 <;>
    simp only [U.app, U.base, FJ.new, e1, e2, e3, e4, hm]

/-- A task that is ready can step first. -/
theorem commute {f g : Nat} {a b c : FJ σ V E L} {uf ug : U σ V E L} (hg : View body may g a b ug) (hf : View body may f b c uf) (hne : f ≠ g)
    (hready : ∀ n, Waits a f n → ∃ r, a.mode n = .ended r) (hlive : a.mode f ≠ .none) (hnr : ¬ a.Race body) :
    ∃ b' c', FJ.Step body may f a b' ∧ FJ.Step body may g b' c' ∧ Same c c' := by
  have ho := hg.other hne hlive
  have est : b.st f = a.st f := by rw [hg.eq]; exact app_st ho
  have emode : b.mode f = a.mode f := by rw [hg.eq]; exact app_mode ho
  have ekids : b.kids f = a.kids f := by rw [hg.eq]; exact app_kids ho
  have ethrew : b.threw f = a.threw f := by rw [hg.eq]; exact app_threw ho
  have hbg : b.mode g ≠ .none := by rw [hg.self]; exact hg.mode
  have hrw : ∀ l d, ug.wr = some (l, d) → (uf.rd = some l ∨ ∃ d', uf.wr = some (l, d')) → False := by
    intro l d h1 h2
    obtain ⟨e1, k, e2⟩ := hg.wr l d h1
    rcases h2 with h2 | ⟨d', h2⟩
    · obtain ⟨e3, k', e4⟩ := hf.rd l h2
      exact hnr ⟨g, f, l, hne.symm, e1, by rw [← emode]; exact e3, ⟨d, k, e2⟩, Or.inl ⟨k', by rw [← est]; exact e4⟩⟩
    · obtain ⟨e3, k', e4⟩ := hf.wr l d' h2
      exact hnr ⟨g, f, l, hne.symm, e1, by rw [← emode]; exact e3, ⟨d, k, e2⟩, Or.inr ⟨d', k', by rw [← est]; exact e4⟩⟩
  have hrw' : ∀ l d, uf.wr = some (l, d) → ug.rd = some l → False := by
    intro l d h1 h2
    obtain ⟨e1, k, e2⟩ := hf.wr l d h1
    obtain ⟨e3, k', e4⟩ := hg.rd l h2
    exact hnr ⟨f, g, l, hne, by rw [← emode]; exact e1, e3, ⟨d, k, by rw [← est]; exact e2⟩, Or.inl ⟨k', e4⟩⟩
  have hl1 : Like uf f b a := by
    refine ⟨est.symm, emode.symm, ekids.symm, ethrew.symm, ?_, ?_, ?_⟩
    · intro n hw r hr
      have hw' : Waits a f n := by unfold Waits at hw ⊢; rw [emode, ekids] at hw; exact hw
      obtain ⟨r0, h0⟩ := hready n hw'
      rw [h0]
      have := hg.ended h0
      rw [this] at hr
      exact hr
    · intro n c hn; exact hg.none (hf.new n c hn)
    · intro l hl
      exact (hg.m_eq fun d hd => hrw l d hd (Or.inl hl)).symm
  have hst := hf.again a hl1
  have hfn : ∀ n c, uf.new = some (n, c) → g ≠ n := fun n c hn e => hbg (by rw [e]; exact hf.new n c hn)
  have hnn : ∀ n c n' c', uf.new = some (n, c) → ug.new = some (n', c') → n ≠ n' := by
    rintro n c n' c' h1 h2 rfl
    have := hf.new n c h1
    rw [(hg.made h2).2] at this; cases this
  have hl2 : Like ug g a (uf.app f a) := by
    have ho' : Other uf f g := ⟨hne.symm, hfn⟩
    refine ⟨app_st ho', app_mode ho', app_kids ho', app_threw ho', ?_, ?_, ?_⟩
    · intro n _ r hr
      rw [app_mode ⟨?_, ?_⟩]
      · exact hr
      · rintro rfl; exact hf.live.2 r (by rw [emode]; exact hr)
      · rintro n' c' h1 rfl
        have := hg.none (hf.new n c' h1)
        rw [hr] at this; cases this
    · intro n c hn
      rw [app_mode ⟨?_, ?_⟩]
      · exact hg.new n c hn
      · rintro rfl; exact hlive (hg.new _ c hn)
      · rintro n' c' h1 rfl; exact hnn _ _ _ _ h1 hn rfl
    · intro l hl
      exact putO_ne fun d hd => hrw' l d hd hl
  refine ⟨_, _, hst, hg.again _ hl2, ?_⟩
  rw [hf.eq, hg.eq]
  refine app_same a hne (fun n c h => (hfn n c h).symm) (fun n c h e => hlive (by rw [← e]; exact hg.new n c h)) hnn ?_
  rintro l d l' d' h1 h2 rfl
  exact hrw l d' h2 (Or.inr ⟨d, h1⟩)

end Verif.Mem
