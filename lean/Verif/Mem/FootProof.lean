import Verif.Mem.Foot
import Verif.Mem.Commute2

/-! Programs that keep the rule have no races. -/
namespace Verif.Mem

variable {σ V E L : Type} [DecidableEq L]
variable {body : σ → Act σ V E L} {may : E → Prop} {ok : (σ → Prop) → σ → Prop} {m : L → E} {F : Foot σ L}

def Live (a : FJ σ V E L) (g : Nat) : Prop := a.mode g ≠ .none ∧ ∀ r, a.mode g ≠ .ended r

/-- A child that has not ended. -/
def Below (a : FJ σ V E L) (p c : Nat) : Prop := Live a c ∧ (c ∈ a.kids p ∨ a.mode p = .called c)

/-- `A`, `B`: what a task may access and write, from its start on. `d`: how deep it is. -/
structure FInv (F : Foot σ L) (body : σ → Act σ V E L) (a : FJ σ V E L) (A B : Nat → L → Prop) (d : Nat → Nat) : Prop where
  inv : ∀ g, Live a g → F.I (a.st g)
  cov : ∀ g, Live a g → (∀ l, F.R (a.st g) l → A g l) ∧ ∀ l, F.W (a.st g) l → B g l
  up : ∀ g, Live a g → (d g = 0 ∧ ∃ c, (g, c) ∈ a.roots) ∨ ∃ p, Live a p ∧ Below a p g
  sub : ∀ p c, Live a p → Below a p c → d c = d p + 1 ∧ (∀ l, A c l → A p l) ∧ ∀ l, B c l → B p l
  sib : ∀ p c c', Live a p → Below a p c → Below a p c' → c ≠ c' → Apart (A c) (B c) (A c') (B c')
  par : ∀ p c, Live a p → Live a c → c ∈ a.kids p → a.mode p ≠ .forked c → Apart (A c) (B c) (F.Rj (a.st p)) (F.Wj (a.st p))
  frk : ∀ p c y k x, Live a p → Live a c → a.mode p = .forked c → body (a.st p) = .fork y k x →
    Apart (A c) (B c) (F.Rj (k false)) (F.Wj (k false))
  kid : ∀ p c, c ∈ a.kids p → a.mode c ≠ .none
  cal : ∀ p c, a.mode p = .called c → a.mode c ≠ .none ∧ c ∉ a.kids p
  fin : ∀ p c, a.mode p = .forked c → c ∈ a.kids p
  root : ∀ g c, (g, c) ∈ a.roots → d g = 0 ∧ a.mode g ≠ .none ∧ (Live a g → A g = F.R c ∧ B g = F.W c)
  roots : ∀ g g' c c', (g, c) ∈ a.roots → (g', c') ∈ a.roots → g ≠ g' → Live a g → Live a g' → Apart (A g) (B g) (A g') (B g')

section
omit [DecidableEq L]

theorem Apart.symm {R W R' W' : L → Prop} (h : Apart R W R' W') : Apart R' W' R W := fun l => ⟨(h l).2, (h l).1⟩

theorem Apart.less {R W R' W' R2 W2 R2' W2' : L → Prop} (h : Apart R W R' W') (h1 : ∀ l, R2 l → R l) (h2 : ∀ l, W2 l → W l) (h3 : ∀ l, R2' l → R' l)
    (h4 : ∀ l, W2' l → W' l) : Apart R2 W2 R2' W2' :=
  fun l => ⟨fun e e' => (h l).1 (h2 l e) (h3 l e'), fun e e' => (h l).2 (h4 l e) (h1 l e')⟩

/-- Two tasks are the same, or do not conflict, or one comes from a child of the other. -/
theorem compare {a : FJ σ V E L} {A B : Nat → L → Prop} {d : Nat → Nat} (h : FInv F body a A B d) (n : Nat) :
    ∀ f g, Live a f → Live a g → d f + d g ≤ n → f = g ∨ Apart (A f) (B f) (A g) (B g) ∨
      (∃ c, Below a f c ∧ (g = c ∨ d c < d g) ∧ (∀ l, A g l → A c l) ∧ ∀ l, B g l → B c l) ∨
      ∃ c, Below a g c ∧ (f = c ∨ d c < d f) ∧ (∀ l, A f l → A c l) ∧ ∀ l, B f l → B c l := by
  induction n with
  | zero =>
    intro f g hf hg hn
    rcases h.up f hf with ⟨_, c, hc⟩ | ⟨p, hp, hb⟩
    · rcases h.up g hg with ⟨_, c', hc'⟩ | ⟨p, hp, hb⟩
      · by_cases e : f = g
        · exact Or.inl e
        · exact Or.inr (Or.inl (h.roots f g c c' hc hc' e hf hg))
      · have := (h.sub p g hp hb).1; omega
    · have := (h.sub p f hp hb).1; omega
  | succ n ih =>
    -- the deeper one, `g`, has a parent
    have key : ∀ f g, Live a f → Live a g → d f + d g ≤ n + 1 → d f ≤ d g → 0 < d g → f = g ∨ Apart (A f) (B f) (A g) (B g) ∨
      (∃ c, Below a f c ∧ (g = c ∨ d c < d g) ∧ (∀ l, A g l → A c l) ∧ ∀ l, B g l → B c l) ∨
      ∃ c, Below a g c ∧ (f = c ∨ d c < d f) ∧ (∀ l, A f l → A c l) ∧ ∀ l, B f l → B c l := by
      intro f g hf hg hn hle hpos
      rcases h.up g hg with ⟨h0, _⟩ | ⟨p, hp, hb⟩
      · omega
      · obtain ⟨s1, s2, s3⟩ := h.sub p g hp hb
        rcases ih f p hf hp (by omega) with e | e | ⟨c, e1, e2, e3, e4⟩ | ⟨c, e1, e2, e3, e4⟩
        · subst e
          exact Or.inr (Or.inr (Or.inl ⟨g, hb, Or.inl rfl, fun _ h => h, fun _ h => h⟩))
        · exact Or.inr (Or.inl (e.less (fun _ h => h) (fun _ h => h) s2 s3))
        · refine Or.inr (Or.inr (Or.inl ⟨c, e1, Or.inr ?_, fun l hl => e3 l (s2 l hl), fun l hl => e4 l (s3 l hl)⟩))
          rcases e2 with rfl | e2 <;> omega
        · obtain ⟨t1, _, _⟩ := h.sub p c hp e1
          by_cases e : c = g
          · subst e
            rcases e2 with e2 | e2
            · exact Or.inl e2
            · omega
          · exact Or.inr (Or.inl ((h.sib p c g hp e1 hb e).less e3 e4 (fun _ h => h) (fun _ h => h)))
    intro f g hf hg hn
    by_cases h0 : d f = 0 ∧ d g = 0
    · exact ih f g hf hg (by omega)
    · rcases Nat.le_total (d f) (d g) with h1 | h1
      · exact key f g hf hg hn h1 (by omega)
      · rcases key g f hg hf (by omega) h1 (by omega) with e | e | e | e
        · exact Or.inl e.symm
        · exact Or.inr (Or.inl e.symm)
        · exact Or.inr (Or.inr (Or.inr e))
        · exact Or.inr (Or.inr (Or.inl e))
end

theorem no_race (hF : F.Ok body may) {a : FJ σ V E L} {A B : Nat → L → Prop} {d : Nat → Nat} (h : FInv F body a A B d) : ¬ a.Race body := by
  rintro ⟨f, g, l, hne, h1, h2, ⟨e, k, h3⟩, h4⟩
  have hf : Live a f := by constructor <;> rw [h1] <;> simp
  have hg : Live a g := by constructor <;> rw [h2] <;> simp
  obtain ⟨_, _, f1, f2, _⟩ := hF.store _ _ _ _ (h.inv f hf) h3
  have hgu : F.R (a.st g) l ∧ F.Rj (a.st g) l := by
    rcases h4 with ⟨k, h4⟩ | ⟨e', k, h4⟩
    · obtain ⟨g1, g2, _⟩ := hF.load _ _ _ (h.inv g hg) h4; exact ⟨g1, g2⟩
    · obtain ⟨g1, g2, _⟩ := hF.store _ _ _ _ (h.inv g hg) h4; exact ⟨g1, g2⟩
  rcases compare h _ f g hf hg (Nat.le_refl _) with e | e | ⟨c, e1, _, e3, _⟩ | ⟨c, e1, _, _, e4⟩
  · exact hne e
  · exact (e l).1 ((h.cov f hf).2 l f1) ((h.cov g hg).1 l hgu.1)
  · rcases e1.2 with e2 | e2
    · exact (h.par f c hf e1.1 e2 (by rw [h1]; simp) l).2 f2 (e3 l ((h.cov g hg).1 l hgu.1))
    · rw [h1] at e2; cases e2
  · rcases e1.2 with e2 | e2
    · exact (h.par g c hg e1.1 e2 (by rw [h2]; simp) l).1 (e4 l ((h.cov f hf).2 l f1)) hgu.2
    · rw [h2] at e2; cases e2

end Verif.Mem
