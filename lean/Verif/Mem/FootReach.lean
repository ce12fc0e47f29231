import Verif.Mem.FootProof
import Verif.Mem.Order2

/-! Programs that keep the rule have no races: the rule carries over from state to state. -/
namespace Verif.Mem

variable {σ V E L : Type} [DecidableEq L]
variable {body : σ → Act σ V E L} {may : E → Prop} {ok : (σ → Prop) → σ → Prop} {m : L → E} {F : Foot σ L} {pend : σ → Nat} {dirty : σ → Prop}

section
omit [DecidableEq L]

theorem live_of {a a' : FJ σ V E L} {g : Nat} (e : a'.mode g = a.mode g) : Live a' g ↔ Live a g := by unfold Live; rw [e]

theorem not_live_none {a : FJ σ V E L} {g : Nat} (e : a.mode g = .none) : ¬ Live a g := fun h => h.1 e

theorem not_live_ended {a : FJ σ V E L} {g : Nat} {r : Except E V} (e : a.mode g = .ended r) : ¬ Live a g := fun h => h.2 r e

theorem live_run {a : FJ σ V E L} {g : Nat} (e : a.mode g = .run) : Live a g := by constructor <;> rw [e] <;> simp

/-- Only `f` changes: it goes on, or ends. -/
theorem finv_keep {a a' : FJ σ V E L} {A B : Nat → L → Prop} {d : Nat → Nat} (h : FInv F body a A B d) {f : Nat} (hf : Live a f)
    (hr : a'.roots = a.roots) (hm : ∀ g, g ≠ f → a'.mode g = a.mode g) (hs : ∀ g, g ≠ f → a'.st g = a.st g)
    (hk : ∀ g, g ≠ f → a'.kids g = a.kids g) (hnew : a'.mode f = .run ∨ ∃ r, a'.mode f = .ended r)
    (hless : a'.mode f = .run → F.Less (a'.st f) (a.st f))
    (hkf : ∀ c, c ∈ a'.kids f → c ∈ a.kids f) (hlost : ∀ c, c ∈ a.kids f → Live a c → a'.mode f = .run ∧ c ∈ a'.kids f)
    (hcall : ∀ c, a.mode f = .called c → ¬ Live a c)
    (hpar : a'.mode f = .run → ∀ c, c ∈ a'.kids f → Live a c → Apart (A c) (B c) (F.Rj (a'.st f)) (F.Wj (a'.st f))) :
    FInv F body a' A B d := by
  have hnn : a'.mode f ≠ .none := by rcases hnew with e | ⟨r, e⟩ <;> rw [e] <;> simp
  have hnf : ∀ c, a'.mode f ≠ .forked c := by intro c; rcases hnew with e | ⟨r, e⟩ <;> rw [e] <;> simp
  have hnc : ∀ c, a'.mode f ≠ .called c := by intro c; rcases hnew with e | ⟨r, e⟩ <;> rw [e] <;> simp
  have hrun : Live a' f → a'.mode f = .run := by
    intro hl; rcases hnew with e | ⟨r, e⟩
    · exact e
    · exact absurd e (hl.2 r)
  have back : ∀ g, Live a' g → Live a g := by
    intro g hg
    by_cases e : g = f
    · subst e; exact hf
    · exact (live_of (hm g e)).1 hg
  have nn : ∀ g, a.mode g ≠ .none → a'.mode g ≠ .none := by
    intro g hg
    by_cases e : g = f
    · subst e; exact hnn
    · rw [hm g e]; exact hg
  have bel : ∀ p c, Below a' p c → Below a p c := by
    rintro p c ⟨h1, h2⟩
    refine ⟨back c h1, ?_⟩
    by_cases e : p = f
    · subst e
      rcases h2 with h2 | h2
      · exact Or.inl (hkf c h2)
      · exact absurd h2 (hnc c)
    · rw [hk p e, hm p e] at h2; exact h2
  refine ⟨?_, ?_, ?_, ?_, ?_, ?_, ?_, ?_, ?_, ?_, ?_, ?_⟩
  · intro g hg
    by_cases e : g = f
    · subst e; exact (hless (hrun hg)).I
    · rw [hs g e]; exact h.inv g (back g hg)
  · intro g hg
    by_cases e : g = f
    · subst e
      have hl := hless (hrun hg)
      exact ⟨fun l hl' => (h.cov g hf).1 l (hl.R l hl'), fun l hl' => (h.cov g hf).2 l (hl.W l hl')⟩
    · rw [hs g e]; exact h.cov g (back g hg)
  · intro g hg
    rcases h.up g (back g hg) with ⟨h0, c, hc⟩ | ⟨p, hp, hb⟩
    · exact Or.inl ⟨h0, c, by rw [hr]; exact hc⟩
    · refine Or.inr ⟨p, ?_⟩
      by_cases e : p = f
      · subst e
        rcases hb.2 with h2 | h2
        · obtain ⟨h3, h4⟩ := hlost g h2 hb.1
          exact ⟨live_run h3, hg, Or.inl h4⟩
        · exact absurd hb.1 (hcall g h2)
      · exact ⟨(live_of (hm p e)).2 hp, hg, by rw [hk p e, hm p e]; exact hb.2⟩
  · intro p c hp hb; exact h.sub p c (back p hp) (bel p c hb)
  · intro p c c' hp hb hb'; exact h.sib p c c' (back p hp) (bel p c hb) (bel p c' hb')
  · intro p c hp hc hk' hm'
    by_cases e : p = f
    · subst e; exact hpar (hrun hp) c hk' (back c hc)
    · rw [hs p e]; rw [hk p e] at hk'; rw [hm p e] at hm'
      exact h.par p c (back p hp) (back c hc) hk' hm'
  · intro p c y k x hp hc hm' hb
    by_cases e : p = f
    · subst e; exact absurd hm' (hnf c)
    · rw [hs p e] at hb; rw [hm p e] at hm'
      exact h.frk p c y k x (back p hp) (back c hc) hm' hb
  · intro p c hc
    by_cases e : p = f
    · subst e; exact nn c (h.kid p c (hkf c hc))
    · rw [hk p e] at hc; exact nn c (h.kid p c hc)
  · intro p c hc
    by_cases e : p = f
    · subst e; exact absurd hc (hnc c)
    · rw [hm p e] at hc; rw [hk p e]; exact ⟨nn c (h.cal p c hc).1, (h.cal p c hc).2⟩
  · intro p c hc
    by_cases e : p = f
    · subst e; exact absurd hc (hnf c)
    · rw [hm p e] at hc; rw [hk p e]; exact h.fin p c hc
  · intro g c hc
    rw [hr] at hc
    obtain ⟨h1, h2, h3⟩ := h.root g c hc
    exact ⟨h1, nn g h2, fun hl => h3 (back g hl)⟩
  · intro g g' c c' h1 h2 h3 h4 h5
    rw [hr] at h1 h2
    exact h.roots g g' c c' h1 h2 h3 (back g h4) (back g' h5)

/-- `f` creates a child `n`. -/
theorem finv_made {a a' : FJ σ V E L} {A B : Nat → L → Prop} {d : Nat → Nat} (h : FInv F body a A B d) {f n : Nat} {c : σ} (hf : a.mode f = .run)
    (hn : a.mode n = .none) (hr : a'.roots = a.roots) (hm : ∀ g, g ≠ f → g ≠ n → a'.mode g = a.mode g) (hs : ∀ g, g ≠ n → a'.st g = a.st g)
    (hk : ∀ g, g ≠ f → g ≠ n → a'.kids g = a.kids g) (hmn : a'.mode n = .run) (hsn : a'.st n = c) (hkn : a'.kids n = [])
    (hnew : (a'.mode f = .called n ∧ a'.kids f = a.kids f) ∨ (a'.mode f = .forked n ∧ a'.kids f = a.kids f ++ [n]))
    (hc : F.Child c (a.st f))
    (hfrk : ∀ y k x, a'.mode f = .forked n → body (a.st f) = .fork y k x → Apart (F.R c) (F.W c) (F.Rj (k false)) (F.Wj (k false))) :
    FInv F body a' (set A n (F.R c)) (set B n (F.W c)) (set d n (d f + 1)) := by
  have hne : f ≠ n := by rintro rfl; rw [hf] at hn; cases hn
  have hlf : Live a f := live_run hf
  have hlf' : Live a' f := by
    rcases hnew with ⟨e, _⟩ | ⟨e, _⟩ <;> constructor <;> rw [e] <;> simp
  have hln' : Live a' n := live_run hmn
  have live : ∀ g, g ≠ n → (Live a' g ↔ Live a g) := by
    intro g hg
    by_cases e : g = f
    · subst e; exact ⟨fun _ => hlf, fun _ => hlf'⟩
    · exact live_of (hm g e hg)
  have hnk : ∀ p, n ∉ a.kids p := fun p hp => h.kid p n hp hn
  have hnc : ∀ p, a.mode p ≠ .called n := fun p hp => (h.cal p n hp).1 hn
  have hnr : ∀ c, (n, c) ∉ a.roots := fun c hc => (h.root n c hc).2.1 hn
  have nn : ∀ g, a.mode g ≠ .none → a'.mode g ≠ .none := by
    intro g hg
    by_cases e : g = n
    · subst e; exact absurd hn hg
    · by_cases e' : g = f
      · subst e'; exact hlf'.1
      · rw [hm g e' e]; exact hg
  -- the children that were there before
  have bel : ∀ p c, c ≠ n → (Below a' p c ↔ Below a p c ∧ p ≠ n) := by
    intro p c hcn
    unfold Below
    rw [live c hcn]
    by_cases e : p = n
    · subst e
      rw [hkn, hmn]; simp
    · by_cases e' : p = f
      · subst e'
        rw [hf]
        rcases hnew with ⟨e1, e2⟩ | ⟨e1, e2⟩ <;> rw [e1, e2] <;> simp [hne, hcn, Ne.symm hcn]
      · rw [hm p e' e, hk p e' e]; simp [e]
  have beln : ∀ p, Below a' p n → p = f := by
    rintro p ⟨_, h2⟩
    by_cases e' : p = f
    · exact e'
    · by_cases e : p = n
      · subst e; rw [hkn, hmn] at h2; rcases h2 with h2 | h2 <;> cases h2
      · rw [hm p e' e, hk p e' e] at h2
        rcases h2 with h2 | h2
        · exact absurd h2 (hnk p)
        · exact absurd h2 (hnc p)
  have belf : Below a' f n := by
    refine ⟨hln', ?_⟩
    rcases hnew with ⟨e1, e2⟩ | ⟨e1, e2⟩
    · exact Or.inr e1
    · rw [e2]; exact Or.inl (by simp)
  -- the child and the other children of `f`
  have hsib : ∀ c', Below a f c' → Apart (F.R c) (F.W c) (A c') (B c') := by
    rintro c' ⟨h1, h2⟩
    rcases h2 with h2 | h2
    · exact (h.par f c' hlf h1 h2 (by rw [hf]; simp)).symm.less hc.Rj hc.Wj (fun _ h => h) (fun _ h => h)
    · rw [hf] at h2; cases h2
  refine ⟨?_, ?_, ?_, ?_, ?_, ?_, ?_, ?_, ?_, ?_, ?_, ?_⟩
  · intro g hg
    by_cases e : g = n
    · subst e; rw [hsn]; exact hc.I
    · rw [hs g e]; exact h.inv g ((live g e).1 hg)
  · intro g hg
    by_cases e : g = n
    · subst e; rw [set_same, set_same, hsn]; exact ⟨fun _ h => h, fun _ h => h⟩
    · rw [set_ne _ _ e, set_ne _ _ e, hs g e]; exact h.cov g ((live g e).1 hg)
  · intro g hg
    by_cases e : g = n
    · subst e; exact Or.inr ⟨f, hlf', belf⟩
    · rw [set_ne _ _ e, hr]
      rcases h.up g ((live g e).1 hg) with h1 | ⟨p, hp, hb⟩
      · exact Or.inl h1
      · have e' : p ≠ n := by rintro rfl; exact not_live_none hn hp
        exact Or.inr ⟨p, (live p e').2 hp, (bel p g e).2 ⟨hb, e'⟩⟩
  · intro p g hp hb
    by_cases e : g = n
    · subst e
      cases beln p hb
      rw [set_same, set_same, set_same, set_ne _ _ hne, set_ne _ _ hne, set_ne _ _ hne]
      exact ⟨rfl, fun l hl => (h.cov f hlf).1 l (hc.R l hl), fun l hl => (h.cov f hlf).2 l (hc.W l hl)⟩
    · obtain ⟨hb, e'⟩ := (bel p g e).1 hb
      rw [set_ne _ _ e, set_ne _ _ e, set_ne _ _ e, set_ne _ _ e', set_ne _ _ e', set_ne _ _ e']
      exact h.sub p g ((live p e').1 hp) hb
  · intro p g g' hp hb hb' hgg
    by_cases e : g = n
    · subst e
      cases beln p hb
      have e' : g' ≠ g := Ne.symm hgg
      rw [set_same, set_same, set_ne _ _ e', set_ne _ _ e']
      exact hsib g' ((bel f g' e').1 hb').1
    · by_cases e' : g' = n
      · subst e'
        cases beln p hb'
        rw [set_same, set_same, set_ne _ _ e, set_ne _ _ e]
        exact (hsib g ((bel f g e).1 hb).1).symm
      · obtain ⟨hb, e2⟩ := (bel p g e).1 hb
        obtain ⟨hb', _⟩ := (bel p g' e').1 hb'
        rw [set_ne _ _ e, set_ne _ _ e, set_ne _ _ e', set_ne _ _ e']
        exact h.sib p g g' ((live p e2).1 hp) hb hb' hgg
  · intro p g hp hg hkp hmp
    by_cases e : g = n
    · subst e
      cases beln p ⟨hln', Or.inl hkp⟩
      rcases hnew with ⟨e1, e2⟩ | ⟨e1, e2⟩
      · rw [e2] at hkp; exact absurd hkp (hnk f)
      · exact absurd e1 hmp
    · obtain ⟨hb, e2⟩ := (bel p g e).1 ⟨hg, Or.inl hkp⟩
      rw [set_ne _ _ e, set_ne _ _ e, hs p e2]
      by_cases e3 : p = f
      · subst e3
        rcases hb.2 with h2 | h2
        · exact h.par p g hlf hb.1 h2 (by rw [hf]; simp)
        · rw [hf] at h2; cases h2
      · rw [hk p e3 e2] at hkp; rw [hm p e3 e2] at hmp
        exact h.par p g ((live p e2).1 hp) hb.1 hkp hmp
  · intro p g y k x hp hg hmp hb
    by_cases e2 : p = n
    · subst e2; rw [hmn] at hmp; cases hmp
    rw [hs p e2] at hb
    by_cases e3 : p = f
    · subst e3
      rcases hnew with ⟨e1, _⟩ | ⟨e1, _⟩
      · rw [e1] at hmp; cases hmp
      · have : g = n := by rw [e1] at hmp; injection hmp with e; exact e.symm
        subst this
        rw [set_same, set_same]; exact hfrk y k x e1 hb
    · rw [hm p e3 e2] at hmp
      have e : g ≠ n := by rintro rfl; exact hnk p (h.fin p g hmp)
      rw [set_ne _ _ e, set_ne _ _ e]
      exact h.frk p g y k x ((live p e2).1 hp) ((live g e).1 hg) hmp hb
  · intro p g hg
    by_cases e : g = n
    · subst e; rw [hmn]; simp
    · by_cases e2 : p = n
      · subst e2; rw [hkn] at hg; cases hg
      · by_cases e3 : p = f
        · subst e3
          rcases hnew with ⟨_, e1⟩ | ⟨_, e1⟩ <;> rw [e1] at hg
          · exact nn g (h.kid p g hg)
          · simp [e] at hg; exact nn g (h.kid p g hg)
        · rw [hk p e3 e2] at hg; exact nn g (h.kid p g hg)
  · intro p g hg
    by_cases e2 : p = n
    · subst e2; rw [hmn] at hg; cases hg
    · by_cases e3 : p = f
      · subst e3
        rcases hnew with ⟨e1, e4⟩ | ⟨e1, e4⟩ <;> rw [e1] at hg
        · injection hg with hg; subst hg
          rw [e4, hmn]; exact ⟨by simp, hnk p⟩
        · cases hg
      · rw [hm p e3 e2] at hg
        rw [hk p e3 e2]; exact ⟨nn g (h.cal p g hg).1, (h.cal p g hg).2⟩
  · intro p g hg
    by_cases e2 : p = n
    · subst e2; rw [hmn] at hg; cases hg
    · by_cases e3 : p = f
      · subst e3
        rcases hnew with ⟨e1, e4⟩ | ⟨e1, e4⟩ <;> rw [e1] at hg
        · cases hg
        · injection hg with hg; subst hg
          rw [e4]; simp
      · rw [hm p e3 e2] at hg
        rw [hk p e3 e2]; exact h.fin p g hg
  · intro g y hy
    rw [hr] at hy
    have e : g ≠ n := by rintro rfl; exact hnr y hy
    obtain ⟨h1, h2, h3⟩ := h.root g y hy
    rw [set_ne _ _ e, set_ne _ _ e, set_ne _ _ e]
    exact ⟨h1, nn g h2, fun hl => h3 ((live g e).1 hl)⟩
  · intro g g' y y' h1 h2 h3 h4 h5
    rw [hr] at h1 h2
    have e : g ≠ n := by rintro rfl; exact hnr y h1
    have e' : g' ≠ n := by rintro rfl; exact hnr y' h2
    rw [set_ne _ _ e, set_ne _ _ e, set_ne _ _ e', set_ne _ _ e']
    exact h.roots g g' y y' h1 h2 h3 ((live g e).1 h4) ((live g' e').1 h5)

theorem finv_submit {a : FJ σ V E L} {A B : Nat → L → Prop} {d : Nat → Nat} (h : FInv F body a A B d) {n : Nat} {c : σ} (hn : a.mode n = .none) (hI : F.I c)
    (hap : ∀ c', a.open c' → Apart (F.R c) (F.W c) (F.R c') (F.W c')) :
    FInv F body (a.submit n c) (set A n (F.R c)) (set B n (F.W c)) (set d n 0) := by
  have hmn : (a.submit n c).mode n = .run := set_same _ _ _
  have hkn : (a.submit n c).kids n = [] := set_same _ _ _
  have hsn : (a.submit n c).st n = c := set_same _ _ _
  have hm : ∀ g, g ≠ n → (a.submit n c).mode g = a.mode g := fun g hg => set_ne _ _ hg
  have hk : ∀ g, g ≠ n → (a.submit n c).kids g = a.kids g := fun g hg => set_ne _ _ hg
  have hs : ∀ g, g ≠ n → (a.submit n c).st g = a.st g := fun g hg => set_ne _ _ hg
  have hr : (a.submit n c).roots = (n, c) :: a.roots := rfl
  generalize a.submit n c = a' at *
  have live : ∀ g, g ≠ n → (Live a' g ↔ Live a g) := fun g hg => live_of (hm g hg)
  have hnk : ∀ p, n ∉ a.kids p := fun p hp => h.kid p n hp hn
  have hnc : ∀ p, a.mode p ≠ .called n := fun p hp => (h.cal p n hp).1 hn
  have hnr : ∀ c, (n, c) ∉ a.roots := fun c hc => (h.root n c hc).2.1 hn
  have nn : ∀ g, a.mode g ≠ .none → a'.mode g ≠ .none := by
    intro g hg
    by_cases e : g = n
    · subst e; exact absurd hn hg
    · rw [hm g e]; exact hg
  have bel : ∀ p c, Below a' p c → c ≠ n ∧ p ≠ n ∧ Below a p c := by
    rintro p c ⟨h1, h2⟩
    by_cases e : p = n
    · subst e; rw [hkn, hmn] at h2; rcases h2 with h2 | h2 <;> cases h2
    · rw [hm p e, hk p e] at h2
      have e' : c ≠ n := by
        rintro rfl
        rcases h2 with h2 | h2
        · exact hnk p h2
        · exact hnc p h2
      exact ⟨e', e, (live c e').1 h1, h2⟩
  refine ⟨?_, ?_, ?_, ?_, ?_, ?_, ?_, ?_, ?_, ?_, ?_, ?_⟩
  · intro g hg
    by_cases e : g = n
    · subst e; rw [hsn]; exact hI
    · rw [hs g e]; exact h.inv g ((live g e).1 hg)
  · intro g hg
    by_cases e : g = n
    · subst e; rw [set_same, set_same, hsn]; exact ⟨fun _ h => h, fun _ h => h⟩
    · rw [set_ne _ _ e, set_ne _ _ e, hs g e]; exact h.cov g ((live g e).1 hg)
  · intro g hg
    by_cases e : g = n
    · subst e; exact Or.inl ⟨set_same _ _ _, c, by rw [hr]; exact List.mem_cons_self ..⟩
    · rw [set_ne _ _ e, hr]
      rcases h.up g ((live g e).1 hg) with ⟨h1, y, hy⟩ | ⟨p, hp, hb⟩
      · exact Or.inl ⟨h1, y, List.mem_cons_of_mem _ hy⟩
      · have e' : p ≠ n := by rintro rfl; exact not_live_none hn hp
        exact Or.inr ⟨p, (live p e').2 hp, hg, by rw [hk p e', hm p e']; exact hb.2⟩
  · intro p g hp hb
    obtain ⟨e, e', hb⟩ := bel p g hb
    rw [set_ne _ _ e, set_ne _ _ e, set_ne _ _ e, set_ne _ _ e', set_ne _ _ e', set_ne _ _ e']
    exact h.sub p g ((live p e').1 hp) hb
  · intro p g g' hp hb hb' hgg
    obtain ⟨e, e', hb⟩ := bel p g hb
    obtain ⟨e2, _, hb'⟩ := bel p g' hb'
    rw [set_ne _ _ e, set_ne _ _ e, set_ne _ _ e2, set_ne _ _ e2]
    exact h.sib p g g' ((live p e').1 hp) hb hb' hgg
  · intro p g hp hg hkp hmp
    obtain ⟨e, e', hb⟩ := bel p g ⟨hg, Or.inl hkp⟩
    rw [set_ne _ _ e, set_ne _ _ e, hs p e']
    rw [hk p e'] at hkp; rw [hm p e'] at hmp
    exact h.par p g ((live p e').1 hp) hb.1 hkp hmp
  · intro p g y k x hp hg hmp hb
    have e2 : p ≠ n := by rintro rfl; rw [hmn] at hmp; cases hmp
    rw [hs p e2] at hb; rw [hm p e2] at hmp
    have e : g ≠ n := by rintro rfl; exact hnk p (h.fin p g hmp)
    rw [set_ne _ _ e, set_ne _ _ e]
    exact h.frk p g y k x ((live p e2).1 hp) ((live g e).1 hg) hmp hb
  · intro p g hg
    by_cases e2 : p = n
    · subst e2; rw [hkn] at hg; cases hg
    · rw [hk p e2] at hg; exact nn g (h.kid p g hg)
  · intro p g hg
    have e2 : p ≠ n := by rintro rfl; rw [hmn] at hg; cases hg
    rw [hm p e2] at hg
    rw [hk p e2]; exact ⟨nn g (h.cal p g hg).1, (h.cal p g hg).2⟩
  · intro p g hg
    have e2 : p ≠ n := by rintro rfl; rw [hmn] at hg; cases hg
    rw [hm p e2] at hg
    rw [hk p e2]; exact h.fin p g hg
  · intro g y hy
    rw [hr] at hy
    by_cases e : g = n
    · subst e
      rcases List.mem_cons.1 hy with hy | hy
      · cases hy
        exact ⟨set_same _ _ _, by rw [hmn]; simp, fun _ => ⟨set_same _ _ _, set_same _ _ _⟩⟩
      · exact absurd hy (hnr y)
    · rcases List.mem_cons.1 hy with hy | hy
      · cases hy; exact absurd rfl e
      · obtain ⟨h1, h2, h3⟩ := h.root g y hy
        rw [set_ne _ _ e, set_ne _ _ e, set_ne _ _ e]
        exact ⟨h1, nn g h2, fun hl => h3 ((live g e).1 hl)⟩
  · have key : ∀ g y, (g, y) ∈ a.roots → Live a' g → g ≠ n → Apart (F.R c) (F.W c) (A g) (B g) := by
      intro g y hy hl e
      have hl := (live g e).1 hl
      obtain ⟨_, _, h3⟩ := h.root g y hy
      obtain ⟨h4, h5⟩ := h3 hl
      rw [h4, h5]
      exact hap y ⟨g, hy, hl.2⟩
    intro g g' y y' h1 h2 h3 h4 h5
    rw [hr] at h1 h2
    rcases List.mem_cons.1 h1 with h1 | h1 <;> rcases List.mem_cons.1 h2 with h2 | h2
    · cases h1; cases h2; exact absurd rfl h3
    · cases h1
      rw [set_same, set_same, set_ne _ _ (Ne.symm h3), set_ne _ _ (Ne.symm h3)]
      exact key g' y' h2 h5 (Ne.symm h3)
    · cases h2
      rw [set_same, set_same, set_ne _ _ h3, set_ne _ _ h3]
      exact (key g y h1 h4 h3).symm
    · have e : g ≠ n := by rintro rfl; exact hnr y ‹_›
      have e' : g' ≠ n := by rintro rfl; exact hnr y' ‹_›
      rw [set_ne _ _ e, set_ne _ _ e, set_ne _ _ e', set_ne _ _ e']
      exact h.roots g g' y y' ‹_› ‹_› h3 ((live g e).1 h4) ((live g' e').1 h5)

end

theorem finv_step (hd : Disc body pend dirty) (hF : F.Ok body may) {f : Nat} {a a' : FJ σ V E L} (hs : FJ.Step body may f a a') (hp : PInv pend a)
    {A B : Nat → L → Prop} {d : Nat → Nat} (h : FInv F body a A B d) : ∃ A' B' d', FInv F body a' A' B' d' := by
  have hpf := hp f
  have hi : a.mode f = .run → F.I (a.st f) := fun h1 => h.inv f (live_run h1)
  -- a task that runs goes on
  have hon : ∀ (k : σ) (b : FJ σ V E L), a.mode f = .run → F.LessJ k (a.st f) → b.roots = a.roots → b.mode = set a.mode f .run → b.st = set a.st f k →
      b.kids = a.kids → FInv F body b A B d := by
    intro k b h1 hl e1 e2 e3 e4
    have hsf : b.st f = k := by rw [e3]; exact set_same _ _ _
    refine finv_keep h (f := f) (live_run h1) e1 (fun g hg => by rw [e2]; exact set_ne _ _ hg) (fun g hg => by rw [e3]; exact set_ne _ _ hg)
      (fun g _ => by rw [e4]) (Or.inl (by rw [e2]; exact set_same _ _ _)) (fun _ => by rw [hsf]; exact hl.toLess)
      (fun c hc => by rw [e4] at hc; exact hc) (fun c hc _ => ⟨by rw [e2]; exact set_same _ _ _, by rw [e4]; exact hc⟩)
      (fun c hc => by rw [h1] at hc; cases hc) ?_
    intro _ c hc hlc
    rw [e4] at hc; rw [hsf]
    exact (h.par f c (live_run h1) hlc hc (by rw [h1]; simp)).less (fun _ h => h) (fun _ h => h) hl.Rj hl.Wj
  -- it ends
  have hend : ∀ (r : Except E V) (b : FJ σ V E L), a.mode f = .run → a.kids f = [] → b.roots = a.roots → b.mode = set a.mode f (.ended r) →
      b.st = a.st → b.kids = a.kids → FInv F body b A B d := by
    intro r b h1 h0 e1 e2 e3 e4
    have hme : b.mode f = .ended r := by rw [e2]; exact set_same _ _ _
    refine finv_keep h (f := f) (live_run h1) e1 (fun g hg => by rw [e2]; exact set_ne _ _ hg) (fun g _ => by rw [e3]) (fun g _ => by rw [e4])
      (Or.inr ⟨r, hme⟩) (fun e => by rw [hme] at e; cases e) (fun c hc => by rw [e4] at hc; exact hc) (fun c hc => by rw [h0] at hc; cases hc)
      (fun c hc => by rw [h1] at hc; cases hc) (fun e => by rw [hme] at e; cases e)
  -- it has joined
  have hjoin : ∀ (k : σ) (rs : List (Except E V)) (b : FJ σ V E L), a.mode f = .run → Ended a.mode (a.kids f) rs → F.Less k (a.st f) → b.roots = a.roots →
      b.mode = set a.mode f .run → b.st = set a.st f k → b.kids = set a.kids f [] → FInv F body b A B d := by
    intro k rs b h1 hen hl e1 e2 e3 e4
    have hkf : b.kids f = [] := by rw [e4]; exact set_same _ _ _
    refine finv_keep h (f := f) (live_run h1) e1 (fun g hg => by rw [e2]; exact set_ne _ _ hg) (fun g hg => by rw [e3]; exact set_ne _ _ hg)
      (fun g hg => by rw [e4]; exact set_ne _ _ hg) (Or.inl (by rw [e2]; exact set_same _ _ _))
      (fun _ => by rw [show b.st f = k by rw [e3]; exact set_same _ _ _]; exact hl) (fun c hc => by rw [hkf] at hc; cases hc) ?_
      (fun c hc => by rw [h1] at hc; cases hc) (fun _ c hc => by rw [hkf] at hc; cases hc)
    intro c hc hlc
    obtain ⟨r, hr⟩ := ended_mem hen hc
    exact absurd hr (hlc.2 r)
  cases hs with
  | ret v h1 h2 =>
    rw [h1] at hpf; simp only [(hd.ret _ _ h2).1] at hpf
    exact ⟨A, B, d, hend _ _ h1 (List.length_eq_zero_iff.1 hpf) rfl rfl rfl rfl⟩
  | throw e h1 h2 =>
    rw [h1] at hpf; simp only [(hd.throw _ _ h2).1] at hpf
    exact ⟨A, B, d, hend _ _ h1 (List.length_eq_zero_iff.1 hpf) rfl rfl rfl rfl⟩
  | fork n c k x h1 h2 h3 =>
    have hne : f ≠ n := by rintro rfl; rw [h1] at h3; cases h3
    obtain ⟨f1, f2, f3, f4⟩ := hF.fork _ _ _ _ (hi h1) h2
    refine ⟨_, _, _, finv_made h (f := f) (n := n) (c := c) h1 h3 rfl ?_ ?_ ?_ ?_ ?_ ?_ (Or.inr ⟨?_, ?_⟩) f1 ?_⟩
    · intro g e1 e2; exact (set_ne _ _ e1).trans (set_ne _ _ e2)
    · intro g e2; exact set_ne _ _ e2
    · intro g e1 e2; exact (set_ne _ _ e1).trans (set_ne _ _ e2)
    · exact (set_ne _ _ (Ne.symm hne)).trans (set_same _ _ _)
    · exact set_same _ _ _
    · exact (set_ne _ _ (Ne.symm hne)).trans (set_same _ _ _)
    · exact set_same _ _ _
    · exact set_same _ _ _
    · intro y k' x' _ hb
      rw [h2] at hb; cases hb; exact f4
  | resume n c k x b h1 h2 h3 =>
    have hlf : Live a f := by constructor <;> rw [h1] <;> simp
    obtain ⟨f1, f2, f3, f4⟩ := hF.fork _ _ _ _ (h.inv f hlf) h2
    refine ⟨A, B, d, finv_keep h (f := f) (a' := a.on f (k b)) hlf rfl (fun g hg => set_ne _ _ hg) (fun g hg => set_ne _ _ hg) (fun g _ => rfl)
      (Or.inl (set_same _ _ _)) (fun _ => ?_) (fun c hc => hc) (fun c hc _ => ⟨set_same _ _ _, hc⟩) (fun c hc => by rw [h1] at hc; cases hc) ?_⟩
    · rw [show (a.on f (k b)).st f = k b from set_same _ _ _]; exact (f2 b).toLess
    · intro _ g hg hlg
      rw [show (a.on f (k b)).st f = k b from set_same _ _ _]
      by_cases e : g = n
      · subst e
        cases b with
        | true =>
          obtain ⟨r, hr⟩ := h3 rfl
          exact absurd hr (hlg.2 r)
        | false => exact h.frk f g c k x hlf hlg h1 h2
      · exact (h.par f g hlf hlg hg (by rw [h1]; simpa using Ne.symm e)).less (fun _ h => h) (fun _ h => h) (f2 b).Rj (f2 b).Wj
  | call n c k x h1 h2 h3 =>
    have hne : f ≠ n := by rintro rfl; rw [h1] at h3; cases h3
    obtain ⟨f1, f2, f3⟩ := hF.call _ _ _ _ (hi h1) h2
    refine ⟨_, _, _, finv_made h (f := f) (n := n) (c := c) h1 h3 rfl ?_ ?_ ?_ ?_ ?_ ?_ (Or.inl ⟨?_, ?_⟩) f1 ?_⟩
    · intro g e1 e2; exact (set_ne _ _ e1).trans (set_ne _ _ e2)
    · intro g e2; exact set_ne _ _ e2
    · intro g e1 e2; exact set_ne _ _ e2
    · exact (set_ne _ _ (Ne.symm hne)).trans (set_same _ _ _)
    · exact set_same _ _ _
    · exact set_same _ _ _
    · exact set_same _ _ _
    · exact set_ne _ _ hne
    · intro y k' x' hm _
      have e : ({ a.new n c with mode := set (a.new n c).mode f (.called n) } : FJ σ V E L).mode f = .called n := set_same _ _ _
      have hm := e.symm.trans hm
      cases hm
  | back n r c k x h1 h3 h2 =>
    have hlf : Live a f := by constructor <;> rw [h1] <;> simp
    obtain ⟨f1, f2, f3⟩ := hF.call _ _ _ _ (h.inv f hlf) h2
    refine ⟨A, B, d, finv_keep h (f := f) hlf rfl (fun g hg => set_ne _ _ hg) (fun g hg => set_ne _ _ hg) (fun g _ => rfl)
      (Or.inl (set_same _ _ _)) (fun _ => ?_) (fun c hc => hc) (fun c hc _ => ⟨set_same _ _ _, hc⟩) ?_ ?_⟩
    · rw [show ({ a.on f (k r.toOption) with threw := set a.threw f (also (a.threw f) r) } : FJ σ V E L).st f = k r.toOption from set_same _ _ _]
      exact (f2 _).toLess
    · intro g hg; rw [h1] at hg; injection hg with hg; subst hg; exact not_live_ended h3
    · intro _ g hg hlg
      rw [show ({ a.on f (k r.toOption) with threw := set a.threw f (also (a.threw f) r) } : FJ σ V E L).st f = k r.toOption from set_same _ _ _]
      exact (h.par f g hlf hlg hg (by rw [h1]; simp)).less (fun _ h => h) (fun _ h => h) (f2 _).Rj (f2 _).Wj
  | join rs k x h1 h2 h3 h4 h5 => exact ⟨A, B, d, hjoin _ rs _ h1 h3 ((hF.join _ _ _ (hi h1) h2).1 _) rfl rfl rfl rfl⟩
  | rethrow rs e k x h1 h2 h3 h4 => exact ⟨A, B, d, hjoin _ rs _ h1 h3 ((hF.join _ _ _ (hi h1) h2).2 _ _) rfl rfl rfl rfl⟩
  | switch d k x h1 h2 => exact ⟨A, B, _, hon k _ h1 (hF.switch _ _ _ _ (hi h1) h2).1 rfl rfl rfl rfl⟩
  | forkFails e c k x h1 h2 h3 => exact ⟨A, B, d, hon _ _ h1 ((hF.fork _ _ _ _ (hi h1) h2).2.2.1 e h3) rfl rfl rfl rfl⟩
  | callFails e c k x h1 h2 h3 => exact ⟨A, B, d, hon _ _ h1 ((hF.call _ _ _ _ (hi h1) h2).2.2 e h3) rfl rfl rfl rfl⟩
  | switchFails e d k x h1 h2 h3 => exact ⟨A, B, _, hon _ _ h1 ((hF.switch _ _ _ _ (hi h1) h2).2 e h3) rfl rfl rfl rfl⟩
  | load l k h1 h2 => exact ⟨A, B, d, hon _ _ h1 ((hF.load _ _ _ (hi h1) h2).2.2 _) rfl rfl rfl rfl⟩
  | store l d k h1 h2 => exact ⟨A, B, _, hon _ _ h1 (hF.store _ _ _ _ (hi h1) h2).2.2.2.2 rfl rfl rfl rfl⟩

theorem finv (hd : Disc body pend dirty) (hp : ∀ O c, ok O c → pend c = 0) (hF : F.Ok body may) (hR : F.Roots ok) {a : FJ σ V E L}
    (h : FJ.Reach body may ok m a) : ∃ A B d, FInv F body a A B d := by
  induction h with
  | start y =>
    have hno : ∀ g, ¬ Live (FJ.start y m : FJ σ V E L) g := fun g hg => hg.1 rfl
    refine ⟨fun _ _ => True, fun _ _ => True, fun _ => 0, ?_⟩
    refine ⟨fun g hg => absurd hg (hno g), fun g hg => absurd hg (hno g), fun g hg => absurd hg (hno g), fun p c hp => absurd hp (hno p), fun p c c' hp => absurd hp (hno p),
      fun p c hp => absurd hp (hno p), fun p c _ _ _ hp => absurd hp (hno p), ?_, ?_, ?_, ?_, ?_⟩
    · intro p c hc; cases hc
    · intro p c hc; cases hc
    · intro p c hc; cases hc
    · intro p c hc; cases hc
    · intro g g' c c' hc; cases hc
  | submit n c _ h1 h2 ih =>
    obtain ⟨A, B, d, ih⟩ := ih
    exact ⟨_, _, _, finv_submit ih h2 (hR _ _ h1).1 (hR _ _ h1).2⟩
  | step f hr hs ih =>
    obtain ⟨A, B, d, ih⟩ := ih
    exact finv_step hd hF hs (pinv hd hp hr) ih

/-- **C62.** Programs that keep the rule have no races. -/
theorem C62_footprint (hd : Disc body pend dirty) (hp : ∀ O c, ok O c → pend c = 0) (hF : F.Ok body may) (hR : F.Roots ok) :
    RaceFree body may ok m := by
  intro a h
  obtain ⟨A, B, d, hI⟩ := finv hd hp hF hR h
  exact no_race hF hI

end Verif.Mem
