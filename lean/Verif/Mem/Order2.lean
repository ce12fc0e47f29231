import Verif.Mem.Order

/-! Any execution without races can be put into serial order: the theorem. -/
namespace Verif.Mem
open Verif.Exn (errs oks)

variable {σ V E L : Type} [DecidableEq L]
variable {body : σ → Act σ V E L} {may : E → Prop} {ok : (σ → Prop) → σ → Prop} {m : L → E} {pend : σ → Nat} {dirty : σ → Prop}

theorem pinv_new {a : FJ σ V E L} (h : PInv pend a) {n : Nat} {c : σ} (hc : pend c = 0) : PInv pend (a.new n c) := by
  intro g
  by_cases e : g = n
  · subst e
    simp [FJ.new, set_same, hc]
  · have := h g
    simp only [FJ.new, set_ne _ _ e]
    exact this

/-- Only `f` changes. -/
theorem pinv_one {a b : FJ σ V E L} (h : PInv pend a) {f : Nat} (hm : ∀ g, g ≠ f → b.mode g = a.mode g) (hk : ∀ g, g ≠ f → b.kids g = a.kids g)
    (hs : ∀ g, g ≠ f → b.st g = a.st g)
    (hf : match b.mode f with
      | .none => b.kids f = []
      | .run => (b.kids f).length = pend (b.st f)
      | .called _ => (b.kids f).length = pend (b.st f)
      | .forked _ => (b.kids f).length = pend (b.st f) + 1
      | .ended _ => b.kids f = []) : PInv pend b := by
  intro g
  by_cases e : g = f
  · subst e; exact hf
  · rw [hm g e, hk g e, hs g e]; exact h g

theorem pinv_step (hd : Disc body pend dirty) {f : Nat} {a b : FJ σ V E L} (hs : FJ.Step body may f a b) (h : PInv pend a) : PInv pend b := by
  have hf := h f
  have hon : ∀ (k : σ) (b : FJ σ V E L), b.mode = set a.mode f .run → b.st = set a.st f k → b.kids f = a.kids f → (∀ g, g ≠ f → b.kids g = a.kids g) →
      (a.kids f).length = pend k → PInv pend b := by
    intro k b e1 e2 e3 e4 hk
    refine pinv_one h (f := f) (fun g hg => by rw [e1]; exact set_ne _ _ hg) e4 (fun g hg => by rw [e2]; exact set_ne _ _ hg) ?_
    rw [e1, e2, e3]
    simp only [set_same]
    exact hk
  cases hs with
  | ret v h1 h2 =>
    rw [h1] at hf
    refine pinv_one h (f := f) (fun g hg => set_ne _ _ hg) (fun g hg => rfl) (fun g hg => rfl) ?_
    simp only [set_same]
    simp only [(hd.ret _ _ h2).1] at hf
    exact List.length_eq_zero_iff.1 hf
  | throw e h1 h2 =>
    rw [h1] at hf
    refine pinv_one h (f := f) (fun g hg => set_ne _ _ hg) (fun g hg => rfl) (fun g hg => rfl) ?_
    simp only [set_same]
    simp only [(hd.throw _ _ h2).1] at hf
    exact List.length_eq_zero_iff.1 hf
  | fork n c k x h1 h2 h3 =>
    have hne : f ≠ n := by rintro rfl; rw [h1] at h3; cases h3
    rw [h1] at hf
    refine pinv_one (pinv_new h (n := n) (hd.fork _ _ _ _ h2).1) (f := f) (fun g hg => set_ne _ _ hg) (fun g hg => set_ne _ _ hg) (fun g hg => rfl) ?_
    simp only [set_same]
    simp only [FJ.new, set_ne _ _ hne, List.length_append, List.length_singleton]
    simp only at hf
    omega
  | resume n c k x b h1 h2 h3 =>
    rw [h1] at hf
    simp only at hf
    exact hon (k b) _ rfl rfl rfl (fun _ _ => rfl) (by rw [((hd.fork _ _ _ _ h2).2.1 b).1]; exact hf)
  | call n c k x h1 h2 h3 =>
    have hne : f ≠ n := by rintro rfl; rw [h1] at h3; cases h3
    rw [h1] at hf
    refine pinv_one (pinv_new h (n := n) (hd.call _ _ _ _ h2).1) (f := f) (fun g hg => set_ne _ _ hg) (fun g hg => rfl) (fun g hg => rfl) ?_
    simp only [set_same]
    simp only [FJ.new, set_ne _ _ hne]
    exact hf
  | back n r c k x h1 h3 h2 =>
    rw [h1] at hf
    simp only at hf
    exact hon (k r.toOption) _ rfl rfl rfl (fun _ _ => rfl) (by rw [((hd.call _ _ _ _ h2).2.1 r.toOption).1]; exact hf)
  | join rs k x h1 h2 h3 h4 h5 =>
    refine pinv_one h (f := f) (fun g hg => set_ne _ _ hg) (fun g hg => set_ne _ _ hg) (fun g hg => set_ne _ _ hg) ?_
    simp only [FJ.on, set_same]
    rw [(hd.join _ _ _ h2).1]; rfl
  | rethrow rs e k x h1 h2 h3 h4 =>
    refine pinv_one h (f := f) (fun g hg => set_ne _ _ hg) (fun g hg => set_ne _ _ hg) (fun g hg => set_ne _ _ hg) ?_
    simp only [FJ.on, set_same]
    rw [(hd.join _ _ _ h2).2]; rfl
  | switch d k x h1 h2 =>
    rw [h1] at hf
    simp only at hf
    exact hon k _ rfl rfl rfl (fun _ _ => rfl) (by rw [(hd.switch _ _ _ _ h2).1]; exact hf)
  | forkFails e c k x h1 h2 h3 =>
    rw [h1] at hf
    simp only at hf
    exact hon (x e) _ rfl rfl rfl (fun _ _ => rfl) (by rw [((hd.fork _ _ _ _ h2).2.2 e).1]; exact hf)
  | callFails e c k x h1 h2 h3 =>
    rw [h1] at hf
    simp only at hf
    exact hon (x e) _ rfl rfl rfl (fun _ _ => rfl) (by rw [((hd.call _ _ _ _ h2).2.2 e).1]; exact hf)
  | switchFails e d k x h1 h2 h3 =>
    rw [h1] at hf
    simp only at hf
    exact hon (x e) _ rfl rfl rfl (fun _ _ => rfl) (by rw [((hd.switch _ _ _ _ h2).2.2 e).1]; exact hf)
  | load l k h1 h2 =>
    rw [h1] at hf
    simp only at hf
    exact hon (k (a.m l)) _ rfl rfl rfl (fun _ _ => rfl) (by rw [(hd.load _ _ _ h2 _).1]; exact hf)
  | store l d k h1 h2 =>
    rw [h1] at hf
    simp only at hf
    exact hon k _ rfl rfl rfl (fun _ _ => rfl) (by rw [(hd.store _ _ _ _ h2).1]; exact hf)

theorem pinv_submit {a : FJ σ V E L} (h : PInv pend a) {i : Nat} {c : σ} (hc : pend c = 0) : PInv pend (a.submit i c) := pinv_new h (n := i) hc

theorem pinv (hd : Disc body pend dirty) (hp : ∀ O c, ok O c → pend c = 0) {a : FJ σ V E L} (h : FJ.Reach body may ok m a) : PInv pend a := by
  induction h with
  | start y => intro f; rfl
  | submit i c _ h1 _ ih => exact pinv_submit ih (hp _ c h1)
  | step f _ hs ih => exact pinv_step hd hs ih

/-- A task that ends has waited for its children. -/
theorem kid_ended (hd : Disc body pend dirty) (hp : ∀ O c, ok O c → pend c = 0) {a z : FJ σ V E L} {n : Nat} (h : Tr body may ok a n z)
    (hi : PInv pend a) {f c : Nat} (hc : c ∈ a.kids f) (hz : ∃ r, z.mode f = .ended r) : ∃ r, z.mode c = .ended r := by
  induction h with
  | nil a =>
    obtain ⟨r, hr⟩ := hz
    have := hi f
    rw [hr] at this
    rw [this] at hc; cases hc
  | @step a b z n g h1 h2 ih =>
    obtain ⟨u, hu⟩ := view h1
    by_cases e : f = g
    · subst e
      rcases hu.kids c hc with h3 | ⟨r, hr⟩
      · exact ih (pinv_step hd h1 hi) (by rw [hu.eq]; simp only [U.app, set_same]; exact h3) hz
      · exact ⟨r, h2.ended (hu.ended hr)⟩
    · have hl : a.mode f ≠ .none := by
        intro h4
        have := hi f
        rw [h4] at this
        rw [this] at hc; cases hc
      refine ih (pinv_step hd h1 hi) ?_ hz
      rw [hu.eq, app_kids (hu.other e hl)]; exact hc
  | @submit a z n i d h1 h2 h3 ih =>
    have hl : f ≠ i := by
      rintro rfl
      have := hi f
      rw [h2] at this
      rw [this] at hc; cases hc
    refine ih (pinv_submit hi (hp _ _ h1)) ?_ hz
    rw [show (a.submit i d).kids f = a.kids f from set_ne _ _ hl]; exact hc

/-- A task that ends has waited for the task it called. -/
theorem callee_ended {a z : FJ σ V E L} {n : Nat} (h : Tr body may ok a n z) {f c : Nat} (hc : a.mode f = .called c) (hz : ∃ r, z.mode f = .ended r) :
    ∃ r, z.mode c = .ended r := by
  induction h with
  | nil a => obtain ⟨r, hr⟩ := hz; rw [hc] at hr; cases hr
  | @step a b z n g h1 h2 ih =>
    obtain ⟨u, hu⟩ := view h1
    by_cases e : f = g
    · subst e
      obtain ⟨r, hr⟩ := hu.call c hc
      exact ⟨r, h2.ended (hu.ended hr)⟩
    · refine ih ?_ hz
      rw [hu.eq, app_mode (hu.other e (by rw [hc]; simp))]; exact hc
  | @submit a z n i d h1 h2 h3 ih =>
    exact ih (by rw [submit_mode h2 (by rw [hc]; simp)]; exact hc) hz

/-- Other tasks stay as they are, and new ones end. -/
structure Keeps (f : Nat) (a b : FJ σ V E L) : Prop where
  st : ∀ g, g ≠ f → a.mode g ≠ .none → b.st g = a.st g
  mode : ∀ g, g ≠ f → a.mode g ≠ .none → b.mode g = a.mode g
  kids : ∀ g, g ≠ f → a.mode g ≠ .none → b.kids g = a.kids g
  threw : ∀ g, g ≠ f → a.mode g ≠ .none → b.threw g = a.threw g
  new : ∀ g, g ≠ f → a.mode g = .none → b.mode g = .none ∨ ∃ r, b.mode g = .ended r
  roots : b.roots = a.roots

theorem Keeps.trans {f : Nat} {a b c : FJ σ V E L} (h1 : Keeps f a b) (h2 : Keeps f b c) : Keeps f a c := by
  have hl : ∀ g, g ≠ f → a.mode g ≠ .none → b.mode g ≠ .none := fun g hg hn => by rw [h1.mode g hg hn]; exact hn
  refine ⟨?_, ?_, ?_, ?_, ?_, h2.roots.trans h1.roots⟩
  · intro g hg hn; rw [h2.st g hg (hl g hg hn), h1.st g hg hn]
  · intro g hg hn; rw [h2.mode g hg (hl g hg hn), h1.mode g hg hn]
  · intro g hg hn; rw [h2.kids g hg (hl g hg hn), h1.kids g hg hn]
  · intro g hg hn; rw [h2.threw g hg (hl g hg hn), h1.threw g hg hn]
  · intro g hg hn
    rcases h1.new g hg hn with h | ⟨r, h⟩
    · exact h2.new g hg h
    · exact Or.inr ⟨r, by rw [h2.mode g hg (by rw [h]; simp)]; exact h⟩

/-- A step that makes no task. -/
theorem Keeps.one {f : Nat} {a b : FJ σ V E L} (h1 : ∀ g, g ≠ f → b.st g = a.st g) (h2 : ∀ g, g ≠ f → b.mode g = a.mode g)
    (h3 : ∀ g, g ≠ f → b.kids g = a.kids g) (h4 : ∀ g, g ≠ f → b.threw g = a.threw g) (h5 : b.roots = a.roots) : Keeps f a b :=
  ⟨fun g hg _ => h1 g hg, fun g hg _ => h2 g hg, fun g hg _ => h3 g hg, fun g hg _ => h4 g hg,
   fun g hg hn => Or.inl (by rw [h2 g hg]; exact hn), h5⟩

/-- `f` makes `c`, and `c` runs to its end. -/
theorem Keeps.child {f c : Nat} {a b d : FJ σ V E L} (hcf : c ≠ f) (h1 : ∀ g, g ≠ f → g ≠ c → b.st g = a.st g)
    (h2 : ∀ g, g ≠ f → g ≠ c → b.mode g = a.mode g)
    (h3 : ∀ g, g ≠ f → g ≠ c → b.kids g = a.kids g) (h4 : ∀ g, g ≠ f → g ≠ c → b.threw g = a.threw g) (h5 : b.roots = a.roots) (hc : a.mode c = .none)
    (h : Keeps c b d) (hr : ∃ r, d.mode c = .ended r) : Keeps f a d := by
  have hl : ∀ g, a.mode g ≠ .none → g ≠ c := by rintro g hg rfl; exact hg hc
  refine ⟨?_, ?_, ?_, ?_, ?_, h.roots.trans h5⟩
  · intro g hg hn; rw [h.st g (hl g hn) (by rw [h2 g hg (hl g hn)]; exact hn), h1 g hg (hl g hn)]
  · intro g hg hn; rw [h.mode g (hl g hn) (by rw [h2 g hg (hl g hn)]; exact hn), h2 g hg (hl g hn)]
  · intro g hg hn; rw [h.kids g (hl g hn) (by rw [h2 g hg (hl g hn)]; exact hn), h3 g hg (hl g hn)]
  · intro g hg hn; rw [h.threw g (hl g hn) (by rw [h2 g hg (hl g hn)]; exact hn), h4 g hg (hl g hn)]
  · intro g hg hn
    by_cases e : g = c
    · subst e; exact Or.inr hr
    · exact h.new g e (by rw [h2 g hg e]; exact hn)

/-- What serial order means for one task. -/
def Serial (body : σ → Act σ V E L) (may : E → Prop) (ok : (σ → Prop) → σ → Prop) (m : L → E) (f : Nat) (r : Except E V) (rs : List (Except E V))
    (a : FJ σ V E L) (n : Nat) (z : FJ σ V E L) : Prop :=
  ∃ a' z' k, k < n ∧ FJ.Reach body may ok m a' ∧ Tr body may ok a' k z' ∧ Same z z' ∧ a'.mode f = .ended r ∧
    SerM body may (a.st f) rs (a.threw f) a.m r a'.m ∧ Keeps f a a'

theorem Serial.cons {f : Nat} {r : Except E V} {rs rs' : List (Except E V)} {a b z z1 : FJ σ V E L} {n n' : Nat} (h : Serial body may ok m f r rs' b n' z1)
    (hn : n' ≤ n) (hz : Same z z1) (hk : Keeps f a b)
    (hs : ∀ m', SerM body may (b.st f) rs' (b.threw f) b.m r m' → SerM body may (a.st f) rs (a.threw f) a.m r m') : Serial body may ok m f r rs a n z := by
  obtain ⟨a', z', k, h1, h2, h3, h4, h5, h6, h7⟩ := h
  exact ⟨a', z', k, by omega, h2, h3, hz.trans h4, h5, hs _ h6, hk.trans h7⟩

theorem serial (hd : Disc body pend dirty) (hp : ∀ O c, ok O c → pend c = 0) (hmono : Mono ok) (hrf : RaceFree body may ok m) (n : Nat) :
    ∀ {a z : FJ σ V E L} {f : Nat} {r : Except E V} {rs : List (Except E V)}, FJ.Reach body may ok m a → Tr body may ok a n z → a.mode f = .run →
      Ended a.mode (a.kids f) rs → z.mode f = .ended r → Serial body may ok m f r rs a n z := by
  induction n using Nat.strongRecOn with
  | _ n ih =>
  intro a z f r rs ha htr hm hk hz
  have hi := pinv hd hp ha
  obtain ⟨b, z1, n1, rfl, hst, htr1, hs1⟩ := front hmono hrf htr ha (by rw [hm]; simp)
    (by
      rintro n (h | h | h)
      · rw [hm] at h; cases h
      · rw [hm] at h; cases h
      · exact ended_mem hk h)
    (by rw [hm]; simp) ⟨r, hz⟩
  have hb : FJ.Reach body may ok m b := .step f ha hst
  have hz1 : z1.mode f = .ended r := by rw [hs1.mode]; exact hz
  have hk1 : Ended b.mode (a.kids f) rs := ended_of hk fun n _ r => step_ended hst
  have hib := pinv hd hp hb
  cases hst with
  | ret v h1 h2 =>
    have : z1.mode f = .ended (.ok v) := htr1.ended (set_same _ _ _)
    rw [hz1] at this; cases this
    exact ⟨_, z1, n1, by omega, hb, htr1, hs1, set_same _ _ _, .ret h2,
      Keeps.one (fun _ _ => rfl) (fun g hg => set_ne _ _ hg) (fun _ _ => rfl) (fun _ _ => rfl) rfl⟩
  | throw e h1 h2 =>
    have : z1.mode f = .ended (.error e) := htr1.ended (set_same _ _ _)
    rw [hz1] at this; cases this
    exact ⟨_, z1, n1, by omega, hb, htr1, hs1, set_same _ _ _, .throw h2,
      Keeps.one (fun _ _ => rfl) (fun g hg => set_ne _ _ hg) (fun _ _ => rfl) (fun _ _ => rfl) rfl⟩
  | resume c _ k x b h1 h2 h3 => rw [hm] at h1; cases h1
  | back c r' _ k x h1 h3 h2 => rw [hm] at h1; cases h1
  | join rs' k x h1 h2 h3 h4 h5 =>
    have := ended_fun hk h3; subst this
    refine (ih n1 (by omega) hb htr1 (set_same _ _ _) (rs := []) ?_ hz1).cons (by omega) hs1
      (Keeps.one (fun g hg => set_ne _ _ hg) (fun g hg => set_ne _ _ hg) (fun g hg => set_ne _ _ hg) (fun _ _ => rfl) rfl) ?_
    · simp only [set_same]; exact .nil
    · intro m' h
      simp only [FJ.on, set_same, h5] at h
      rw [h5]; exact .join h2 h4 h
  | rethrow rs' e k x h1 h2 h3 h4 =>
    have := ended_fun hk h3; subst this
    refine (ih n1 (by omega) hb htr1 (set_same _ _ _) (rs := []) ?_ hz1).cons (by omega) hs1
      (Keeps.one (fun g hg => set_ne _ _ hg) (fun g hg => set_ne _ _ hg) (fun g hg => set_ne _ _ hg) (fun g hg => set_ne _ _ hg) rfl) ?_
    · simp only [set_same]; exact .nil
    · intro m' h
      simp only [FJ.on, set_same] at h
      exact .rethrow h2 h4 h
  | switch d k x h1 h2 =>
    refine (ih n1 (by omega) hb htr1 (set_same _ _ _) (rs := rs) hk1 hz1).cons (by omega) hs1
      (Keeps.one (fun g hg => set_ne _ _ hg) (fun g hg => set_ne _ _ hg) (fun _ _ => rfl) (fun _ _ => rfl) rfl) ?_
    intro m' h
    simp only [FJ.on, set_same] at h
    exact .switch h2 h
  | forkFails e c k x h1 h2 h3 =>
    refine (ih n1 (by omega) hb htr1 (set_same _ _ _) (rs := rs) hk1 hz1).cons (by omega) hs1
      (Keeps.one (fun g hg => set_ne _ _ hg) (fun g hg => set_ne _ _ hg) (fun _ _ => rfl) (fun _ _ => rfl) rfl) ?_
    intro m' h
    simp only [FJ.on, set_same] at h
    exact .forkFails e h3 h2 h
  | callFails e c k x h1 h2 h3 =>
    refine (ih n1 (by omega) hb htr1 (set_same _ _ _) (rs := rs) hk1 hz1).cons (by omega) hs1
      (Keeps.one (fun g hg => set_ne _ _ hg) (fun g hg => set_ne _ _ hg) (fun _ _ => rfl) (fun _ _ => rfl) rfl) ?_
    intro m' h
    simp only [FJ.on, set_same] at h
    exact .callFails e h3 h2 h
  | switchFails e d k x h1 h2 h3 =>
    refine (ih n1 (by omega) hb htr1 (set_same _ _ _) (rs := rs) hk1 hz1).cons (by omega) hs1
      (Keeps.one (fun g hg => set_ne _ _ hg) (fun g hg => set_ne _ _ hg) (fun _ _ => rfl) (fun _ _ => rfl) rfl) ?_
    intro m' h
    simp only [FJ.on, set_same] at h
    exact .switchFails e h3 h2 h
  | load l k h1 h2 =>
    refine (ih n1 (by omega) hb htr1 (set_same _ _ _) (rs := rs) hk1 hz1).cons (by omega) hs1
      (Keeps.one (fun g hg => set_ne _ _ hg) (fun g hg => set_ne _ _ hg) (fun _ _ => rfl) (fun _ _ => rfl) rfl) ?_
    intro m' h
    simp only [FJ.on, set_same] at h
    exact .load h2 h
  | store l d k h1 h2 =>
    refine (ih n1 (by omega) hb htr1 (set_same _ _ _) (rs := rs) hk1 hz1).cons (by omega) hs1
      (Keeps.one (fun g hg => set_ne _ _ hg) (fun g hg => set_ne _ _ hg) (fun _ _ => rfl) (fun _ _ => rfl) rfl) ?_
    intro m' h
    simp only [FJ.on, set_same] at h
    exact .store h2 h
  | fork c y k x h1 h2 h3 =>
    have hcf : c ≠ f := by rintro rfl; rw [h1] at h3; cases h3
    -- the child first
    obtain ⟨rc, hzc⟩ := kid_ended hd hp htr1 hib (f := f) (c := c) (by simp only [set_same]; simp) ⟨r, hz1⟩
    obtain ⟨a2, z2, n2, g1, g2, g3, g4, g5, g6, g7⟩ := ih n1 (by omega) hb htr1 (f := c) (r := rc) (rs := []) (by
        simp only [FJ.new, set_ne _ _ hcf, set_same]) (by simp only [FJ.new, set_ne _ _ hcf, set_same]; exact .nil) hzc
    simp only [FJ.new, set_same] at g6
    have e1 := g7.mode f hcf.symm (by simp only [set_same]; simp)
    have e2 := g7.st f hcf.symm (by simp only [set_same]; simp)
    have e3 := g7.kids f hcf.symm (by simp only [set_same]; simp)
    have e4 := g7.threw f hcf.symm (by simp only [set_same]; simp)
    simp only [FJ.new, set_same, set_ne _ _ hcf.symm] at e1 e2 e3 e4
    have hkeep : Keeps f a a2 := by
      refine Keeps.child hcf ?_ ?_ ?_ ?_ ?_ h3 g7 ⟨rc, g5⟩
      · intro g hg hgc; exact set_ne _ _ hgc
      · intro g hg hgc; exact (set_ne _ _ hg).trans (set_ne _ _ hgc)
      · intro g hg hgc; exact (set_ne _ _ hg).trans (set_ne _ _ hgc)
      · intro g hg hgc; exact set_ne _ _ hgc
      · rfl
    have hk2 : Ended a2.mode (a2.kids f) (rs ++ [rc]) := by
      rw [e3]
      refine ended_snoc (ended_of hk fun n hn r hr => ?_) g5
      rw [hkeep.mode n (by rintro rfl; rw [h1] at hr; cases hr) (by rw [hr]; simp)]; exact hr
    have hz2 : z2.mode f = .ended r := by rw [g4.mode]; exact hz1
    -- then the parent goes on
    obtain ⟨b3, z3, n3, rfl, hst3, htr3, hs3⟩ := front hmono hrf g3 g2 (f := f) (by rw [e1]; simp)
      (by
        rintro n (h | h | h)
        · rw [e1] at h; cases h
        · rw [e1] at h; cases h; exact ⟨rc, g5⟩
        · exact ended_mem hk2 h)
      (by rw [e1]; simp) ⟨r, hz2⟩
    have hb3 : FJ.Reach body may ok m b3 := .step f g2 hst3
    have hz3 : z3.mode f = .ended r := by rw [hs3.mode]; exact hz2
    have hk3 : Ended b3.mode (a2.kids f) (rs ++ [rc]) := ended_of hk2 fun n _ r => step_ended hst3
    cases hst3 with
    | resume c' y' k' x' bb j1 j2 j3 =>
      rw [e1] at j1; cases j1
      rw [e2, h2] at j2; cases j2
      refine (ih n3 (by omega) hb3 htr3 (set_same _ _ _) (rs := rs ++ [rc]) hk3 hz3).cons (by omega) (hs1.trans (g4.trans hs3))
        (hkeep.trans (Keeps.one (fun g hg => set_ne _ _ hg) (fun g hg => set_ne _ _ hg) (fun _ _ => rfl) (fun _ _ => rfl) rfl)) ?_
      intro m' h
      simp only [FJ.on, set_same, e4] at h
      exact .fork bb h2 g6 h
    | ret v h1 h2 => rw [e1] at h1; cases h1
    | throw e h1 h2 => rw [e1] at h1; cases h1
    | fork _ _ _ _ h1 => rw [e1] at h1; cases h1
    | call _ _ _ _ h1 => rw [e1] at h1; cases h1
    | back _ _ _ _ _ h1 => rw [e1] at h1; cases h1
    | join _ _ _ h1 => rw [e1] at h1; cases h1
    | rethrow _ _ _ _ h1 => rw [e1] at h1; cases h1
    | switch _ _ _ h1 => rw [e1] at h1; cases h1
    | forkFails _ _ _ _ h1 => rw [e1] at h1; cases h1
    | callFails _ _ _ _ h1 => rw [e1] at h1; cases h1
    | switchFails _ _ _ _ h1 => rw [e1] at h1; cases h1
    | load _ _ h1 => rw [e1] at h1; cases h1
    | store _ _ _ h1 => rw [e1] at h1; cases h1
  | call c y k x h1 h2 h3 =>
    have hcf : c ≠ f := by rintro rfl; rw [h1] at h3; cases h3
    obtain ⟨rc, hzc⟩ := callee_ended htr1 (f := f) (c := c) (by simp only [set_same]) ⟨r, hz1⟩
    obtain ⟨a2, z2, n2, g1, g2, g3, g4, g5, g6, g7⟩ := ih n1 (by omega) hb htr1 (f := c) (r := rc) (rs := []) (by
        simp only [FJ.new, set_ne _ _ hcf, set_same]) (by simp only [FJ.new, set_same]; exact .nil) hzc
    simp only [FJ.new, set_same] at g6
    have e1 := g7.mode f hcf.symm (by simp only [set_same]; simp)
    have e2 := g7.st f hcf.symm (by simp only [set_same]; simp)
    have e3 := g7.kids f hcf.symm (by simp only [set_same]; simp)
    have e4 := g7.threw f hcf.symm (by simp only [set_same]; simp)
    simp only [FJ.new, set_same, set_ne _ _ hcf.symm] at e1 e2 e3 e4
    have hkeep : Keeps f a a2 := by
      refine Keeps.child hcf ?_ ?_ ?_ ?_ ?_ h3 g7 ⟨rc, g5⟩
      · intro g hg hgc; exact set_ne _ _ hgc
      · intro g hg hgc; exact (set_ne _ _ hg).trans (set_ne _ _ hgc)
      · intro g hg hgc; exact set_ne _ _ hgc
      · intro g hg hgc; exact set_ne _ _ hgc
      · rfl
    have hk2 : Ended a2.mode (a2.kids f) rs := by
      rw [e3]
      refine ended_of hk fun n hn r hr => ?_
      rw [hkeep.mode n (by rintro rfl; rw [h1] at hr; cases hr) (by rw [hr]; simp)]; exact hr
    have hz2 : z2.mode f = .ended r := by rw [g4.mode]; exact hz1
    obtain ⟨b3, z3, n3, rfl, hst3, htr3, hs3⟩ := front hmono hrf g3 g2 (f := f) (by rw [e1]; simp)
      (by
        rintro n (h | h | h)
        · rw [e1] at h; cases h; exact ⟨rc, g5⟩
        · rw [e1] at h; cases h
        · exact ended_mem hk2 h)
      (by rw [e1]; simp) ⟨r, hz2⟩
    have hb3 : FJ.Reach body may ok m b3 := .step f g2 hst3
    have hz3 : z3.mode f = .ended r := by rw [hs3.mode]; exact hz2
    have hk3 : Ended b3.mode (a2.kids f) rs := ended_of hk2 fun n _ r => step_ended hst3
    cases hst3 with
    | back c' r' y' k' x' j1 j3 j2 =>
      rw [e1] at j1; cases j1
      rw [e2, h2] at j2; cases j2
      rw [g5] at j3; cases j3
      refine (ih n3 (by omega) hb3 htr3 (set_same _ _ _) (rs := rs) hk3 hz3).cons (by omega) (hs1.trans (g4.trans hs3))
        (hkeep.trans (Keeps.one (fun g hg => set_ne _ _ hg) (fun g hg => set_ne _ _ hg) (fun _ _ => rfl) (fun g hg => set_ne _ _ hg) rfl)) ?_
      intro m' h
      simp only [FJ.on, set_same, e4] at h
      cases rc with
      | ok v => exact .call h2 g6 h
      | error e => exact .callThrew h2 g6 h
    | resume _ _ _ _ _ h1 => rw [e1] at h1; cases h1
    | ret v h1 h2 => rw [e1] at h1; cases h1
    | throw e h1 h2 => rw [e1] at h1; cases h1
    | fork _ _ _ _ h1 => rw [e1] at h1; cases h1
    | call _ _ _ _ h1 => rw [e1] at h1; cases h1
    | join _ _ _ h1 => rw [e1] at h1; cases h1
    | rethrow _ _ _ _ h1 => rw [e1] at h1; cases h1
    | switch _ _ _ h1 => rw [e1] at h1; cases h1
    | forkFails _ _ _ _ h1 => rw [e1] at h1; cases h1
    | callFails _ _ _ _ h1 => rw [e1] at h1; cases h1
    | switchFails _ _ _ _ h1 => rw [e1] at h1; cases h1
    | load _ _ h1 => rw [e1] at h1; cases h1
    | store _ _ _ h1 => rw [e1] at h1; cases h1

end Verif.Mem
