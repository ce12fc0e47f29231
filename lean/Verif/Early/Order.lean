import Verif.Mem.Runs
import Verif.Busy.Model

/-! The steps of the tasks that have ended can be put before those of the others, and then the others left out. -/
namespace Verif.Early
open Verif.Mem
open Verif.Busy (After Next)

variable {σ V E L : Type} [DecidableEq L]
variable {body : σ → Act σ V E L} {may : E → Prop} {ok : (σ → Prop) → σ → Prop} {m : L → E} {χ : Nat → Prop}

/-- A step, whose new task has the colour of the task that steps. -/
structure CStep (body : σ → Act σ V E L) (may : E → Prop) (χ : Nat → Prop) (f : Nat) (a b : FJ σ V E L) : Prop where
  step : FJ.Step body may f a b
  new : ∀ n, a.mode n = .none → b.mode n ≠ .none → (χ n ↔ χ f)

/-- An execution in which children have the colour of their parents. -/
inductive CReach (body : σ → Act σ V E L) (may : E → Prop) (ok : (σ → Prop) → σ → Prop) (m : L → E) (χ : Nat → Prop) : FJ σ V E L → Prop
  | start (y : σ) : CReach body may ok m χ (FJ.start y m)
  | submit {a : FJ σ V E L} (n : Nat) (c : σ) : CReach body may ok m χ a → ok a.open c → a.mode n = .none → CReach body may ok m χ (a.submit n c)
  | step {a a' : FJ σ V E L} (f : Nat) : CReach body may ok m χ a → CStep body may χ f a a' → CReach body may ok m χ a'

theorem CReach.reach {a : FJ σ V E L} (h : CReach body may ok m χ a) : FJ.Reach body may ok m a := by
  induction h with
  | start y => exact .start y
  | submit n c _ h1 h2 ih => exact .submit n c ih h1 h2
  | step f _ h1 ih => exact .step f ih h1.step

theorem step_live {f g : Nat} {a b : FJ σ V E L} (h : FJ.Step body may f a b) (hg : a.mode g ≠ .none) : b.mode g ≠ .none := by
  obtain ⟨u, hu⟩ := view h
  exact fun hb => hg (hu.none hb)

theorem submit_live {a : FJ σ V E L} {i g : Nat} {c : σ} (hg : a.mode g ≠ .none) : (a.submit i c).mode g ≠ .none := by
  by_cases e : g = i
  · subst e; show set a.mode g .run g ≠ _; rw [set_same]; simp
  · show set a.mode i .run g ≠ _; rw [set_ne _ _ e]; exact hg

theorem CReach.congr {χ' : Nat → Prop} {a : FJ σ V E L} (h : CReach body may ok m χ a) : (∀ g, a.mode g ≠ .none → (χ' g ↔ χ g)) → CReach body may ok m χ' a := by
  induction h with
  | start y => exact fun _ => .start y
  | submit n c _ h1 h2 ih => exact fun h => .submit n c (ih fun g hg => h g (submit_live hg)) h1 h2
  | @step a a' f _ h1 ih =>
    intro h
    refine .step f (ih fun g hg => h g (step_live h1.step hg)) ⟨h1.step, fun n h2 h3 => ?_⟩
    obtain ⟨u, hu⟩ := view h1.step
    rw [h n h3, h f (step_live h1.step hu.live.1)]
    exact h1.new n h2 h3

theorem roots_live {a : FJ σ V E L} (h : FJ.Reach body may ok m a) : ∀ p ∈ a.roots, a.mode p.1 ≠ .none := by
  induction h with
  | start y => intro p hp; cases hp
  | @submit a n c _ _ _ ih =>
    intro p hp
    rcases List.mem_cons.1 hp with rfl | hp
    · show set a.mode n .run n ≠ _; rw [set_same]; simp
    · exact submit_live (ih p hp)
  | @step a b f _ h1 ih =>
    intro p hp
    obtain ⟨u, hu⟩ := view h1
    rw [hu.eq] at hp
    exact step_live h1 (ih p hp)

/-- There is a colouring. -/
theorem colour (P : Nat → Prop) {a : FJ σ V E L} (h : FJ.Reach body may ok m a) : ∃ χ, CReach body may ok m χ a ∧ ∀ p ∈ a.roots, χ p.1 ↔ P p.1 := by
  classical
  induction h with
  | start y => exact ⟨P, .start y, fun _ _ => .rfl⟩
  | @submit a n c h0 h1 h2 ih =>
    obtain ⟨χ, h3, h4⟩ := ih
    refine ⟨fun g => if g = n then P n else χ g, .submit n c (h3.congr fun g hg => ?_) h1 h2, fun p hp => ?_⟩
    · rw [if_neg]; rintro rfl; exact hg h2
    · rcases List.mem_cons.1 hp with rfl | hp
      · simp
      · have : p.1 ≠ n := by intro e; exact roots_live h0 p hp (by rw [e]; exact h2)
        simp only [if_neg this]; exact h4 p hp
  | @step a b f h0 h1 ih =>
    obtain ⟨χ, h3, h4⟩ := ih
    obtain ⟨u, hu⟩ := view h1
    refine ⟨fun g => if a.mode g = .none then χ f else χ g, .step f (h3.congr fun g hg => by simp only [if_neg hg]) ⟨h1, fun n h5 _ => ?_⟩, fun p hp => ?_⟩
    · simp only [if_pos h5, if_neg hu.live.1]
    · rw [hu.eq] at hp
      have := roots_live h0 p hp
      simp only [if_neg this]; exact h4 p hp

/-- A task waits for tasks it has made. -/
theorem step_waits {f g n : Nat} {a b : FJ σ V E L} (h : FJ.Step body may f a b) (hw : Waits b g n) :
    Waits a g n ∨ (g = f ∧ a.mode n = .none ∧ b.mode n ≠ .none) := by
  have same : ∀ k, b.mode = set a.mode f k → b.kids = a.kids → (∀ n, k ≠ .called n ∧ k ≠ .forked n) → Waits a g n := by
    intro k e1 e2 e3
    unfold Waits at hw ⊢
    rw [e1, e2] at hw
    by_cases e : g = f
    · subst e; rw [set_same] at hw; have := e3 n; grind
    · rw [set_ne _ _ e] at hw; exact hw
  have drop : b.mode = set a.mode f .run → b.kids = set a.kids f [] → Waits a g n := by
    intro e1 e2
    unfold Waits at hw ⊢
    rw [e1, e2] at hw
    by_cases e : g = f
    · subst e; rw [set_same, set_same] at hw; simp at hw
    · rw [set_ne _ _ e, set_ne _ _ e] at hw; exact hw
  cases h with
  | ret v h1 h2 => exact .inl (same _ rfl rfl (by simp))
  | throw e h1 h2 => exact .inl (same _ rfl rfl (by simp))
  | fork c y k x h1 h2 h3 =>
    have hcf : f ≠ c := by rintro rfl; rw [h1] at h3; cases h3
    unfold Waits at hw ⊢
    by_cases e : g = f
    · subst e
      simp only [FJ.new, set_same, reduceCtorEq, Mode.forked.injEq, false_or, List.mem_append, List.mem_singleton] at hw
      by_cases e : n = c
      · subst e
        refine .inr ⟨rfl, h3, ?_⟩
        simp only [FJ.new, set_ne _ _ hcf.symm, set_same]; simp
      · grind
    · by_cases e' : g = c
      · subst e'
        simp [FJ.new, set_same, set_ne _ _ e] at hw
      · simp only [FJ.new, set_ne _ _ e, set_ne _ _ e'] at hw
        exact .inl hw
  | resume n c k x b h1 h2 h3 => exact .inl (same _ rfl rfl (by simp))
  | call c y k x h1 h2 h3 =>
    have hcf : f ≠ c := by rintro rfl; rw [h1] at h3; cases h3
    unfold Waits at hw ⊢
    by_cases e : g = f
    · subst e
      simp only [FJ.new, set_same, reduceCtorEq, Mode.called.injEq, false_or, set_ne _ _ hcf] at hw
      by_cases e : n = c
      · subst e
        refine .inr ⟨rfl, h3, ?_⟩
        simp only [FJ.new, set_ne _ _ hcf.symm, set_same]; simp
      · grind
    · by_cases e' : g = c
      · subst e'
        simp [FJ.new, set_same, set_ne _ _ e] at hw
      · simp only [FJ.new, set_ne _ _ e, set_ne _ _ e'] at hw
        exact .inl hw
  | back n r c k x h1 h3 h2 => exact .inl (same _ rfl rfl (by simp))
  | join rs k x h1 h2 h3 h4 h5 => exact .inl (drop rfl rfl)
  | rethrow rs e k x h1 h2 h3 h4 => exact .inl (drop rfl rfl)
  | switch d k x h1 h2 => exact .inl (same _ rfl rfl (by simp))
  | forkFails e c k x h1 h2 h3 => exact .inl (same _ rfl rfl (by simp))
  | callFails e c k x h1 h2 h3 => exact .inl (same _ rfl rfl (by simp))
  | switchFails e d k x h1 h2 h3 => exact .inl (same _ rfl rfl (by simp))
  | load l k h1 h2 => exact .inl (same _ rfl rfl (by simp))
  | store l d k h1 h2 => exact .inl (same _ rfl rfl (by simp))

/-- It waits for tasks of its colour. -/
theorem CReach.waits {a : FJ σ V E L} (h : CReach body may ok m χ a) : ∀ f n, Waits a f n → a.mode n ≠ .none ∧ (χ n ↔ χ f) := by
  induction h with
  | start y => intro f n hw; unfold Waits at hw; simp [FJ.start] at hw
  | @submit a i c _ _ h2 ih =>
    intro f n hw
    by_cases e : f = i
    · subst e; unfold Waits at hw; simp [FJ.submit, FJ.new, set_same] at hw
    · have hw : Waits a f n := by
        unfold Waits at hw ⊢
        simp only [FJ.submit, FJ.new, set_ne _ _ e] at hw; exact hw
      obtain ⟨h3, h4⟩ := ih f n hw
      exact ⟨submit_live h3, h4⟩
  | @step a b g _ h1 ih =>
    intro f n hw
    rcases step_waits h1.step hw with hw | ⟨rfl, h2, h3⟩
    · obtain ⟨h3, h4⟩ := ih f n hw
      exact ⟨step_live h1.step h3, h4⟩
    · exact ⟨h3, h1.new n h2 h3⟩

theorem Same.symm' {a b : FJ σ V E L} : Same a b → Same b a := by rintro ⟨h, rfl⟩; exact ⟨a.hist, rfl⟩

/-- Names that come into use are the task that steps and its child. -/
theorem app_new {u : U σ V E L} {f n : Nat} {a : FJ σ V E L} (h1 : a.mode n = .none) (h2 : (u.app f a).mode n ≠ .none) :
    n = f ∨ ∃ c, u.new = some (n, c) := by
  by_cases e : n = f
  · exact .inl e
  · refine .inr ?_
    by_cases e' : ∃ c, u.new = some (n, c)
    · exact e'
    · exfalso
      refine h2 ((app_mode ⟨e, ?_⟩).trans h1)
      rintro n' c hn rfl
      exact e' ⟨c, hn⟩

/-- A step of a task of one colour can be taken before one of a task of the other. -/
theorem swap (hrf : RaceFree body may ok m) {f g : Nat} {a b c : FJ σ V E L} (ha : CReach body may ok m χ a) (hg : CStep body may χ g a b) (hcg : ¬ χ g)
    (hf : CStep body may χ f b c) (hcf : χ f) : ∃ b' c', CStep body may χ f a b' ∧ CStep body may χ g b' c' ∧ Same c c' := by
  obtain ⟨ug, vg⟩ := view hg.step
  obtain ⟨uf, vf⟩ := view hf.step
  have hne : f ≠ g := by rintro rfl; exact hcg hcf
  have hnr := hrf a ha.reach
  have hlive : a.mode f ≠ .none := by
    intro h
    exact hcg ((hg.new f h vf.live.1).1 hcf)
  have ho := vg.other hne hlive
  have est : b.st f = a.st f := by rw [vg.eq]; exact app_st ho
  have emode : b.mode f = a.mode f := by rw [vg.eq]; exact app_mode ho
  have ekids : b.kids f = a.kids f := by rw [vg.eq]; exact app_kids ho
  have ethrew : b.threw f = a.threw f := by rw [vg.eq]; exact app_threw ho
  have hbg : b.mode g ≠ .none := by rw [vg.self]; exact vg.mode
  have hrw : ∀ l d, ug.wr = some (l, d) → (uf.rd = some l ∨ ∃ d', uf.wr = some (l, d')) → False := by
    intro l d h1 h2
    obtain ⟨e1, k, e2⟩ := vg.wr l d h1
    rcases h2 with h2 | ⟨d', h2⟩
    · obtain ⟨e3, k', e4⟩ := vf.rd l h2
      exact hnr ⟨g, f, l, hne.symm, e1, by rw [← emode]; exact e3, ⟨d, k, e2⟩, Or.inl ⟨k', by rw [← est]; exact e4⟩⟩
    · obtain ⟨e3, k', e4⟩ := vf.wr l d' h2
      exact hnr ⟨g, f, l, hne.symm, e1, by rw [← emode]; exact e3, ⟨d, k, e2⟩, Or.inr ⟨d', k', by rw [← est]; exact e4⟩⟩
  have hrw' : ∀ l d, uf.wr = some (l, d) → ug.rd = some l → False := by
    intro l d h1 h2
    obtain ⟨e1, k, e2⟩ := vf.wr l d h1
    obtain ⟨e3, k', e4⟩ := vg.rd l h2
    exact hnr ⟨f, g, l, hne, by rw [← emode]; exact e1, e3, ⟨d, k, by rw [← est]; exact e2⟩, Or.inl ⟨k', e4⟩⟩
  have hl1 : Like uf f b a := by
    refine ⟨est.symm, emode.symm, ekids.symm, ethrew.symm, ?_, ?_, ?_⟩
    · intro n hw r hr
      have hw' : Waits a f n := by unfold Waits at hw ⊢; rw [emode, ekids] at hw; exact hw
      obtain ⟨h1, h2⟩ := ha.waits f n hw'
      rw [vg.eq, app_mode (vg.other (fun e => hcg (by rw [← e]; exact h2.2 hcf)) h1)] at hr
      exact hr
    · intro n c hn; exact vg.none (vf.new n c hn)
    · intro l hl
      exact (vg.m_eq fun d hd => hrw l d hd (Or.inl hl)).symm
  have hst := vf.again a hl1
  have hfn : ∀ n c, uf.new = some (n, c) → g ≠ n := fun n c hn e => hbg (by rw [e]; exact vf.new n c hn)
  have hnn : ∀ n c n' c', uf.new = some (n, c) → ug.new = some (n', c') → n ≠ n' := by
    rintro n c n' c' h1 h2 rfl
    have := vf.new n c h1
    rw [(vg.made h2).2] at this; cases this
  have hl2 : Like ug g a (uf.app f a) := by
    have ho' : Other uf f g := ⟨hne.symm, hfn⟩
    refine ⟨app_st ho', app_mode ho', app_kids ho', app_threw ho', ?_, ?_, ?_⟩
    · intro n _ r hr
      rw [app_mode ⟨?_, ?_⟩]
      · exact hr
      · rintro rfl; exact vf.live.2 r (by rw [emode]; exact hr)
      · rintro n' c' h1 rfl
        have := vg.none (vf.new n c' h1)
        rw [hr] at this; cases this
    · intro n c hn
      rw [app_mode ⟨?_, ?_⟩]
      · exact vg.new n c hn
      · rintro rfl; exact hlive (vg.new _ c hn)
      · rintro n' c' h1 rfl; exact hnn _ _ _ _ h1 hn rfl
    · intro l hl
      exact putO_ne fun d hd => hrw' l d hd hl
  refine ⟨_, _, ⟨hst, fun n h1 h2 => ?_⟩, ⟨vg.again _ hl2, fun n h1 h2 => ?_⟩, ?_⟩
  · rcases app_new h1 h2 with rfl | ⟨y, hy⟩
    · exact absurd h1 hlive
    · exact hf.new n (vf.new n y hy) (by rw [(vf.made hy).2]; simp)
  · rcases app_new h1 h2 with rfl | ⟨y, hy⟩
    · rfl
    · exact hg.new n (vg.new n y hy) (by rw [(vg.made hy).2]; simp)
  rw [vf.eq, vg.eq]
  refine app_same a hne (fun n c h => (hfn n c h).symm) (fun n c h e => hlive (by rw [← e]; exact vg.new n c h)) hnn ?_
  rintro l d l' d' h1 h2 rfl
  exact hrw l d' h2 (Or.inr ⟨d, h1⟩)

theorem CStep.same {f : Nat} {a b a' : FJ σ V E L} (h : CStep body may χ f a b) (hs : Same a a') : ∃ b', CStep body may χ f a' b' ∧ Same b b' := by
  obtain ⟨x, rfl⟩ := hs
  obtain ⟨x', h2⟩ := step_same h.step x
  exact ⟨_, ⟨h2, h.new⟩, ⟨x', rfl⟩⟩

/-- Steps of tasks that are not coloured. -/
inductive UTr (body : σ → Act σ V E L) (may : E → Prop) (χ : Nat → Prop) : FJ σ V E L → FJ σ V E L → Prop
  | nil (a) : UTr body may χ a a
  | snoc {a b c} (g : Nat) : UTr body may χ a b → ¬ χ g → CStep body may χ g b c → UTr body may χ a c

theorem UTr.creach {a b : FJ σ V E L} (h : UTr body may χ a b) (ha : CReach body may ok m χ a) : CReach body may ok m χ b := by
  induction h with
  | nil => exact ha
  | snoc g _ _ h2 ih => exact .step g ih h2

theorem UTr.mode {a b : FJ σ V E L} (h : UTr body may χ a b) {g : Nat} (hg : χ g) : b.mode g = a.mode g := by
  induction h with
  | nil => rfl
  | @snoc b c i _ h1 h2 ih =>
    obtain ⟨u, hu⟩ := view h2.step
    rw [← ih]
    have e : g ≠ i := by rintro rfl; exact h1 hg
    by_cases hl : b.mode g = .none
    · by_cases hc : c.mode g = .none
      · rw [hl, hc]
      · exact absurd ((h2.new g hl hc).1 hg) h1
    · rw [hu.eq]; exact app_mode (hu.other e hl)

theorem UTr.live {a b : FJ σ V E L} (h : UTr body may χ a b) {g : Nat} (hg : a.mode g ≠ .none) : b.mode g ≠ .none := by
  induction h with
  | nil => exact hg
  | snoc i _ _ h2 ih => exact step_live h2.step ih

theorem UTr.ended {a b : FJ σ V E L} (h : UTr body may χ a b) {g : Nat} {r : Except E V} (hg : a.mode g = .ended r) : b.mode g = .ended r := by
  induction h with
  | nil => exact hg
  | snoc i _ _ h2 ih => exact step_ended h2.step ih

theorem UTr.roots {a b : FJ σ V E L} (h : UTr body may χ a b) : b.roots = a.roots := by
  induction h with
  | nil => rfl
  | snoc i _ _ h2 ih => obtain ⟨u, hu⟩ := view h2.step; rw [hu.eq]; exact ih

/-- A step of a coloured task can be taken before them, -/
theorem UTr.first (hrf : RaceFree body may ok m) {b y : FJ σ V E L} (h : UTr body may χ b y) (hb : CReach body may ok m χ b) {f : Nat} (hf : χ f) :
    ∀ {z}, CStep body may χ f y z → ∃ b' z', CStep body may χ f b b' ∧ UTr body may χ b' z' ∧ Same z z' := by
  induction h with
  | nil => intro z hs; exact ⟨z, z, hs, .nil _, .refl z⟩
  | snoc g h1 h2 h3 ih =>
    intro z hs
    obtain ⟨c, c', h4, h5, h6⟩ := swap hrf (h1.creach hb) h3 h2 hs hf
    obtain ⟨b', z', h7, h8, h9⟩ := ih h4
    obtain ⟨z'', h10, h11⟩ := h5.same h9
    exact ⟨b', z'', h7, .snoc g h8 h2 h10, h6.trans h11⟩

/-- A step can be taken after a task is submitted. -/
theorem CStep.after {g i : Nat} {c : σ} {a b : FJ σ V E L} (h : CStep body may χ g a b) (hi : b.mode i = .none) :
    ∃ b', CStep body may χ g (a.submit i c) b' ∧ Same (b.submit i c) b' := by
  obtain ⟨u, hu⟩ := view h.step
  have hai := hu.none hi
  have hne : g ≠ i := by rintro rfl; exact hu.live.1 hai
  have hun : ∀ n d, u.new = some (n, d) → n ≠ i := by
    rintro n d hn rfl
    rw [(hu.made hn).2] at hi; cases hi
  have hst := hu.again (a.submit i c) ⟨set_ne _ _ hne, submit_mode hai hu.live.1, set_ne _ _ hne, set_ne _ _ hne,
    (fun n _ r hr => (submit_mode hai (by rw [hr]; simp)).trans hr), (fun n d hn => (set_ne _ _ (hun n d hn)).trans (hu.new n d hn)), fun _ _ => rfl⟩
  have e : u.app g (a.submit i c) = b.submit i c := by
    rw [hu.eq]
    unfold U.app U.base FJ.submit FJ.new
    rcases hn : u.new with _ | ⟨n, d⟩
    · simp only [set_comm _ _ _ hne]
    · have := hun n d hn
      simp only [set_comm _ _ _ hne, set_comm _ _ _ this]
  rw [e] at hst
  refine ⟨_, ⟨hst, fun n h1 h2 => ?_⟩, .refl _⟩
  have : n ≠ i := by
    rintro rfl
    rw [show (a.submit n c).mode n = .run from set_same _ _ _] at h1; cases h1
  rw [show (a.submit i c).mode n = a.mode n from set_ne _ _ this] at h1
  rw [show (b.submit i c).mode n = b.mode n from set_ne _ _ this] at h2
  exact h.new n h1 h2

theorem UTr.after {i : Nat} {c : σ} {a b : FJ σ V E L} (h : UTr body may χ a b) (hi : b.mode i = .none) :
    ∃ b', UTr body may χ (a.submit i c) b' ∧ Same (b.submit i c) b' := by
  induction h with
  | nil => exact ⟨_, .nil _, .refl _⟩
  | @snoc b d g h1 h2 h3 ih =>
    obtain ⟨u, hu⟩ := view h3.step
    obtain ⟨b1, h4, h5⟩ := ih (hu.none hi)
    obtain ⟨b2, h6, h7⟩ := h3.after (c := c) hi
    obtain ⟨b3, h8, h9⟩ := h6.same h5
    exact ⟨b3, .snoc g h4 h2 h8, h7.trans h9⟩

open Classical in
/-- `a` is `b` without the tasks that are not coloured. -/
structure Proj (χ : Nat → Prop) (b a : FJ σ V E L) : Prop where
  st : ∀ g, χ g → a.st g = b.st g
  mode : ∀ g, χ g → a.mode g = b.mode g
  kids : ∀ g, χ g → a.kids g = b.kids g
  threw : ∀ g, χ g → a.threw g = b.threw g
  none : ∀ g, ¬ χ g → a.mode g = .none
  m : a.m = b.m
  roots : a.roots = b.roots.filter (fun p => χ p.1)

theorem set_if {α : Type} {f f' : Nat → α} (h : ∀ g, χ g → f g = f' g) (i : Nat) (x : α) : ∀ g, χ g → Mem.set f i x g = Mem.set f' i x g := by
  intro g hg; unfold Mem.set; split
  · rfl
  · exact h g hg

theorem Proj.step {f : Nat} {b b' a : FJ σ V E L} (h : Proj χ b a) (hb : CReach body may ok m χ b) (hf : χ f) (hs : CStep body may χ f b b') :
    ∃ a', FJ.Step body may f a a' ∧ Proj χ b' a' := by
  obtain ⟨u, hu⟩ := view hs.step
  have hnew : ∀ n c, u.new = some (n, c) → χ n := fun n c hn => (hs.new n (hu.new n c hn) (by rw [(hu.made hn).2]; simp)).2 hf
  have hl : Like u f b a := ⟨h.st f hf, h.mode f hf, h.kids f hf, h.threw f hf,
    (fun n hw r hr => (h.mode n ((hb.waits f n hw).2.2 hf)).trans hr), (fun n c hn => (h.mode n (hnew n c hn)).trans (hu.new n c hn)), fun l _ => by rw [h.m]⟩
  refine ⟨_, hu.again a hl, ?_⟩
  rw [hu.eq]
  have hbase : (∀ g, χ g → (u.base a).st g = (u.base b).st g) ∧ (∀ g, χ g → (u.base a).mode g = (u.base b).mode g) ∧
      (∀ g, χ g → (u.base a).kids g = (u.base b).kids g) ∧ (∀ g, χ g → (u.base a).threw g = (u.base b).threw g) := by
    unfold U.base
    rcases u.new with _ | ⟨n, c⟩
    · exact ⟨h.st, h.mode, h.kids, h.threw⟩
    · exact ⟨set_if h.st n c, set_if h.mode n .run, set_if h.kids n [], set_if h.threw n []⟩
  refine ⟨set_if hbase.1 f u.st, set_if hbase.2.1 f u.mode, set_if hbase.2.2.1 f u.kids, set_if hbase.2.2.2 f u.threw, ?_, ?_, h.roots⟩
  · intro g hg
    rw [app_mode ⟨(by rintro rfl; exact hg hf), (by rintro n c hn rfl; exact hg (hnew _ c hn))⟩]
    exact h.none g hg
  · show putO a.m u.wr = putO b.m u.wr
    rw [h.m]

omit [DecidableEq L] in
theorem Proj.open_less {b a : FJ σ V E L} (h : Proj χ b a) (c : σ) (hc : a.open c) : b.open c := by
  obtain ⟨f, h1, h2⟩ := hc
  rw [h.roots, List.mem_filter] at h1
  obtain ⟨h1, h3⟩ := h1
  have h3 : χ f := by simpa using h3
  exact ⟨f, h1, fun r hr => h2 r (by rw [h.mode f h3]; exact hr)⟩

/-- An execution, put in order: `a` is what the coloured tasks do without the others, `b` that and the other tasks that were submitted, -/
theorem sorted (hmono : Mono ok) (hrf : RaceFree body may ok m) {z : FJ σ V E L} (h : CReach body may ok m χ z) :
    (∀ p ∈ z.roots, ¬ χ p.1 → ∀ r, z.mode p.1 ≠ .ended r) →
    ∃ a b z', FJ.Reach body may ok m a ∧ CReach body may ok m χ b ∧ Proj χ b a ∧ UTr body may χ b z' ∧ Same z z' := by
  classical
  induction h with
  | start y =>
    intro _
    exact ⟨_, _, _, .start y, .start y, ⟨(fun _ _ => rfl), (fun _ _ => rfl), (fun _ _ => rfl), (fun _ _ => rfl), (fun _ _ => rfl), rfl, rfl⟩, .nil _, .refl _⟩
  | @step z z1 f h0 h1 ih =>
    intro hz
    obtain ⟨u, hu⟩ := view h1.step
    obtain ⟨a, b, z', g1, g2, g3, g4, g5⟩ := ih fun p hp hc r hr => hz p (by rw [hu.eq]; exact hp) hc r (step_ended h1.step hr)
    obtain ⟨z1', h2, h3⟩ := h1.same g5
    by_cases hc : χ f
    · obtain ⟨b', z'', g6, g7, g8⟩ := g4.first hrf g2 hc h2
      obtain ⟨a', g9, g10⟩ := g3.step g2 hc g6
      exact ⟨a', b', z'', .step f g1 g9, .step f g2 g6, g10, g7, h3.trans g8⟩
    · exact ⟨a, b, z1', g1, g2, g3, .snoc f g4 hc h2, h3⟩
  | @submit z i c h0 h1 h2 ih =>
    intro hz
    have hne : ∀ p ∈ z.roots, p.1 ≠ i := fun p hp e => roots_live h0.reach p hp (by rw [e]; exact h2)
    obtain ⟨a, b, z', g1, g2, g3, g4, g5⟩ := ih fun p hp hc r hr => hz p (List.mem_cons_of_mem _ hp) hc r (by
      rw [show (z.submit i c).mode p.1 = z.mode p.1 from set_ne _ _ (hne p hp)]; exact hr)
    have hroots : b.roots = z.roots := by rw [← g4.roots, g5.roots]
    have hbi : b.mode i = .none := by
      cases hb : decide (b.mode i = .none) with
      | true => simpa using hb
      | false =>
        have := g4.live (g := i) (by simpa using hb)
        rw [g5.mode] at this; exact absurd h2 this
    have hok : ok b.open c := hmono _ _ (fun y hy => by
      obtain ⟨f, e1, e2⟩ := hy
      rw [hroots] at e1
      refine ⟨f, e1, fun r hr => ?_⟩
      by_cases hc : χ f
      · rw [← g5.mode, g4.mode hc] at hr; exact e2 r hr
      · exact hz (f, y) (List.mem_cons_of_mem _ e1) hc r (by
          rw [show (z.submit i c).mode f = z.mode f from set_ne _ _ (hne _ e1)]; exact hr)) c h1
    obtain ⟨z'', g6, g7⟩ := g4.after (c := c) (i := i) (by rw [g5.mode]; exact h2)
    have hzz : Same (z.submit i c) (z'.submit i c) := by obtain ⟨x, rfl⟩ := g5; exact ⟨x, rfl⟩
    by_cases hc : χ i
    · refine ⟨a.submit i c, b.submit i c, z'', .submit i c g1 (hmono _ _ g3.open_less c hok) ((g3.mode i hc).trans hbi), .submit i c g2 hok hbi, ?_, g6, hzz.trans g7⟩
      refine ⟨set_if g3.st i c, set_if g3.mode i .run, set_if g3.kids i [], set_if g3.threw i [], ?_, g3.m, ?_⟩
      · intro g hg
        exact (set_ne _ _ (by rintro rfl; exact hg hc)).trans (g3.none g hg)
      · show (i, c) :: a.roots = ((i, c) :: b.roots).filter _
        rw [List.filter_cons, if_pos (by simpa using hc), g3.roots]
    · refine ⟨a, b.submit i c, z'', g1, .submit i c g2 hok hbi, ?_, g6, hzz.trans g7⟩
      have hni : ∀ g, χ g → g ≠ i := by rintro g hg rfl; exact hc hg
      refine ⟨?_, ?_, ?_, ?_, g3.none, g3.m, ?_⟩
      · intro g hg; exact (g3.st g hg).trans (set_ne _ _ (hni g hg)).symm
      · intro g hg; exact (g3.mode g hg).trans (set_ne _ _ (hni g hg)).symm
      · intro g hg; exact (g3.kids g hg).trans (set_ne _ _ (hni g hg)).symm
      · intro g hg; exact (g3.threw g hg).trans (set_ne _ _ (hni g hg)).symm
      · show a.roots = ((i, c) :: b.roots).filter _
        rw [List.filter_cons, if_neg (by simpa using hc), g3.roots]

end Verif.Early
