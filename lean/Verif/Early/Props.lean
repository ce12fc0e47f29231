import Verif.Early.Order

/-! C68: what finished calls have computed is there while other calls still run. -/
namespace Verif.Early
open Verif.Mem
open Verif.Runtime (Ev)
open Verif.Busy (After Next)

variable {σ V E L : Type} [DecidableEq L]
variable {body : σ → Act σ V E L} {may : E → Prop} {ok : (σ → Prop) → σ → Prop} {m : L → E} {pend : σ → Nat} {dirty : σ → Prop} {χ : Nat → Prop}

/-- A task that starts in the state `c`, and the tasks that it makes, never write `x`. -/
def Spares (body : σ → Act σ V E L) (x : L) (c : σ) : Prop := ∀ z, After body c z → ∀ d k, body z ≠ .store x d k

theorem After.snoc {x y z : σ} (h : After body x y) (h' : Next body y z) : After body x z := by
  induction h with
  | refl => exact .next h' (.refl _)
  | next h1 _ ih => exact .next h1 (ih h')

/-- What a step does to the states of the tasks. -/
theorem step_st {f g : Nat} {a b : FJ σ V E L} (h : FJ.Step body may f a b) (hg : b.mode g ≠ .none) :
    (a.mode g ≠ .none ∧ b.st g = a.st g) ∨ (Next body (a.st f) (b.st g) ∧ (g = f ∨ a.mode g = .none)) := by
  have one : ∀ k, b.st = set a.st f k → (∀ g, g ≠ f → b.mode g = a.mode g) → Next body (a.st f) k → (a.mode g ≠ .none ∧ b.st g = a.st g) ∨ (Next body (a.st f) (b.st g) ∧ (g = f ∨ a.mode g = .none)) := by
    intro k e1 e2 e3
    by_cases e : g = f
    · subst e; refine .inr ⟨?_, .inl rfl⟩; rw [e1, set_same]; exact e3
    · refine .inl ⟨by rw [← e2 g e]; exact hg, ?_⟩; rw [e1, set_ne _ _ e]
  have hsn : ∀ k g, g ≠ f → set a.mode f k g = a.mode g := fun k g e => set_ne _ _ e
  obtain ⟨u, hu⟩ := view h
  have hf := hu.live.1
  clear hu
  cases h with
  | ret v h1 h2 =>
    refine .inl ⟨?_, rfl⟩
    by_cases e : g = f
    · rw [e]; exact hf
    · rw [← hsn _ g e]; exact hg
  | throw e h1 h2 =>
    refine .inl ⟨?_, rfl⟩
    by_cases e : g = f
    · rw [e]; exact hf
    · rw [← hsn _ g e]; exact hg
  | fork c y k x h1 h2 h3 =>
    by_cases e' : g = c
    · subst e'
      refine .inr ⟨?_, .inr h3⟩
      show Next body _ (set a.st g y g); rw [set_same]; exact .child h2
    · refine .inl ⟨?_, set_ne _ _ e'⟩
      by_cases e : g = f
      · rw [e]; exact hf
      · simp only [FJ.new, set_ne _ _ e, set_ne _ _ e'] at hg; exact hg
  | resume n c k x b h1 h2 h3 => exact one _ rfl (hsn _) (.fork b h2)
  | call c y k x h1 h2 h3 =>
    by_cases e' : g = c
    · subst e'
      refine .inr ⟨?_, .inr h3⟩
      show Next body _ (set a.st g y g); rw [set_same]; exact .callee h2
    · refine .inl ⟨?_, set_ne _ _ e'⟩
      by_cases e : g = f
      · rw [e]; exact hf
      · simp only [FJ.new, set_ne _ _ e, set_ne _ _ e'] at hg; exact hg
  | back n r c k x h1 h3 h2 => exact one _ rfl (hsn _) (.call _ h2)
  | join rs k x h1 h2 h3 h4 h5 => exact one _ rfl (hsn _) (.join _ h2)
  | rethrow rs e k x h1 h2 h3 h4 => exact one _ rfl (hsn _) (.joinX _ _ h2)
  | switch d k x h1 h2 => exact one _ rfl (hsn _) (.switch h2)
  | forkFails e c k x h1 h2 h3 => exact one _ rfl (hsn _) (.forkX _ h2)
  | callFails e c k x h1 h2 h3 => exact one _ rfl (hsn _) (.callX _ h2)
  | switchFails e d k x h1 h2 h3 => exact one _ rfl (hsn _) (.switchX _ h2)
  | load l k h1 h2 => exact one _ rfl (hsn _) (.load _ h2)
  | store l d k h1 h2 => exact one _ rfl (hsn _) (.store h2)

/-- Every task comes from one that was submitted. -/
theorem CReach.from {a : FJ σ V E L} (h : CReach body may ok m χ a) : ∀ g, a.mode g ≠ .none → ∃ p ∈ a.roots, (χ p.1 ↔ χ g) ∧ After body p.2 (a.st g) := by
  induction h with
  | start y => intro g hg; exact absurd rfl hg
  | @submit a i c _ _ h2 ih =>
    intro g hg
    by_cases e : g = i
    · subst e
      refine ⟨(g, c), List.mem_cons_self .., .rfl, ?_⟩
      show After body c (set a.st g c g); rw [set_same]; exact .refl c
    · rw [show (a.submit i c).mode g = a.mode g from set_ne _ _ e] at hg
      obtain ⟨p, h3, h4, h5⟩ := ih g hg
      refine ⟨p, List.mem_cons_of_mem _ h3, h4, ?_⟩
      show After body p.2 (set a.st i c g); rw [set_ne _ _ e]; exact h5
  | @step a b f _ h1 ih =>
    intro g hg
    obtain ⟨u, hu⟩ := view h1.step
    have hr : b.roots = a.roots := by rw [hu.eq]; rfl
    rw [hr]
    rcases step_st h1.step hg with ⟨h2, h3⟩ | ⟨h2, h3⟩
    · rw [h3]; exact ih g h2
    · obtain ⟨p, h4, h5, h6⟩ := ih f hu.live.1
      refine ⟨p, h4, h5.trans ?_, After.snoc h6 h2⟩
      rcases h3 with rfl | h3
      · rfl
      · exact (h1.new g h3 hg).symm

/-- What tasks do not write stays. -/
theorem UTr.spares {b z : FJ σ V E L} (h : UTr body may χ b z) (hb : CReach body may ok m χ b) {x : L} (hx : ∀ p ∈ b.roots, ¬ χ p.1 → Spares body x p.2) :
    z.m x = b.m x := by
  induction h with
  | nil => rfl
  | @snoc y z g h1 h2 h3 ih =>
    rw [← ih]
    obtain ⟨u, hu⟩ := view h3.step
    refine hu.m_eq fun d hd => ?_
    obtain ⟨e1, k, e2⟩ := hu.wr x d hd
    obtain ⟨p, h4, h5, h6⟩ := CReach.from (h1.creach hb) g hu.live.1
    rw [h1.roots] at h4
    exact hx p h4 (fun e => h2 (h5.1 e)) _ h6 d k e2

omit [DecidableEq L] in
theorem pair_results {mode : Nat → Mode V E} : ∀ (rt : List (Nat × σ)) (l : List (σ × Except E V)), l.map Prod.fst = rt.map Prod.snd →
    Ended mode (rt.map Prod.fst) (l.map Prod.snd) →
    ∃ l' : List (Nat × σ × Except E V), l'.map (fun p => (p.1, p.2.1)) = rt ∧ (∀ p ∈ l', mode p.1 = .ended p.2.2) ∧ l'.map Prod.snd = l := by
  intro rt
  induction rt with
  | nil =>
    intro l e1 _
    have : l = [] := by simpa using e1
    subst this
    exact ⟨[], rfl, (fun p hp => nomatch hp), rfl⟩
  | cons p rt ih =>
    intro l e1 e2
    cases l with
    | nil => cases e1
    | cons q l =>
      simp only [List.map_cons, List.cons.injEq] at e1
      simp only [List.map_cons] at e2
      cases e2 with
      | cons e3 e4 =>
        obtain ⟨l', g1, g2, g3⟩ := ih l e1.2 e4
        refine ⟨(p.1, q.1, q.2) :: l', ?_, ?_, ?_⟩
        · simp only [List.map_cons, g1, e1.1]
        · intro x hx
          rcases List.mem_cons.1 hx with rfl | hx
          · exact e3
          · exact g2 x hx
        · simp only [List.map_cons, g3]

/-- C68: at any time in any execution of the fork/join machine (without data races): the tasks that have ended (`l`, in the order in which they were submitted)
have the results, and have left at every location that none of the tasks that still run may write the value, that they have when they are run
one after another by one thread. -/
theorem C68_settled (hd : Disc body pend dirty) (hp : ∀ O c, ok O c → pend c = 0) (hmono : Mono ok) (hrf : RaceFree body may ok m) {z : FJ σ V E L}
    (h : FJ.Reach body may ok m z) :
    ∃ (l : List (Nat × σ × Except E V)) (m1 : L → E), (l.map fun p => (p.1, p.2.1)).Sublist z.roots.reverse ∧ (∀ p ∈ l, z.mode p.1 = .ended p.2.2) ∧
      (∀ p ∈ z.roots, ∀ r, z.mode p.1 = .ended r → (p.1, p.2, r) ∈ l) ∧ Runs body may m (l.map Prod.snd) m1 ∧
      ∀ x, (∀ p ∈ z.roots, (∀ r, z.mode p.1 ≠ .ended r) → Spares body x p.2) → z.m x = m1 x := by
  classical
  obtain ⟨χ, hc, hχ⟩ := colour (fun i => ∃ r, z.mode i = .ended r) h
  obtain ⟨a, b, z', h1, h2, h3, h4, h5⟩ := sorted hmono hrf hc fun p hp hn r hr => hn ((hχ p hp).2 ⟨r, hr⟩)
  have hroots : b.roots = z.roots := by rw [← h4.roots, h5.roots]
  have hmode : ∀ g, χ g → a.mode g = z.mode g := fun g hg => by rw [h3.mode g hg, ← h4.mode hg, h5.mode]
  have hin : ∀ p, p ∈ a.roots ↔ p ∈ z.roots ∧ χ p.1 := fun p => by rw [h3.roots, hroots, List.mem_filter]; simp
  obtain ⟨l, ⟨e1, e2⟩, h6⟩ := C62_serial hd hp hmono hrf h1 fun p hp => by
    obtain ⟨q1, q2⟩ := (hin p).1 hp
    obtain ⟨r, hr⟩ := (hχ p q1).1 q2
    exact ⟨r, by rw [hmode _ q2]; exact hr⟩
  obtain ⟨l', g1, g2, rfl⟩ := pair_results a.roots.reverse l (by rw [e1]) e2
  have hmem : ∀ p ∈ l', (p.1, p.2.1) ∈ z.roots ∧ χ p.1 := fun p hp => (hin _).1 (List.mem_reverse.1 (by rw [← g1]; exact List.mem_map_of_mem (f := fun p => (p.1, p.2.1)) hp))
  have hpm : ∀ p ∈ l', z.mode p.1 = .ended p.2.2 := fun p hp => by rw [← hmode _ (hmem p hp).2]; exact g2 p hp
  refine ⟨l', a.m, ?_, hpm, ?_, h6, ?_⟩
  · rw [g1, h3.roots, hroots]
    exact List.reverse_sublist.2 (List.filter_sublist ..)
  · intro p hp r hr
    have : p ∈ l'.map (fun p => (p.1, p.2.1)) := by
      rw [g1, List.mem_reverse, hin]; exact ⟨hp, (hχ p hp).2 ⟨r, hr⟩⟩
    obtain ⟨q, hq, e⟩ := List.mem_map.1 this
    have := hpm q hq
    rw [← e] at hr ⊢
    rw [this] at hr; cases hr
    exact hq
  · intro x hx
    rw [h3.m, ← h5.m]
    exact UTr.spares h4 h2 fun p hp hn => hx p (by rw [← hroots]; exact hp) fun r hr => hn ((hχ p (by rw [← hroots]; exact hp)).2 ⟨r, hr⟩)

variable [Inhabited E]

/-- C68, of the runtime: whatever the workers do, at any time the tasks that have ended have the results they have when run one after another by one thread, and
so has every location that none of the tasks that still run may write. -/
theorem C68_runtime (hd : Disc body pend dirty) (hp : ∀ O c, ok O c → pend c = 0) (hmono : Mono ok) (hrf : RaceFree body may ok m) {s : MS σ V E L}
    (h : Reach body pend may ok m s) :
    ∃ (l : List (Nat × σ × Except E V)) (m1 : L → E), (l.map fun p => (p.1, p.2.1)).Sublist (subs s.x.c.log).reverse ∧ (∀ p ∈ l, Ev.done p.1 p.2.2 ∈ s.x.c.log) ∧
      (∀ f c r, (f, c) ∈ subs s.x.c.log → Ev.done f r ∈ s.x.c.log → (f, c, r) ∈ l) ∧ Runs body may m (l.map Prod.snd) m1 ∧
      ∀ x, (∀ f c, (f, c) ∈ subs s.x.c.log → (∀ r, Ev.done f r ∉ s.x.c.log) → Spares body x c) → s.m x = m1 x := by
  obtain ⟨a, ha, hm, _, hroots, hdone, _⟩ := C61_refines hd h
  obtain ⟨l, m1, h1, h2, h3, h4, h5⟩ := C68_settled hd hp hmono hrf ha
  rw [hroots] at h1 h3 h5
  refine ⟨l, m1, h1, (fun p hp => (hdone _ _).1 (h2 p hp)), (fun f c r hf hr => h3 (f, c) hf r ((hdone f r).2 hr)), h4, fun x hx => ?_⟩
  rw [← hm]
  exact h5 x fun p hp hn => hx p.1 p.2 hp fun r hr => hn r ((hdone _ _).2 hr)

end Verif.Early
