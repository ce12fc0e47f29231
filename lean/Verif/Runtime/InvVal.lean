import Verif.Runtime.InvStkBase
import Verif.Runtime.Spec

/-!
Invariants, sixth part: the values. Whatever the schedule, a task computes what its serial elision does.
-/
namespace Verif.Runtime
variable {σ V : Type}

/-- The values `vs` are what children that started in the states `xs` return. -/
inductive SerAll (body : σ → Act σ V) : List σ → List V → Prop
  | nil : SerAll body [] []
  | snoc {xs : List σ} {vs : List V} {x : σ} {v : V} : SerAll body xs vs → Ser body x [] v → SerAll body (xs ++ [x]) (vs ++ [v])

structure InvVal (body : σ → Act σ V) (s : State σ V) : Prop where
  len : ∀ f, Alive (s.loc f) → (s.fr f).inits.length = (s.fr f).slots.length
  idx : ∀ (c p i : Nat), s.link c = .fork p i → Alive (s.loc c) → (s.fr p).inits[i]? = some (s.init c)
  fil : ∀ (p i : Nat) (v : V), Alive (s.loc p) → (s.fr p).slots[i]? = some (some v) → ∃ x, (s.fr p).inits[i]? = some x ∧ Ser body x [] v
  unf : ∀ (p i : Nat), Alive (s.loc p) → (s.fr p).slots[i]? = some none → ∃ c, s.link c = .fork p i ∧ Alive (s.loc c)
  val : ∀ f vs v, Alive (s.loc f) → SerAll body (s.fr f).inits vs → Ser body (s.fr f).st vs v → Ser body (s.init f) [] v

theorem serAll_nil {body : σ → Act σ V} {vs : List V} (h : SerAll body [] vs) : vs = [] := by
  generalize hx : ([] : List σ) = xs at h
  cases h with
  | nil => rfl
  | snoc => simp at hx

theorem serAll_snoc {body : σ → Act σ V} {xs : List σ} {x : σ} {vs : List V} (h : SerAll body (xs ++ [x]) vs) :
    ∃ us v, vs = us ++ [v] ∧ SerAll body xs us ∧ Ser body x [] v := by
  generalize hx : xs ++ [x] = ys at h
  cases h with
  | nil => simp at hx
  | snoc h1 h2 =>
    obtain ⟨rfl, h3⟩ := List.append_inj' hx rfl
    cases h3
    exact ⟨_, _, rfl, h1, h2⟩

theorem results_spec {sl : List (Option V)} {vs : List V} (h : results sl = some vs) : sl = vs.map some := by
  induction sl generalizing vs with
  | nil => cases h; rfl
  | cons a l ih =>
    cases a with
    | none => cases h
    | some v =>
      simp only [results] at h
      cases hr : results l with
      | none => rw [hr] at h; cases h
      | some us => rw [hr] at h; cases h; simp [ih hr]

/-- All slots are filled: the values read are those of the children. -/
theorem serAll_of {body : σ → Act σ V} {xs : List σ} {vs : List V} (hl : xs.length = vs.length)
    (h : ∀ (i : Nat) (v : V), vs[i]? = some v → ∃ x, xs[i]? = some x ∧ Ser body x [] v) : SerAll body xs vs := by
  induction hn : xs.length generalizing xs vs with
  | zero =>
    have h1 := List.length_eq_zero_iff.1 hn
    have h2 := List.length_eq_zero_iff.1 (hl ▸ hn)
    subst h1 h2; exact .nil
  | succ n ih =>
    have hxne : xs ≠ [] := by rintro rfl; cases hn
    have hvne : vs ≠ [] := by rintro rfl; rw [hl] at hn; cases hn
    rw [← List.dropLast_concat_getLast hxne, ← List.dropLast_concat_getLast hvne] at h ⊢
    have hl' : xs.dropLast.length = vs.dropLast.length := by simp [hl]
    refine .snoc (ih hl' (fun i v hi => ?_) (by simp [hn])) ?_
    · have hlt : i < vs.dropLast.length := by
        by_cases hc : i < vs.dropLast.length
        · exact hc
        · rw [List.getElem?_eq_none (Nat.le_of_not_lt hc)] at hi; cases hi
      obtain ⟨x, h1, h2⟩ := h i v (by rw [List.getElem?_append_left hlt]; exact hi)
      exact ⟨x, by rwa [List.getElem?_append_left (by omega)] at h1, h2⟩
    · obtain ⟨x, h1, h2⟩ := h vs.dropLast.length (vs.getLast hvne) (by simp)
      rw [← hl'] at h1
      simp at h1
      rw [h1]; exact h2

/-- When no child is outstanding every slot is filled. -/
theorem results_some {body : σ → Act σ V} {s : State σ V} (hl : InvLink s) (hv : InvVal body s) {p : Nat} (ha : Alive (s.loc p))
    (hk : (s.fr p).kids = []) : ∃ vs, results (s.fr p).slots = some vs := by
  have h : ∀ i : Nat, (s.fr p).slots[i]? ≠ some none := by
    intro i hi
    obtain ⟨c, h1, h2⟩ := hv.unf p i ha hi
    have : c ∈ (s.fr p).kids := (hl.kids p ha c).2 ⟨by rw [h1]; rfl, by rintro e; rw [e] at h2; exact h2,
      by rintro e; rw [e] at h2; exact h2⟩
    rw [hk] at this; cases this
  generalize (s.fr p).slots = sl at h
  induction sl with
  | nil => exact ⟨[], rfl⟩
  | cons a l ih =>
    obtain ⟨vs, h1⟩ := ih fun i => by have := h (i + 1); simpa using this
    cases a with
    | none => exact absurd (by simp) (h 0)
    | some v => exact ⟨v :: vs, by simp [results, h1]⟩

theorem serAll_results {body : σ → Act σ V} {s : State σ V} (hv : InvVal body s) {p : Nat} (ha : Alive (s.loc p)) {vs : List V}
    (hr : results (s.fr p).slots = some vs) : SerAll body (s.fr p).inits vs := by
  have e := results_spec hr
  refine serAll_of (by rw [hv.len p ha, e]; simp) fun i v hi => ?_
  exact hv.fil p i v ha (by rw [e]; simp [hi])

/-- Steps that neither change what a task does nor make or end one. -/
theorem invVal_frame {body : σ → Act σ V} {s s' : State σ V} (h : InvVal body s) (h1 : ∀ f, Alive (s'.loc f) ↔ Alive (s.loc f))
    (h2 : s'.link = s.link) (h3 : s'.init = s.init) (h4 : ∀ f, (s'.fr f).slots = (s.fr f).slots)
    (h5 : ∀ f, (s'.fr f).inits = (s.fr f).inits)
    (h6 : ∀ f, (s'.fr f).st = (s.fr f).st ∨ ∃ d, body (s.fr f).st = .switch d (s'.fr f).st) : InvVal body s' := by
  obtain ⟨len, idx, fil, unf, val⟩ := h
  constructor
  · intro f hf; rw [h4, h5]; exact len f ((h1 f).1 hf)
  · intro c p i hc ha; rw [h5, h3]; exact idx c p i (h2 ▸ hc) ((h1 c).1 ha)
  · intro p i v ha hs; rw [h5]; exact fil p i v ((h1 p).1 ha) (h4 p ▸ hs)
  · intro p i ha hs
    obtain ⟨c, hc, hc2⟩ := unf p i ((h1 p).1 ha) (h4 p ▸ hs)
    exact ⟨c, h2 ▸ hc, (h1 c).2 hc2⟩
  · intro f vs v ha hs hv
    rw [h3]; rw [h5] at hs
    refine val f vs v ((h1 f).1 ha) hs ?_
    rcases h6 f with e | ⟨d, e⟩
    · rwa [e] at hv
    · exact .switch e hv

/-- A join is passed. -/
theorem invVal_passed {body : σ → Act σ V} {s s' : State σ V} (hl : InvLink s) (h : InvVal body s) {f : Nat} {k : List V → σ}
    {vs : List V} (ha : Alive (s.loc f)) (hk : (s.fr f).kids = []) (hb : body (s.fr f).st = .join k)
    (hr : results (s.fr f).slots = some vs) (h1 : ∀ g, Alive (s'.loc g) ↔ Alive (s.loc g))
    (h2 : s'.link = s.link) (h3 : s'.init = s.init) (h4 : (s'.fr f).slots = []) (h5 : (s'.fr f).inits = [])
    (h6 : (s'.fr f).st = k vs) (h7 : ∀ g, g ≠ f → s'.fr g = s.fr g) : InvVal body s' := by
  have hsa := serAll_results h ha hr
  obtain ⟨len, idx, fil, unf, val⟩ := h
  constructor
  · intro g hg
    by_cases e : g = f
    · subst e; rw [h4, h5]; rfl
    · rw [h7 g e]; exact len g ((h1 g).1 hg)
  · intro c p i hc hca
    rw [h2] at hc
    have hca' := (h1 c).1 hca
    by_cases e : p = f
    · subst e
      have : c ∈ (s.fr p).kids := (hl.kids p ha c).2 ⟨by rw [hc]; rfl, by rintro e; rw [e] at hca'; exact hca',
        by rintro e; rw [e] at hca'; exact hca'⟩
      rw [hk] at this; cases this
    · rw [h7 p e, h3]; exact idx c p i hc hca'
  · intro p i v hp hs
    by_cases e : p = f
    · subst e; rw [h4] at hs; simp at hs
    · rw [h7 p e] at hs ⊢; exact fil p i v ((h1 p).1 hp) hs
  · intro p i hp hs
    by_cases e : p = f
    · subst e; rw [h4] at hs; simp at hs
    · rw [h7 p e] at hs
      obtain ⟨c, hc, hc2⟩ := unf p i ((h1 p).1 hp) hs
      exact ⟨c, h2 ▸ hc, (h1 c).2 hc2⟩
  · intro g us v hg hs hv
    rw [h3]
    by_cases e : g = f
    · subst e
      rw [h5] at hs
      rw [serAll_nil hs, h6] at hv
      exact val g vs v ha hsa (.join hb hv)
    · rw [h7 g e] at hs hv; exact val g us v ((h1 g).1 hg) hs hv

/-- The state a returning task returns from gives its result. -/
theorem ret_ser {body : σ → Act σ V} {pend : σ → Nat} (hd : Disc body pend) {s : State σ V} (hs : InvSt body pend s)
    (h : InvVal body s) {f : Nat} {v : V} (ha : Alive (s.loc f)) (hb : body (s.fr f).st = .ret v) : Ser body (s.init f) [] v := by
  have h1 := hs.pd f ha
  rw [hd.ret _ _ hb] at h1
  have h2 := h.len f ha
  have h3 : (s.fr f).inits = [] := List.length_eq_zero_iff.1 (by omega)
  exact h.val f [] v ha (by rw [h3]; exact .nil) (.ret hb)

/-- A new task. -/
theorem invVal_new {body : σ → Act σ V} {s s' : State σ V} (hx : InvVal body s) (hi : InvLoc s) (hl : InvLink s)
    {c : σ} {l : Link} (ha : Alive (s'.loc s.nf))
    (h1 : ∀ g, g ≠ s.nf → (Alive (s'.loc g) ↔ Alive (s.loc g)))
    (h2 : s'.link = upd s.link s.nf l) (h3 : s'.init = upd s.init s.nf c)
    (h4 : s'.fr s.nf = ⟨c, [], 0, maxU16, 0, 0, [], []⟩)
    (h5 : ∀ g, g ≠ s.nf → forkPar l ≠ some g → s'.fr g = s.fr g)
    (h6 : ∀ p i, l = .fork p i → p ≠ s.nf ∧ i = (s.fr p).slots.length ∧ Alive (s.loc p) ∧ (s'.fr p).slots = (s.fr p).slots ++ [none] ∧
      (s'.fr p).inits = (s.fr p).inits ++ [c] ∧ body (s.fr p).st = .fork c (s'.fr p).st) : InvVal body s' := by
  have e2 : s.loc s.nf = .unborn := (hi.fresh _).2 (Nat.le_refl _)
  have e3 : ¬ Alive (s.loc s.nf) := by rw [e2]; exact fun h => h
  have par : ∀ g p i, s.link g = .fork p i → Alive (s.loc g) → p ≠ s.nf := by
    rintro g p i h hg rfl
    refine e3 (hl.kid g _ (by rw [h]; rfl) ?_ ?_) <;> (rintro e; rw [e] at hg; exact hg)
  obtain ⟨len, idx, fil, unf, val⟩ := hx
  have cs : ∀ g, g ≠ s.nf → s'.fr g = s.fr g ∨ ∃ i, l = .fork g i := by
    intro g hg
    by_cases e : forkPar l = some g
    · cases hl : l with
      | fork p i => rw [hl] at e; cases e; exact Or.inr ⟨i, rfl⟩
      | root => rw [hl] at e; cases e
      | call p => rw [hl] at e; cases e
    · exact Or.inl (h5 g hg e)
  constructor
  · intro g hg
    by_cases e : g = s.nf
    · subst e; rw [h4]; rfl
    · rcases cs g e with h | ⟨i, h⟩
      · rw [h]; exact len g ((h1 g e).1 hg)
      · obtain ⟨_, _, a3, a4, a5, _⟩ := h6 g i h
        rw [a4, a5]; simp [len g a3]
  · intro g p i hg hga
    by_cases e : g = s.nf
    · subst e
      rw [h2, upd_same] at hg
      obtain ⟨_, a2, a3, a4, a5, _⟩ := h6 p i hg
      rw [a5, a2, h3, upd_same, ← len p a3]; simp
    · rw [h2, upd_ne _ _ e] at hg
      have hga' := (h1 g e).1 hga
      have hp := par g p i hg hga'
      have hi := idx g p i hg hga'
      rw [h3, upd_ne _ _ e]
      rcases cs p hp with h | ⟨j, h⟩
      · rw [h]; exact hi
      · obtain ⟨_, _, _, _, a5, _⟩ := h6 p j h
        rw [a5, List.getElem?_append_left]
        · exact hi
        · by_cases hc : i < (s.fr p).inits.length
          · exact hc
          · rw [List.getElem?_eq_none (Nat.le_of_not_lt hc)] at hi; cases hi
  · intro p i v hp hs
    by_cases e : p = s.nf
    · subst e; rw [h4] at hs; simp at hs
    · rcases cs p e with h | ⟨j, h⟩
      · rw [h] at hs ⊢; exact fil p i v ((h1 p e).1 hp) hs
      · obtain ⟨_, _, a3, a4, a5, _⟩ := h6 p j h
        rw [a4] at hs
        have hlt : i < (s.fr p).slots.length := by
          by_cases hc : i < (s.fr p).slots.length
          · exact hc
          · rw [List.getElem?_append_right (Nat.le_of_not_lt hc)] at hs
            cases hn : i - (s.fr p).slots.length <;> rw [hn] at hs <;> simp at hs
        rw [List.getElem?_append_left hlt] at hs
        obtain ⟨x, hx1, hx2⟩ := fil p i v a3 hs
        refine ⟨x, ?_, hx2⟩
        rw [a5, List.getElem?_append_left (by rw [len p a3]; exact hlt)]; exact hx1
  · intro p i hp hs
    by_cases e : p = s.nf
    · subst e; rw [h4] at hs; simp at hs
    · have old : (s.fr p).slots[i]? = some none → Alive (s.loc p) → ∃ g, s'.link g = .fork p i ∧ Alive (s'.loc g) := by
        intro hs hp
        obtain ⟨g, hg, hg2⟩ := unf p i hp hs
        have hne : g ≠ s.nf := by rintro rfl; exact e3 hg2
        exact ⟨g, by rw [h2, upd_ne _ _ hne]; exact hg, (h1 g hne).2 hg2⟩
      rcases cs p e with h | ⟨j, h⟩
      · rw [h] at hs; exact old hs ((h1 p e).1 hp)
      · obtain ⟨_, a2, a3, a4, a5, _⟩ := h6 p j h
        rw [a4] at hs
        by_cases hc : i < (s.fr p).slots.length
        · rw [List.getElem?_append_left hc] at hs; exact old hs a3
        · rw [List.getElem?_append_right (Nat.le_of_not_lt hc)] at hs
          cases hn : i - (s.fr p).slots.length with
          | zero =>
            have : i = j := by omega
            subst this
            exact ⟨s.nf, by rw [h2, upd_same]; exact h, ha⟩
          | succ n => rw [hn] at hs; simp at hs
  · intro g vs v hg hs hv
    by_cases e : g = s.nf
    · subst e
      rw [h4] at hs hv
      rw [serAll_nil hs] at hv
      rw [h3, upd_same]; exact hv
    · rw [h3, upd_ne _ _ e]
      rcases cs g e with h | ⟨j, h⟩
      · rw [h] at hs hv; exact val g vs v ((h1 g e).1 hg) hs hv
      · obtain ⟨_, _, a3, a4, a5, a6⟩ := h6 g j h
        rw [a5] at hs
        obtain ⟨us, y, rfl, hu, hy⟩ := serAll_snoc hs
        exact val g us v a3 hu (.fork a6 hy hv)

/-- A task ends: its parent waits for it in a call, or its slot is filled. -/
theorem invVal_end {body : σ → Act σ V} {s s' : State σ V} (hx : InvVal body s) (hl : InvLink s) {f : Nat} {v : V}
    (hser : Ser body (s.init f) [] v) (hk : (s.fr f).kids = []) (ha0 : Alive (s.loc f))
    (ha : ¬ Alive (s'.loc f)) (h1 : ∀ g, g ≠ f → (Alive (s'.loc g) ↔ Alive (s.loc g)))
    (h2 : s'.link = s.link) (h3 : s'.init = s.init)
    (h4 : ∀ g, (s'.fr g).inits = (s.fr g).inits)
    (h5 : ∀ g, g ≠ f → (s'.fr g).st = (s.fr g).st ∨
      ∃ k, s.link f = .call g ∧ body (s.fr g).st = .call (s.init f) k ∧ (s'.fr g).st = k v)
    (h6 : ∀ p i, s.link f = .fork p i → (s'.fr p).slots = (s.fr p).slots.set i (some v))
    (h7 : ∀ g, forkPar (s.link f) ≠ some g → (s'.fr g).slots = (s.fr g).slots) : InvVal body s' := by
  obtain ⟨len, idx, fil, unf, val⟩ := hx
  have alv : ∀ g, Alive (s'.loc g) → g ≠ f ∧ Alive (s.loc g) := by
    intro g hg
    have : g ≠ f := by rintro rfl; exact ha hg
    exact ⟨this, (h1 g this).1 hg⟩
  have cs : ∀ g, (s'.fr g).slots = (s.fr g).slots ∨ ∃ i, s.link f = .fork g i ∧ (s'.fr g).slots = (s.fr g).slots.set i (some v) := by
    intro g
    by_cases e : forkPar (s.link f) = some g
    · cases hl : s.link f with
      | fork p i => rw [hl] at e; cases e; exact Or.inr ⟨i, rfl, h6 g i hl⟩
      | root => rw [hl] at e; cases e
      | call p => rw [hl] at e; cases e
    · exact Or.inl (h7 g e)
  constructor
  · intro g hg
    rw [h4]
    have := len g (alv g hg).2
    rcases cs g with e | ⟨i, _, e⟩ <;> rw [e]
    · exact this
    · rw [List.length_set]; exact this
  · intro c p i hc hca
    rw [h4, h3]; exact idx c p i (h2 ▸ hc) (alv c hca).2
  · intro p i u hp hs
    rw [h4]
    rcases cs p with e | ⟨j, hj, e⟩
    · rw [e] at hs; exact fil p i u (alv p hp).2 hs
    · rw [e, List.getElem?_set] at hs
      by_cases hji : j = i
      · subst hji
        by_cases hlt : j < (s.fr p).slots.length
        · simp [hlt] at hs; subst hs
          exact ⟨_, idx f p j hj ha0, hser⟩
        · simp [hlt] at hs
      · simp only [hji, if_false] at hs
        exact fil p i u (alv p hp).2 hs
  · intro p i hp hs
    have old : (s.fr p).slots[i]? = some none → s.link f ≠ .fork p i → ∃ c, s'.link c = .fork p i ∧ Alive (s'.loc c) := by
      intro hs hne
      obtain ⟨c, hc, hc2⟩ := unf p i (alv p hp).2 hs
      have : c ≠ f := by rintro rfl; exact hne hc
      exact ⟨c, h2 ▸ hc, (h1 c this).2 hc2⟩
    rcases cs p with e | ⟨j, hj, e⟩
    · rw [e] at hs
      refine old hs fun hc => ?_
      have e2 := h6 p i hc
      rw [e] at e2
      have hlt : i < (s.fr p).slots.length := by
        by_cases hlt : i < (s.fr p).slots.length
        · exact hlt
        · rw [List.getElem?_eq_none (Nat.le_of_not_lt hlt)] at hs; cases hs
      rw [e2, List.getElem?_set] at hs
      simp [hlt] at hs
    · rw [e, List.getElem?_set] at hs
      by_cases hji : j = i
      · subst hji
        by_cases hlt : j < (s.fr p).slots.length <;> simp [hlt] at hs
      · simp only [hji, if_false] at hs
        exact old hs fun hc => by rw [hc] at hj; cases hj; exact hji rfl
  · intro g vs u hg hs hv
    rw [h3]; rw [h4] at hs
    obtain ⟨hne, hg2⟩ := alv g hg
    rcases h5 g hne with e | ⟨k, _, e2, e3⟩
    · rw [e] at hv; exact val g vs u hg2 hs hv
    · rw [e3] at hv; exact val g vs u hg2 hs (.call e2 hser hv)

end Verif.Runtime
