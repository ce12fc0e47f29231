import Verif.Mem.Rel

/-! More of the correspondence: tasks that go on after a fork, end, or pass a join. -/
namespace Verif.Mem
open Verif.Runtime (Ev Why Link upd status forked)
open Verif.Exn (errs oks held allHeld)

variable {σ V E L : Type}
variable {nf : Nat} {link : Nat → Link} {st : Nat → σ} {slots : Nat → List (Option (Except E V))} {log : List (Ev σ (Except E V))}
  {exc : Nat → Option E} {a : FJ σ V E L}

theorem Rel.kid_lt (h : Rel nf link st slots log exc a) {p c : Nat} (hp : p < nf) (hc : c ∈ a.kids p) : c < nf := by
  obtain ⟨i, hi⟩ := List.getElem?_of_mem hc
  exact (h.kid p hp i c hi).1

theorem Rel.slots_eq (h : Rel nf link st slots log exc a) {slots' : Nat → List (Option (Except E V))} (e : ∀ p, p < nf → slots' p = slots p) :
    Rel nf link st slots' log exc a :=
  ⟨h.un, h.st, h.mode, fun p hp => by rw [e p hp]; exact h.len p hp, fun p hp => by rw [e p hp]; exact h.kid p hp, h.up, h.cal, h.exc, h.rts, h.rlt⟩

theorem Rel.st_eq (h : Rel nf link st slots log exc a) {st' : Nat → σ} (e : ∀ p, p < nf → st' p = st p) : Rel nf link st' slots log exc a :=
  ⟨h.un, fun p hp => by rw [e p hp]; exact h.st p hp, h.mode, h.len, h.kid, h.up, h.cal, h.exc, h.rts, h.rlt⟩

theorem Rel.exc_eq (h : Rel nf link st slots log exc a) {exc' : Nat → Option E} (e : ∀ p, p < nf → exc' p = exc p) : Rel nf link st slots log exc' a :=
  ⟨h.un, h.st, h.mode, h.len, h.kid, h.up, h.cal, fun p hp => by rw [e p hp]; exact h.exc p hp, h.rts, h.rlt⟩

/-- A task goes on after a fork. -/
theorem Rel.wake (h : Rel nf link st slots log exc a) {f w n : Nat} (hf : f < nf) (hm : modeOf f log = .forked n) (k : σ) :
    Rel nf link (fun g => if g = f then k else st g) slots (.resume f w :: log) exc (a.on f k) := by
  have hmode : ∀ g, modeOf g (.resume f w :: log) = if g = f then .run else modeOf g log := by
    intro g; simp only [modeOf]
    by_cases e : f = g
    · rw [if_pos e, if_pos e.symm]
    · rw [if_neg e, if_neg (Ne.symm e)]
  have hold : ∀ g r, (modeOf g (.resume f w :: log) = .ended r ↔ modeOf g log = .ended r) := by
    intro g r
    rw [hmode]
    split
    · rename_i e; rw [e, hm]; simp
    · rfl
  have hslot : ∀ g, slotOf (modeOf g (.resume f w :: log)) = slotOf (modeOf g log) := by
    intro g
    rw [hmode]
    split
    · rename_i e; rw [e, hm]; rfl
    · rfl
  refine ⟨un_set h.un hf _, ?_, ?_, h.len, ?_, ?_, ?_, ?_, ?_, h.rlt⟩
  · intro g hg; simp only [FJ.on, set]; split
    · rfl
    · exact h.st g hg
  · intro g hg; rw [hmode]; simp only [FJ.on, set]; split
    · rfl
    · exact h.mode g hg
  · intro p hp i c hc; rw [hslot]; exact h.kid p hp i c hc
  · intro c p i hc hl hn; exact h.up c p i hc hl fun r hr => hn r ((hold c r).2 hr)
  · intro c p hc hl hn
    obtain ⟨h1, h2⟩ := h.cal c p hc hl fun r hr => hn r ((hold c r).2 hr)
    exact ⟨h1, by rw [hmode, if_neg (by rintro rfl; rw [hm] at h2; cases h2)]; exact h2⟩
  · intro p hp
    have := h.exc p hp
    unfold ExcOk at this ⊢
    split <;> rename_i e1 <;> rw [e1] at this <;> simp only [ne_eq, hold] <;> exact this
  · exact h.rts

/-- What is pending in a parent after a child or callee has ended. -/
def caught (x : Option E) : Except E V → Option E
  | .ok _ => x
  | .error e => match x with | none => some e | some e0 => some e0

def written (l : List (Option (Except E V))) (i : Nat) : Except E V → List (Option (Except E V))
  | .ok v => l.set i (some (.ok v))
  | .error _ => l

theorem mode_done (f : Nat) (r : Except E V) (g : Nat) : modeOf g (.done f r :: log) = if g = f then .ended r else modeOf g log := by
  simp only [modeOf]
  by_cases e : f = g
  · rw [if_pos e, if_pos e.symm]
  · rw [if_neg e, if_neg (Ne.symm e)]

/-- A submitted task ends. -/
theorem Rel.endRoot (h : Rel nf link st slots log exc a) {f : Nat} (hf : f < nf) (hm : modeOf f log = .run) (hl : link f = .root) (r : Except E V) :
    Rel nf link st slots (.done f r :: log) exc { a with mode := set a.mode f (.ended r) } := by
  have hk : ∀ p, p < nf → f ∉ a.kids p := by
    intro p hp hc
    obtain ⟨i, hi⟩ := List.getElem?_of_mem hc
    have := (h.kid p hp i f hi).2.1
    rw [hl] at this; cases this
  have hne : ∀ p c, p < nf → c ∈ a.kids p → modeOf c (.done f r :: log) = modeOf c log := by
    intro p c hp hc; rw [mode_done, if_neg (by rintro rfl; exact hk p hp hc)]
  refine ⟨un_set h.un hf _, h.st, ?_, h.len, ?_, ?_, ?_, ?_, ?_, h.rlt⟩
  · intro g hg; rw [mode_done]; simp only [set]; split
    · rfl
    · exact h.mode g hg
  · intro p hp i c hc; rw [hne p c hp (List.mem_of_getElem? hc)]; exact h.kid p hp i c hc
  · intro c p i hc hl' hn
    have e : c ≠ f := by rintro rfl; rw [hl] at hl'; cases hl'
    rw [mode_done, if_neg e] at hn
    exact h.up c p i hc hl' hn
  · intro c p hc hl' hn
    have e : c ≠ f := by rintro rfl; rw [hl] at hl'; cases hl'
    rw [mode_done, if_neg e] at hn
    obtain ⟨h1, h2⟩ := h.cal c p hc hl' hn
    exact ⟨h1, by rw [mode_done, if_neg (by rintro rfl; rw [hm] at h2; cases h2)]; exact h2⟩
  · intro p hp
    have := h.exc p hp
    cases hx : exc p with
    | none => rw [hx] at this; exact ⟨this.1, fun c hc => by rw [hne p c hp hc]; exact this.2 c hc⟩
    | some e =>
      rw [hx] at this
      rcases this with h1 | ⟨c, h1, h2⟩
      · exact Or.inl h1
      · exact Or.inr ⟨c, h1, by rw [hne p c hp h1]; exact h2⟩
  · exact h.rts

/-- A forked task ends: its result is written or its exception captured. -/
theorem Rel.endFork (h : Rel nf link st slots log exc a) {f p i : Nat} (hf : f < nf) (hm : modeOf f log = .run) (hl : link f = .fork p i) (r : Except E V) :
    Rel nf link st (fun g => if g = p then written (slots p) i r else slots g) (.done f r :: log) (fun g => if g = p then caught (exc p) r else exc g)
      { a with mode := set a.mode f (.ended r) } := by
  obtain ⟨hp, hi⟩ := h.up f p i hf hl (by rw [hm]; simp)
  have hilt : i < (slots p).length := by
    rw [← h.len p hp]
    rcases Nat.lt_or_ge i (a.kids p).length with h1 | h1
    · exact h1
    · rw [List.getElem?_eq_none h1] at hi; cases hi
  have huniq : ∀ p' j, p' < nf → (a.kids p')[j]? = some f → p' = p ∧ j = i := by
    intro p' j hp' hj
    have := (h.kid p' hp' j f hj).2.1
    rw [hl] at this; cases this; exact ⟨rfl, rfl⟩
  have hne : ∀ p' c, p' < nf → c ∈ a.kids p' → c ≠ f → modeOf c (.done f r :: log) = modeOf c log := by
    intro p' c hp' hc e; rw [mode_done, if_neg e]
  have hmem : f ∈ a.kids p := List.mem_of_getElem? hi
  refine ⟨un_set h.un hf _, h.st, ?_, ?_, ?_, ?_, ?_, ?_, ?_, h.rlt⟩
  · intro g hg; rw [mode_done]; simp only [set]; split
    · rfl
    · exact h.mode g hg
  · intro g hg
    simp only
    split
    · rename_i e; subst e
      rw [h.len g hg]
      cases r <;> simp [written]
    · exact h.len g hg
  · intro p' hp' j c hc
    obtain ⟨k1, k2, k3, k4⟩ := h.kid p' hp' j c hc
    refine ⟨k1, k2, k3, ?_⟩
    rw [mode_done]
    by_cases e : c = f
    · subst e
      obtain ⟨rfl, rfl⟩ := huniq p' j hp' hc
      simp only [if_true]
      cases r with
      | ok v => simp only [written, slotOf]; rw [List.getElem?_set_self hilt]
      | error e => simp only [written, slotOf]; rw [k4, hm]; rfl
    · rw [if_neg e]
      split
      · rename_i e2; subst e2
        cases r with
        | ok v =>
          simp only [written]
          rw [List.getElem?_set_ne]
          · exact k4
          · rintro rfl; rw [hi] at hc; cases hc; exact e rfl
        | error e => exact k4
      · exact k4
  · intro c p' j hc hl' hn
    have e : c ≠ f := by rintro rfl; exact hn r (by rw [mode_done, if_pos rfl])
    rw [mode_done, if_neg e] at hn
    exact h.up c p' j hc hl' hn
  · intro c p' hc hl' hn
    have e : c ≠ f := by rintro rfl; exact hn r (by rw [mode_done, if_pos rfl])
    rw [mode_done, if_neg e] at hn
    obtain ⟨h1, h2⟩ := h.cal c p' hc hl' hn
    exact ⟨h1, by rw [mode_done, if_neg (by rintro rfl; rw [hm] at h2; cases h2)]; exact h2⟩
  · intro p' hp'
    have hx := h.exc p' hp'
    have hkeep : ∀ e, (∃ c ∈ a.kids p', modeOf c log = .ended (.error e)) → ∃ c ∈ a.kids p', modeOf c (.done f r :: log) = .ended (.error e) := by
      rintro e ⟨c, h1, h2⟩
      refine ⟨c, h1, ?_⟩
      rw [mode_done, if_neg (by rintro rfl; rw [hm] at h2; cases h2)]; exact h2
    show ExcOk _ _ p' (if p' = p then caught (exc p) r else exc p')
    by_cases e : p' = p
    · subst e
      rw [if_pos rfl]
      cases r with
      | ok v =>
        simp only [caught]
        cases hxx : exc p' with
        | none =>
          rw [hxx] at hx
          refine ⟨hx.1, fun c hc er => ?_⟩
          rw [mode_done]
          split
          · simp
          · exact hx.2 c hc er
        | some er => rw [hxx] at hx; exact hx.imp id (hkeep er)
      | error e1 =>
        simp only [caught]
        cases hxx : exc p' with
        | none => right; exact ⟨f, hmem, by rw [mode_done, if_pos rfl]⟩
        | some er => rw [hxx] at hx; exact hx.imp id (hkeep er)
    · rw [if_neg e]
      cases hxx : exc p' with
      | none =>
        rw [hxx] at hx
        refine ⟨hx.1, fun c hc er => ?_⟩
        rw [hne p' c hp' hc]
        · exact hx.2 c hc er
        · rintro rfl
          obtain ⟨j, hj⟩ := List.getElem?_of_mem hc
          exact e (huniq p' j hp' hj).1
      | some er => rw [hxx] at hx; exact hx.imp id (hkeep er)
  · exact h.rts

/-- A called task ends, and its caller goes on. -/
theorem Rel.endCall (h : Rel nf link st slots log exc a) {f p w : Nat} (hf : f < nf) (hm : modeOf f log = .run) (hl : link f = .call p) (r : Except E V)
    (k : σ) :
    Rel nf link (fun g => if g = p then k else st g) slots (.resume p w :: .done f r :: log) (fun g => if g = p then caught (exc p) r else exc g)
      { FJ.on { a with mode := set a.mode f (.ended r) } p k with threw := set a.threw p (also (a.threw p) r) } := by
  obtain ⟨hp, hmp⟩ := h.cal f p hf hl (by rw [hm]; simp)
  have hne : p ≠ f := by rintro rfl; rw [hm] at hmp; cases hmp
  have hmode : ∀ g, modeOf g (.resume p w :: .done f r :: log) = if g = p then .run else if g = f then .ended r else modeOf g log := by
    intro g
    simp only [modeOf]
    by_cases e : p = g
    · rw [if_pos e, if_pos e.symm]
    · rw [if_neg e, if_neg (Ne.symm e)]
      by_cases e2 : f = g
      · rw [if_pos e2, if_pos e2.symm]
      · rw [if_neg e2, if_neg (Ne.symm e2)]
  have hk : ∀ p', p' < nf → f ∉ a.kids p' := by
    intro p' hp' hc
    obtain ⟨i, hi⟩ := List.getElem?_of_mem hc
    have := (h.kid p' hp' i f hi).2.1
    rw [hl] at this; cases this
  have hold : ∀ g x, g ≠ f → (modeOf g (.resume p w :: .done f r :: log) = .ended x ↔ modeOf g log = .ended x) := by
    intro g x hg
    rw [hmode, if_neg hg]
    split
    · rename_i e; rw [e, hmp]; simp
    · rfl
  have hslot : ∀ g, g ≠ f → slotOf (modeOf g (.resume p w :: .done f r :: log)) = slotOf (modeOf g log) := by
    intro g hg
    rw [hmode, if_neg hg]
    split
    · rename_i e; rw [e, hmp]; rfl
    · rfl
  have hkne : ∀ p' c, p' < nf → c ∈ a.kids p' → c ≠ f := by
    rintro p' c hp' hc rfl; exact hk p' hp' hc
  refine ⟨un_set (un_set h.un hf _) hp _, ?_, ?_, h.len, ?_, ?_, ?_, ?_, ?_, h.rlt⟩
  · intro g hg; simp only [FJ.on, set]; split
    · rfl
    · exact h.st g hg
  · intro g hg; rw [hmode]; simp only [FJ.on, set]; split
    · rfl
    · split
      · rfl
      · exact h.mode g hg
  · intro p' hp' j c hc
    rw [hslot c (hkne p' c hp' (List.mem_of_getElem? hc))]; exact h.kid p' hp' j c hc
  · intro c p' j hc hl' hn
    have e : c ≠ f := by rintro rfl; rw [hl] at hl'; cases hl'
    exact h.up c p' j hc hl' fun x hx => hn x ((hold c x e).2 hx)
  · intro c p' hc hl' hn
    have e : c ≠ f := by rintro rfl; exact hn r (by rw [hmode, if_neg (Ne.symm hne), if_pos rfl])
    obtain ⟨h1, h2⟩ := h.cal c p' hc hl' fun x hx => hn x ((hold c x e).2 hx)
    have e1 : p' ≠ p := by rintro rfl; rw [hmp] at h2; cases h2; exact e rfl
    have e2 : p' ≠ f := by rintro rfl; rw [hm] at h2; cases h2
    exact ⟨h1, by rw [hmode, if_neg e1, if_neg e2]; exact h2⟩
  · intro p' hp'
    have hx := h.exc p' hp'
    have hkeep : ∀ e, (∃ c ∈ a.kids p', modeOf c log = .ended (.error e)) → ∃ c ∈ a.kids p', modeOf c (.resume p w :: .done f r :: log) = .ended (.error e) := by
      rintro e ⟨c, h1, h2⟩
      exact ⟨c, h1, (hold c _ (hkne p' c hp' h1)).2 h2⟩
    simp only
    by_cases e : p' = p
    · subst e
      rw [if_pos rfl]
      cases r with
      | ok v =>
        simp only [caught]
        cases hxx : exc p' with
        | none =>
          rw [hxx] at hx
          refine ⟨by simp [set, also, hx.1], fun c hc er => ?_⟩
          exact fun hh => hx.2 c hc er ((hold c _ (hkne p' c hp' hc)).1 hh)
        | some er => rw [hxx] at hx; exact hx.imp (fun h1 => by simpa [set, also] using h1) (hkeep er)
      | error e1 =>
        simp only [caught]
        cases hxx : exc p' with
        | none => left; simp [set, also]
        | some er => rw [hxx] at hx; exact hx.imp (fun h1 => by simp [set, also, h1]) (hkeep er)
    · rw [if_neg e]
      cases hxx : exc p' with
      | none =>
        rw [hxx] at hx
        refine ⟨by simpa [set, e] using hx.1, fun c hc er => ?_⟩
        exact fun hh => hx.2 c hc er ((hold c _ (hkne p' c hp' hc)).1 hh)
      | some er => rw [hxx] at hx; exact hx.imp (fun h1 => by simpa [set, e] using h1) (hkeep er)
  · exact h.rts

/-- A task passes a join, when all its children have ended. -/
theorem Rel.pass (h : Rel nf link st slots log exc a) {f w : Nat} (hf : f < nf) (hm : modeOf f log = .run)
    (hk : ∀ c ∈ a.kids f, ∃ r, modeOf c log = .ended r) (k : σ) (ex : Option E) (threw : Nat → List E)
    (hex : ex = none) (ht : threw f = []) (ht' : ∀ g, g ≠ f → threw g = a.threw g) :
    Rel nf link (fun g => if g = f then k else st g) (fun g => if g = f then [] else slots g) (.resume f w :: log) (fun g => if g = f then ex else exc g)
      { a.on f k with kids := set a.kids f [], threw := threw } := by
  have hmode := mode_resume (w := w) hm
  refine ⟨un_set h.un hf _, ?_, ?_, ?_, ?_, ?_, ?_, ?_, ?_, h.rlt⟩
  · intro g hg; simp only [FJ.on, set]; split
    · rfl
    · exact h.st g hg
  · intro g hg; rw [hmode]; simp only [FJ.on, set]; split
    · rename_i e; rw [e]; exact hm.symm
    · exact h.mode g hg
  · intro g hg
    simp only [set]
    split
    · rfl
    · exact h.len g hg
  · intro p hp i c hc
    simp only [set] at hc
    rw [hmode]
    by_cases e : p = f
    · rw [if_pos e] at hc; simp at hc
    · rw [if_neg e] at hc
      rw [if_neg e]
      exact h.kid p hp i c hc
  · intro c p i hc hl hn
    simp only [hmode] at hn
    obtain ⟨h1, h2⟩ := h.up c p i hc hl hn
    refine ⟨h1, ?_⟩
    simp only [set]
    rw [if_neg]
    · exact h2
    · rintro rfl
      obtain ⟨r, hr⟩ := hk c (List.mem_of_getElem? h2)
      exact hn r hr
  · intro c p hc hl hn
    simp only [hmode] at hn ⊢
    exact h.cal c p hc hl hn
  · intro p hp
    simp only
    by_cases e : p = f
    · rw [if_pos e, hex]
      exact ⟨by rw [e]; exact ht, by simp [set, e]⟩
    · rw [if_neg e]
      have hx := h.exc p hp
      cases hxx : exc p with
      | none =>
        rw [hxx] at hx
        refine ⟨by show threw p = []; rw [ht' p e]; exact hx.1, ?_⟩
        simp only [set, if_neg e, hmode]
        exact hx.2
      | some er =>
        rw [hxx] at hx
        refine hx.imp (fun h1 => by show er ∈ threw p; rw [ht' p e]; exact h1) ?_
        simp only [set, if_neg e, hmode]
        exact id
  · exact h.rts

/-- The results of the children of a task that can pass a join. -/
theorem Rel.ended (h : Rel nf link st slots log exc a) {f : Nat} (hf : f < nf) (hk : ∀ c ∈ a.kids f, ∃ r, modeOf c log = .ended r) :
    ∃ rs, Ended a.mode (a.kids f) rs ∧ (slots f).map held = rs.map Except.toOption ∧
      ∀ e, e ∈ errs rs ↔ ∃ c ∈ a.kids f, modeOf c log = .ended (.error e) := by
  have key : ∀ (ks : List Nat) (ss : List (Option (Except E V))), ks.length = ss.length →
      (∀ (i c : Nat), ks[i]? = some c → c < nf ∧ ss[i]? = some (slotOf (modeOf c log))) → (∀ c ∈ ks, ∃ r, modeOf c log = .ended r) →
      ∃ rs, Ended a.mode ks rs ∧ ss.map held = rs.map Except.toOption ∧ ∀ e, e ∈ errs rs ↔ ∃ c ∈ ks, modeOf c log = .ended (.error e) := by
    intro ks
    induction ks with
    | nil =>
      intro ss hlen _ _
      cases ss with
      | nil => exact ⟨[], .nil, rfl, by simp [errs]⟩
      | cons => simp at hlen
    | cons c ks ih =>
      intro ss hlen hs hk
      cases ss with
      | nil => simp at hlen
      | cons x ss =>
        obtain ⟨rs, h1, h2, h3⟩ := ih ss (by simpa using hlen) (fun i c' hc' => by have := hs (i + 1) c' (by simpa using hc'); simpa using this)
          (fun c' hc' => hk c' (List.mem_cons_of_mem _ hc'))
        obtain ⟨r, hr⟩ := hk c (List.mem_cons_self ..)
        obtain ⟨k1, k2⟩ := hs 0 c rfl
        simp only [List.getElem?_cons_zero, Option.some.injEq] at k2
        refine ⟨r :: rs, .cons (by rw [h.mode c k1]; exact hr) h1, ?_, ?_⟩
        · simp only [List.map_cons, h2, k2, hr]
          congr 1
          cases r <;> rfl
        · intro e
          cases r with
          | ok v =>
            simp only [errs, h3, List.mem_cons, exists_eq_or_imp, hr]
            simp
          | error e' =>
            simp only [errs, h3, List.mem_cons, exists_eq_or_imp, hr, Mode.ended.injEq, Except.error.injEq]
            constructor
            · rintro (rfl | h) <;> simp_all
            · rintro (rfl | h) <;> simp_all
  exact key _ _ (h.len f hf) (fun i c hc => ⟨(h.kid f hf i c hc).1, (h.kid f hf i c hc).2.2.2⟩) hk

end Verif.Mem
