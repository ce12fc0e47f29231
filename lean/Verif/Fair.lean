/-!
Infinite schedules of a transition system and weak fairness, used for the properties of the form "eventually". (A small library, it
models no code.)
-/
namespace Verif.Fair

/-- A transition system: its first states, the steps of each actor, and who can take a step and is obliged to. -/
structure Sys (σ α : Type) where
  init : σ → Prop
  step : α → σ → σ → Prop
  ready : σ → α → Prop

/-- The states reached in any schedule. -/
inductive Reach {σ α : Type} (S : Sys σ α) : σ → Prop
  | start {s : σ} : S.init s → Reach S s
  | step {s s' : σ} {a : α} : Reach S s → S.step a s s' → Reach S s'

/-- An infinite schedule; at some times nothing happens. -/
structure Run {σ α : Type} (S : Sys σ α) where
  st : Nat → σ
  who : Nat → Option α
  start : S.init (st 0)
  next : ∀ t, (who t = none ∧ st (t + 1) = st t) ∨ ∃ a, who t = some a ∧ S.step a (st t) (st (t + 1))

/-- Weak fairness: no actor is ready for ever without taking a step. -/
def Run.Fair {σ α : Type} {S : Sys σ α} (r : Run S) : Prop := ∀ a t, ∃ t', t ≤ t' ∧ (¬ S.ready (r.st t') a ∨ r.who t' = some a)

variable {σ α : Type} {S : Sys σ α}

theorem Run.reach (r : Run S) (t : Nat) : Reach S (r.st t) := by
  induction t with
  | zero => exact .start r.start
  | succ t ih =>
    rcases r.next t with ⟨_, e⟩ | ⟨a, _, st⟩
    · rw [e]; exact ih
    · exact ih.step st

/-- What every step keeps is kept. -/
theorem Run.keep (r : Run S) (P : σ → Prop) {t : Nat} (h : P (r.st t))
    (hs : ∀ u a, t ≤ u → P (r.st u) → S.step a (r.st u) (r.st (u + 1)) → P (r.st (u + 1))) : ∀ u, t ≤ u → P (r.st u) := by
  intro u hu
  induction u with
  | zero =>
    have : t = 0 := by omega
    rw [← this]; exact h
  | succ u ih =>
    by_cases e : t = u + 1
    · rw [← e]; exact h
    · have hp := ih (by omega)
      rcases r.next u with ⟨_, e'⟩ | ⟨a, _, st⟩
      · rw [e']; exact hp
      · exact hs u a (by omega) hp st

/-- While `P` lasts the actor `a` is ready; nobody raises the measure and `a` lowers it, or `Q` comes. -/
theorem Run.leads {r : Run S} (hf : r.Fair) (a : α) (P Q : Nat → Prop) (m : Nat → Nat)
    (hr : ∀ t, P t → S.ready (r.st t) a)
    (hs : ∀ t, P t → Q (t + 1) ∨ (P (t + 1) ∧ m (t + 1) ≤ m t ∧ (r.who t = some a → m (t + 1) < m t))) :
    ∀ t, P t → ∃ t', t ≤ t' ∧ Q t' := by
  have walk : ∀ t, P t → ∀ d, (∃ x, t ≤ x ∧ Q x) ∨ (P (t + d) ∧ m (t + d) ≤ m t) := by
    intro t hp d
    induction d with
    | zero => exact .inr ⟨hp, Nat.le_refl _⟩
    | succ d ih =>
      rcases ih with ih | ⟨i1, i2⟩
      · exact .inl ih
      · rcases hs _ i1 with q | ⟨p, q, _⟩
        · exact .inl ⟨_, by omega, q⟩
        · exact .inr ⟨p, by rw [← Nat.add_assoc]; omega⟩
  have main : ∀ k t, m t ≤ k → P t → ∃ t', t ≤ t' ∧ Q t' := by
    intro k
    induction k with
    | zero =>
      intro t hm hp
      obtain ⟨t', hle, hh⟩ := hf a t
      rcases walk t hp (t' - t) with q | ⟨p, q⟩
      · exact q
      · rw [Nat.add_sub_cancel' hle] at p q
        rcases hh with hh | hh
        · exact absurd (hr _ p) hh
        · rcases hs _ p with x | ⟨_, _, x⟩
          · exact ⟨_, by omega, x⟩
          · have := x hh; omega
    | succ k ih =>
      intro t hm hp
      obtain ⟨t', hle, hh⟩ := hf a t
      rcases walk t hp (t' - t) with q | ⟨p, q⟩
      · exact q
      · rw [Nat.add_sub_cancel' hle] at p q
        rcases hh with hh | hh
        · exact absurd (hr _ p) hh
        · rcases hs _ p with x | ⟨p', _, x⟩
          · exact ⟨_, by omega, x⟩
          · have := x hh
            obtain ⟨y, hy, hq⟩ := ih (t' + 1) (by omega) p'
            exact ⟨y, by omega, hq⟩
  exact fun t => main (m t) t (Nat.le_refl _)

/-- The same for predicates of the state; `G` is what is known about the time. -/
theorem Run.leads' {r : Run S} (hf : r.Fair) (a : α) (P Q : σ → Prop) (m : σ → Nat) (G : Nat → Prop)
    (hG : ∀ t, G t → G (t + 1))
    (hr : ∀ t, G t → P (r.st t) → ¬ Q (r.st t) → S.ready (r.st t) a)
    (hs : ∀ t b, G t → P (r.st t) → ¬ Q (r.st t) → S.step b (r.st t) (r.st (t + 1)) →
      Q (r.st (t + 1)) ∨ (P (r.st (t + 1)) ∧ m (r.st (t + 1)) ≤ m (r.st t) ∧ (b = a → m (r.st (t + 1)) < m (r.st t)))) :
    ∀ t, G t → P (r.st t) → ∃ t', t ≤ t' ∧ Q (r.st t') := by
  intro t hg hp
  by_cases hq : Q (r.st t)
  · exact ⟨t, Nat.le_refl _, hq⟩
  refine Run.leads hf a (fun t => G t ∧ P (r.st t) ∧ ¬ Q (r.st t)) (fun t => Q (r.st t)) (fun t => m (r.st t))
    (fun t h => hr t h.1 h.2.1 h.2.2) (fun t h => ?_) t ⟨hg, hp, hq⟩
  obtain ⟨h1, h2, h3⟩ := h
  rcases r.next t with ⟨e1, e2⟩ | ⟨b, e1, st⟩
  · right
    refine ⟨⟨hG t h1, by rw [e2]; exact h2, by rw [e2]; exact h3⟩, by rw [e2]; exact Nat.le_refl _, by rw [e1]; intro h; cases h⟩
  · rcases hs t b h1 h2 h3 st with q | ⟨q1, q2, q3⟩
    · exact .inl q
    · by_cases hq : Q (r.st (t + 1))
      · exact .inl hq
      · exact .inr ⟨⟨hG t h1, q1, hq⟩, q2, fun h => q3 (by rw [e1] at h; exact Option.some.inj h)⟩

/-- What holds eventually for ever for each of `0 … N-1` holds eventually for ever for all. -/
theorem all_eventually (P : Nat → Nat → Prop) (N t0 : Nat) (h : ∀ w, w < N → ∃ t, t0 ≤ t ∧ ∀ u, t ≤ u → P w u) :
    ∃ t, t0 ≤ t ∧ ∀ u, t ≤ u → ∀ w, w < N → P w u := by
  induction N with
  | zero => exact ⟨t0, Nat.le_refl _, fun _ _ w hw => absurd hw (by omega)⟩
  | succ N ih =>
    obtain ⟨t1, l1, k1⟩ := ih fun w hw => h w (by omega)
    obtain ⟨t2, l2, k2⟩ := h N (by omega)
    refine ⟨max t1 t2, by omega, fun u hu w hw => ?_⟩
    by_cases e : w = N
    · subst e; exact k2 u (by omega)
    · exact k1 u (by omega) w (by omega)

/-! Schedules given by a finite script, followed by silence. -/

/-- One entry of a script: an attempt at a step, skipped if it is not possible. -/
def tick {ε : Type} (fire : ε → σ → Option σ) (s : σ) (e : ε) : σ := (fire e s).getD s

/-- The state after the first `t` entries. -/
def play {ε : Type} (fire : ε → σ → Option σ) (s0 : σ) (script : List ε) (t : Nat) : σ := (script.take t).foldl (tick fire) s0

theorem play_succ {ε : Type} (fire : ε → σ → Option σ) (s0 : σ) (script : List ε) (t : Nat) :
    play fire s0 script (t + 1) = match script[t]? with
      | some e => tick fire (play fire s0 script t) e
      | none => play fire s0 script t := by
  unfold play
  rw [List.take_add_one, List.foldl_append]
  cases script[t]? <;> simp

theorem play_end {ε : Type} (fire : ε → σ → Option σ) (s0 : σ) (script : List ε) {t : Nat} (h : script.length ≤ t) :
    play fire s0 script t = script.foldl (tick fire) s0 := by
  unfold play; rw [List.take_of_length_le h]

/-- Every script, followed by silence, is a schedule. -/
def Script.run {ε : Type} (fire : ε → σ → Option σ) (actor : ε → α) (hfire : ∀ e s s', fire e s = some s' → S.step (actor e) s s')
    {s0 : σ} (h0 : S.init s0) (script : List ε) : Run S where
  st := play fire s0 script
  who t := match script[t]? with
    | some e => if (fire e (play fire s0 script t)).isSome then some (actor e) else none
    | none => none
  start := by simpa [play] using h0
  next t := by
    rw [play_succ]
    cases script[t]? with
    | none => exact .inl ⟨rfl, rfl⟩
    | some e =>
      unfold tick
      cases hf : fire e (play fire s0 script t) with
      | none => left; simp [hf]
      | some s' => exact .inr ⟨actor e, by simp [hf], by have := hfire _ _ _ hf; simpa [hf] using this⟩

/-- It is fair if at its end nobody is ready. -/
theorem Script.fair {ε : Type} {fire : ε → σ → Option σ} {actor : ε → α} {hfire : ∀ e s s', fire e s = some s' → S.step (actor e) s s'}
    {s0 : σ} {h0 : S.init s0} {script : List ε}
    (he : ∀ a, ¬ S.ready (script.foldl (tick fire) s0) a) : (Script.run fire actor hfire h0 script).Fair := by
  intro a t
  refine ⟨max t script.length, by omega, .inl ?_⟩
  show ¬ S.ready (play fire s0 script (max t script.length)) a
  rw [play_end fire s0 script (by omega)]
  exact he a

end Verif.Fair
