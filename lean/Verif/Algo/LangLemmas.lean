import Verif.Algo.Lang

/-! Race-free programs: every interleaving has the outcome of a serial run. -/
namespace Verif.Algo
variable {L V E : Type} [DecidableEq L]

theorem Steps.trans {p m p' m' p'' m''} (h1 : Steps (L := L) (V := V) (E := E) p m p' m')
    (h2 : Steps p' m' p'' m'') : Steps p m p'' m'' := by
  induction h1 with
  | refl => exact h2
  | head s _ ih => exact .head s (ih h2)

theorem step_writes {p m p' m'} (h : Step (L := L) (V := V) (E := E) p m p' m') :
    (∀ l, ¬ Writes p l → m' l = m l) ∧ (∀ l, Writes p' l → Writes p l) ∧ (∀ l, Reads p' l → Reads p l) := by
  induction h with
  | atomOk h => 
    refine ⟨?_, ?_, ?_⟩ <;> intro l hl
    · simp only [Writes] at hl; simp [upd, hl]
    · exact hl.elim
    · exact hl.elim
  | atomErr h => exact ⟨fun _ _ => rfl, fun _ h => h.elim, fun _ h => h.elim⟩
  | seqStep _ ih =>
    obtain ⟨a, b, c⟩ := ih
    exact ⟨fun l hl => a l (fun h => hl (Or.inl h)), fun l hl => hl.imp (b l) id, fun l hl => hl.imp (c l) id⟩
  | seqOk => exact ⟨fun _ _ => rfl, fun _ h => Or.inr h, fun _ h => Or.inr h⟩
  | seqAbort _ => exact ⟨fun _ _ => rfl, fun _ h => h.elim, fun _ h => h.elim⟩
  | parL _ ih =>
    obtain ⟨a, b, c⟩ := ih
    exact ⟨fun l hl => a l (fun h => hl (Or.inl h)), fun l hl => hl.imp (b l) id, fun l hl => hl.imp (c l) id⟩
  | parR _ ih =>
    obtain ⟨a, b, c⟩ := ih
    exact ⟨fun l hl => a l (fun h => hl (Or.inr h)), fun l hl => hl.imp id (b l), fun l hl => hl.imp id (c l)⟩
  | parJoin _ => exact ⟨fun _ _ => rfl, fun _ h => h.elim, fun _ h => h.elim⟩

/-- A step depends only on what the command reads: in a memory that agrees on the reads the same step is possible, it
stores the same values and changes nothing else. -/
theorem step_agree {p m p' m'} (h : Step (L := L) (V := V) (E := E) p m p' m') (m2 : Mem L V)
    (hag : ∀ l, Reads p l → m l = m2 l) :
    ∃ m2', Step p m2 p' m2' ∧ ∀ l, (m2' l = m' l ∧ Writes p l) ∨ (m2' l = m2 l ∧ m' l = m l) := by
  induction h with
  | @atomOk w k rs f m v h =>
    have : (fun i => m (rs i)) = fun i => m2 (rs i) := funext (fun i => hag _ ⟨i, rfl⟩)
    refine ⟨upd m2 w v, .atomOk (this ▸ h), fun l => ?_⟩
    by_cases hl : l = w
    · left; subst hl; simp [upd, Writes]
    · right; simp [upd, hl]
  | @atomErr w k rs f m e h =>
    have : (fun i => m (rs i)) = fun i => m2 (rs i) := funext (fun i => hag _ ⟨i, rfl⟩)
    exact ⟨m2, .atomErr (this ▸ h), fun l => Or.inr ⟨rfl, rfl⟩⟩
  | seqStep _ ih =>
    obtain ⟨m2', hs, hl⟩ := ih (fun l hl => hag l (Or.inl hl))
    exact ⟨m2', .seqStep hs, fun l => (hl l).imp (fun h => ⟨h.1, Or.inl h.2⟩) id⟩
  | seqOk => exact ⟨m2, .seqOk, fun l => Or.inr ⟨rfl, rfl⟩⟩
  | seqAbort ho => exact ⟨m2, .seqAbort ho, fun l => Or.inr ⟨rfl, rfl⟩⟩
  | parL _ ih =>
    obtain ⟨m2', hs, hl⟩ := ih (fun l hl => hag l (Or.inl hl))
    exact ⟨m2', .parL hs, fun l => (hl l).imp (fun h => ⟨h.1, Or.inl h.2⟩) id⟩
  | parR _ ih =>
    obtain ⟨m2', hs, hl⟩ := ih (fun l hl => hag l (Or.inr hl))
    exact ⟨m2', .parR hs, fun l => (hl l).imp (fun h => ⟨h.1, Or.inr h.2⟩) id⟩
  | parJoin hj => exact ⟨m2, .parJoin hj, fun l => Or.inr ⟨rfl, rfl⟩⟩

theorem NoConflict.stepL {p q p' : Cmd L V E} {m m'} (h : NoConflict p q) (s : Step p m p' m') :
    NoConflict p' q := by
  obtain ⟨-, b, c⟩ := step_writes s
  exact ⟨fun l hl => h.1 l (b l hl), fun l hl hr => h.2 l hl (c l hr)⟩

theorem NoConflict.stepR {p q q' : Cmd L V E} {m m'} (h : NoConflict p q) (s : Step q m q' m') :
    NoConflict p q' := by
  obtain ⟨-, b, c⟩ := step_writes s
  exact ⟨fun l hl => ⟨fun hr => (h.1 l hl).1 (c l hr), fun hw => (h.1 l hl).2 (b l hw)⟩,
    fun l hl => h.2 l (b l hl)⟩

/-- Adjacent steps of conflict-free commands commute. -/
theorem step_swap {p q p' q' : Cmd L V E} {m mq m1} (hc : NoConflict p q) (sq : Step q m q' mq)
    (sp : Step p mq p' m1) : ∃ ms, Step p m p' ms ∧ Step q ms q' m1 := by
  have wq := (step_writes sq).1
  have wp := (step_writes sp).1
  obtain ⟨ms, hs, hms⟩ := step_agree sp m (fun l hl => wq l (fun hw => hc.2 l hw hl))
  have wps := (step_writes hs).1
  obtain ⟨mx, hx, hmx⟩ := step_agree sq ms (fun l hl => (wps l (fun hw => (hc.1 l hw).1 hl)).symm)
  refine ⟨ms, hs, ?_⟩
  have : mx = m1 := by
    funext l
    by_cases hw : Writes p l
    · -- not written by q
      have hnq := (hc.1 l hw).2
      rcases hmx l with ⟨_, h⟩ | ⟨h1, h2⟩
      · exact absurd h hnq
      · rw [h1]
        rcases hms l with ⟨h3, _⟩ | ⟨h3, h4⟩
        · exact h3
        · rw [h3, h4, h2]
    · rw [wp l hw]
      rcases hmx l with ⟨h1, _⟩ | ⟨h1, h2⟩
      · exact h1
      · rw [h1, wps l hw, h2]
  exact this ▸ hx

theorem steps_swap {p q p' q' : Cmd L V E} {m mq m1} (hc : NoConflict p q) (sq : Step q m q' mq)
    (sp : Steps p mq p' m1) : ∃ ms, Steps p m p' ms ∧ Step q ms q' m1 := by
  induction sp generalizing m with
  | refl => exact ⟨m, .refl, sq⟩
  | head s _ ih =>
    obtain ⟨ms, h1, h2⟩ := step_swap hc sq s
    obtain ⟨ms', h3, h4⟩ := ih (hc.stepL s) h2
    exact ⟨ms', .head h1 h3, h4⟩

theorem par_split {p q : Cmd L V E} {m o m'} (hc : NoConflict p q)
    (h : Steps (.par p q) m (.halt o) m') :
    ∃ o1 m1 o2, Steps p m (.halt o1) m1 ∧ Steps q m1 (.halt o2) m' ∧ JoinOut o1 o2 o := by
  generalize hx : Cmd.par p q = c at h
  generalize hy : Cmd.halt o = d at h
  induction h generalizing p q with
  | refl => subst hx; cases hy
  | head s t ih =>
    subst hx
    cases s with
    | parL s =>
      obtain ⟨o1, m1, o2, h1, h2, h3⟩ := ih (hc.stepL s) rfl hy
      exact ⟨o1, m1, o2, .head s h1, h2, h3⟩
    | parR s =>
      obtain ⟨o1, m1, o2, h1, h2, h3⟩ := ih (hc.stepR s) rfl hy
      obtain ⟨ms, h4, h5⟩ := steps_swap hc s h1
      exact ⟨o1, ms, o2, h4, .head h5 h2, h3⟩
    | parJoin hj =>
      cases t with
      | refl => cases hy; exact ⟨_, _, _, .refl, .refl, hj⟩
      | head s' _ => cases s'

theorem seq_split {p q : Cmd L V E} {m o m'} (h : Steps (.seq p q) m (.halt o) m') :
    (∃ m1, Steps p m (.halt .ok) m1 ∧ Steps q m1 (.halt o) m') ∨ (o ≠ .ok ∧ Steps p m (.halt o) m') := by
  generalize hx : Cmd.seq p q = c at h
  generalize hy : Cmd.halt o = d at h
  induction h generalizing p q with
  | refl => subst hx; cases hy
  | head s t ih =>
    subst hx
    cases s with
    | seqStep s =>
      rcases ih rfl hy with ⟨m1, h1, h2⟩ | ⟨h1, h2⟩
      · exact Or.inl ⟨m1, .head s h1, h2⟩
      · exact Or.inr ⟨h1, .head s h2⟩
    | seqOk => subst hy; exact Or.inl ⟨_, .refl, t⟩
    | seqAbort ho =>
      cases t with
      | refl => cases hy; exact Or.inr ⟨ho, .refl⟩
      | head s' _ => cases s'

/-- Every complete interleaved execution of a race-free program is a serial run. -/
theorem run_of_steps {p : Cmd L V E} (hr : RaceFree p) {m o m'} (h : Steps p m (.halt o) m') :
    Run p m o m' := by
  induction p generalizing m o m' with
  | halt o' =>
    cases h with
    | refl => exact .halt
    | head s _ => cases s
  | atom w k rs f =>
    cases h with
    | head s t =>
      cases s with
      | atomOk hf =>
        cases t with
        | refl => exact .atomOk hf
        | head s' _ => cases s'
      | atomErr hf =>
        cases t with
        | refl => exact .atomErr hf
        | head s' _ => cases s'
  | seq p q ihp ihq =>
    rcases seq_split h with ⟨m1, h1, h2⟩ | ⟨h1, h2⟩
    · exact .seqOk (ihp hr.1 h1) (ihq hr.2 h2)
    · exact .seqAbort (ihp hr.1 h2) h1
  | par p q ihp ihq =>
    obtain ⟨o1, m1, o2, h1, h2, h3⟩ := par_split hr.1 h
    exact .par (ihp hr.2.1 h1) (ihq hr.2.2 h2) h3

/-- Number of steps left. No code: a measure for a proof. -/
def size : Cmd L V E → Nat
  | .halt _ => 0
  | .atom _ _ _ _ => 1
  | .seq p q => size p + size q + 1
  | .par p q => size p + size q + 1

theorem step_size {p m p' m'} (h : Step (L := L) (V := V) (E := E) p m p' m') : size p' < size p := by
  induction h <;> simp_all [size] <;> omega

theorem joinOut_exists (o1 o2 : Out E) : ∃ o, JoinOut o1 o2 o := by
  cases o1 <;> cases o2 <;> exact ⟨_, by constructor⟩

theorem progress (p : Cmd L V E) (m : Mem L V) : (∃ o, p = .halt o) ∨ ∃ p' m', Step p m p' m' := by
  induction p with
  | halt o => exact Or.inl ⟨o, rfl⟩
  | atom w k rs f =>
    right
    cases h : f (fun i => m (rs i)) with
    | ok v => exact ⟨_, _, .atomOk h⟩
    | error e => exact ⟨_, _, .atomErr h⟩
  | seq p q ihp _ =>
    right
    rcases ihp with ⟨o, rfl⟩ | ⟨p', m', h⟩
    · by_cases ho : o = .ok
      · subst ho; exact ⟨_, _, .seqOk⟩
      · exact ⟨_, _, .seqAbort ho⟩
    · exact ⟨_, _, .seqStep h⟩
  | par p q ihp ihq =>
    right
    rcases ihp with ⟨o1, rfl⟩ | ⟨p', m', h⟩
    · rcases ihq with ⟨o2, rfl⟩ | ⟨q', m', h⟩
      · obtain ⟨o, ho⟩ := joinOut_exists o1 o2
        exact ⟨_, _, .parJoin ho⟩
      · exact ⟨_, _, .parR h⟩
    · exact ⟨_, _, .parL h⟩

/-- No execution is infinite and none gets stuck: from every point some complete execution exists, and (by
`step_size`) every execution is finite. -/
theorem completes (p : Cmd L V E) (m : Mem L V) : ∃ o m', Steps p m (.halt o) m' := by
  generalize hn : size p = n
  induction n using Nat.strongRecOn generalizing p m with
  | ind n ih =>
    rcases progress p m with ⟨o, rfl⟩ | ⟨p', m', h⟩
    · exact ⟨o, m, .refl⟩
    · obtain ⟨o, m'', h2⟩ := ih (size p') (hn ▸ step_size h) p' m' rfl
      exact ⟨o, m'', .head h h2⟩

end Verif.Algo
