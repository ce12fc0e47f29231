import Verif.Algo.ThrowProps

/-! C48: executions exist; with an asynchronous operator, or an uninitialised iterator, an exception ends in undefined behaviour. -/
namespace Verif.Algo.Throw
variable {V E : Type}

/-! ### Every execution can be completed, and none is infinite -/

def size {L V E : Type} : Cmd L V E → Nat
  | .halt _ => 0
  | .atom _ _ _ _ => 1
  | .seq p q => size p + size q + 1
  | .par p q => size p + size q + 1
  | .sfork _ p q r => size p + max (size q) (size r) + 1
  | .frame _ p => size p + 1

theorem step_size {p : Prog V E} {s p' s'} (h : Step p s p' s') : size p' < size p := by
  induction h <;> simp_all only [size] <;> omega

theorem joinOut_exists (x : Option E) (o1 o2 : Out E) : ∃ o, JoinOut x o1 o2 o := by
  cases x <;> cases o1 <;> cases o2 <;>
    first | exact ⟨_, .ubL⟩ | exact ⟨_, .ubR⟩ | exact ⟨_, .ok⟩ | exact ⟨_, .left nofun⟩ | exact ⟨_, .right nofun⟩ | exact ⟨_, .pending nofun nofun⟩

theorem progress {l : List (E × Bool)} {b : Mode} {p : Prog V E} (g : G l b p) (s : St Loc V E) :
    (∃ o, p = .halt o) ∨ ∃ p' s', Step p s p' s' := by
  induction g generalizing s with
  | ok => exact .inl ⟨_, rfl⟩
  | exn => exact .inl ⟨_, rfl⟩
  | @atom l w k rs f h =>
    right
    cases hf : f (fun i => s.m (rs i)) with
    | ok v => exact ⟨_, _, .atomOk hf⟩
    | error e =>
      obtain ⟨e, c⟩ := e
      have := h _ _ _ hf; subst this
      exact ⟨_, _, .atomErr hf⟩
  | seq _ _ ih _ =>
    right
    rcases ih s with ⟨o, rfl⟩ | ⟨p', s', h⟩
    · by_cases ho : o = .ok
      · subst ho; exact ⟨_, _, .seqOk⟩
      · exact ⟨_, _, .seqAbort ho⟩
    · exact ⟨_, _, .seqStep h⟩
  | sforkE _ _ _ _ ih _ =>
    right
    rcases ih s with ⟨o, rfl⟩ | ⟨p', s', h⟩
    · cases o
      · exact ⟨_, _, .sforkOk⟩
      · exact ⟨_, _, .sforkThrow⟩
      · exact ⟨_, _, .sforkUb⟩
    · exact ⟨_, _, .sforkStep h⟩
  | sfork _ _ _ _ _ ih _ _ =>
    right
    rcases ih s with ⟨o, rfl⟩ | ⟨p', s', h⟩
    · cases o
      · exact ⟨_, _, .sforkOk⟩
      · exact ⟨_, _, .sforkCap⟩
      · exact ⟨_, _, .sforkUb⟩
    · exact ⟨_, _, .sforkStep h⟩
  | parC t1 t2 _ _ i1 i2 => exact .inr (par_progress t1 t2 i1 i2 s)
  | parT t1 t2 _ _ _ _ _ i1 i2 => exact .inr (par_progress t1 t2 i1 i2 s)
  | parP t1 t2 _ _ _ _ i1 i2 => exact .inr (par_progress t1 t2 i1 i2 s)
  | frame _ _ ih => exact .inr (frame_progress ih none s)
  | frameP _ _ ih => exact .inr (frame_progress ih _ s)
where
  frame_progress {p : Prog V E} (ih : ∀ s : St Loc V E, (∃ o, p = .halt o) ∨ ∃ p' s', Step p s p' s') (pd : Option E)
      (s : St Loc V E) : ∃ p' s', Step (.frame pd p) s p' s' := by
    rcases ih { s with pd } with ⟨o, rfl⟩ | ⟨p', ⟨_, _, _⟩, h⟩
    · exact ⟨_, _, .frameEnd⟩
    · exact ⟨_, _, .frameStep h⟩
  par_progress {p q : Prog V E} (t1 : isTask p) (t2 : isTask q)
      (i1 : ∀ s : St Loc V E, (∃ o, p = .halt o) ∨ ∃ p' s', Step p s p' s')
      (i2 : ∀ s : St Loc V E, (∃ o, q = .halt o) ∨ ∃ p' s', Step q s p' s') (s : St Loc V E) : ∃ p' s', Step (.par p q) s p' s' := by
    have one : ∀ {r : Prog V E}, isTask r → (∀ s : St Loc V E, (∃ o, r = .halt o) ∨ ∃ p' s', Step r s p' s') →
        (∃ o, r = .halt o) ∨ ∃ pd r', r = .frame pd r' ∧ ((∃ o, r' = .halt o) ∨ ∃ p' m' pd' l', Step r' { s with pd } p' ⟨m', pd', l'⟩) := by
      intro r t i
      cases r with
      | halt o => exact .inl ⟨o, rfl⟩
      | frame pd r' =>
        refine .inr ⟨pd, r', rfl, ?_⟩
        rcases i s with ⟨o, h⟩ | ⟨p', s', h⟩
        · cases h
        · cases h with
          | frameStep h => exact .inr ⟨_, _, _, _, h⟩
          | frameEnd => exact .inl ⟨_, rfl⟩
      | _ => exact t.elim
    rcases one t1 i1 with ⟨o1, rfl⟩ | ⟨pd, r, rfl, ⟨o, rfl⟩ | ⟨_, _, _, _, h⟩⟩
    · rcases one t2 i2 with ⟨o2, rfl⟩ | ⟨pd, r, rfl, ⟨o, rfl⟩ | ⟨_, _, _, _, h⟩⟩
      · obtain ⟨o, ho⟩ := joinOut_exists s.pd o1 o2
        exact ⟨_, _, .parJoin ho⟩
      · exact ⟨_, _, .parEndR⟩
      · exact ⟨_, _, .parR h⟩
    · exact ⟨_, _, .parEndL⟩
    · exact ⟨_, _, .parL h⟩

theorem completes {p : Prog V E} {s : St Loc V E} {b : Mode} (g : G s.log b p) (a : Agrees s.log b s.pd) :
    ∃ o s', Steps p s (.halt o) s' := by
  generalize hn : size p = n
  induction n using Nat.strongRecOn generalizing p s b with
  | ind n ih =>
    rcases progress g s with ⟨o, rfl⟩ | ⟨p', s', h⟩
    · exact ⟨o, s, .refl⟩
    · obtain ⟨b', g', a', _⟩ := step_pres h g a
      obtain ⟨o, s'', h2⟩ := ih (size p') (hn ▸ step_size h) g' a' rfl
      exact ⟨o, s'', .head h h2⟩

/-- The executions `scan_propagates_partial` and `fold_propagates_partial` are about exist: none is infinite (`step_size`) and none gets
stuck before the end. -/
theorem executions_complete {F : Fns V E} (h : F.async = false) (m : Mem Loc V) {n head len : Nat} (hn : 0 < n) (hl : 0 < len) :
    ∃ o s, Steps (foldTop F n head len) (start m) (.halt o) s :=
  completes (b := .calm) (foldTop_calm (.inl h) hn hl) trivial

theorem scan_completes {F : Fns V E} (h : F.async = false) (m : Mem Loc V) {gb : List Bool → Option Nat} (rdy : List Bool → Bool)
    {n src dst len : Nat} (hn : 0 < n) (hg : ∀ path, ∃ v, gb path = some v ∧ (v ≤ src ∨ src + len ≤ v)) :
    ∃ o s, Steps (scan F rdy gb n src dst len) (start m) (.halt o) s :=
  completes (b := .calm) (scan_calm (.inl h) rdy (.inr hg) hn) trivial

/-! ### `fold` with an asynchronous operator that throws -/

/-- Code of one task: no fork, no call that is a task of its own. -/
def Tail {L V E : Type} : Cmd L V E → Prop
  | .halt _ => True
  | .atom _ _ _ _ => True
  | .seq p q => Tail p ∧ Tail q
  | _ => False

/-- A captured exception will never be rethrown. -/
inductive Doomed {L V E : Type} : Cmd L V E → Prop where
  | ub : Doomed (.halt .ub)
  | seq {p q} : Doomed p → Doomed (.seq p q)
  | parL {p q} : Doomed p → Doomed (.par p q)
  | parR {p q} : Doomed q → Doomed (.par p q)
  | sfork {e p q r} : Doomed p → Doomed (.sfork e p q r)
  | frame {pd p} : Doomed p → Doomed (.frame pd p)
  | pend {e p} : Tail p → Doomed (.frame (some e) p)

/-- Asynchronous operators are called only by tasks that do nothing else. -/
inductive Shape {L V E : Type} : Cmd L V E → Prop where
  | halt {o} : Shape (.halt o)
  | atom {w k rs f} : (∀ v e c, f v = .error (e, c) → c = false) → Shape (.atom w k rs f)
  | seq {p q} : Shape p → Shape q → Shape (.seq p q)
  | par {p q} : Shape p → Shape q → Shape (.par p q)
  | frame {pd p} : Shape p → Shape (.frame pd p)
  | leaf {pd p} : Tail p → Shape (.frame pd p)

section
variable {L : Type} [DecidableEq L]

theorem tail_step {p : Cmd L V E} {s p' s'} (h : Step p s p' s') (t : Tail p) :
    Tail p' ∧ (s.pd ≠ none → s'.pd ≠ none) ∧ ((∃ e, (e, true) ∈ s'.log) → s'.pd ≠ none ∨ ∃ e, (e, true) ∈ s.log) := by
  induction h with
  | atomOk => exact ⟨trivial, id, .inr⟩
  | atomErr => exact ⟨trivial, id, fun ⟨e, h⟩ => .inr ⟨e, by simpa using h⟩⟩
  | @atomCap w k rs f s e v h =>
    have : capture s.pd e ≠ none := by cases s.pd <;> simp [capture]
    exact ⟨trivial, fun _ => this, fun _ => .inl this⟩
  | seqStep _ ih => obtain ⟨a, b, c⟩ := ih t.1; exact ⟨⟨a, t.2⟩, b, c⟩
  | seqOk => exact ⟨t.2, id, .inr⟩
  | seqAbort => exact ⟨trivial, id, .inr⟩
  | parL => exact t.elim
  | parR => exact t.elim
  | parEndL => exact t.elim
  | parEndR => exact t.elim
  | parJoin => exact t.elim
  | sforkStep => exact t.elim
  | sforkOk => exact t.elim
  | sforkUb => exact t.elim
  | sforkThrow => exact t.elim
  | sforkCap => exact t.elim
  | frameStep => exact t.elim
  | frameEnd => exact t.elim

theorem taskEnd_ub {pd : Option E} : taskEnd pd .ub = .ub := by cases pd <;> rfl

theorem tail_not_doomed {p : Cmd L V E} {pd : Option E} {s : St L V E} {p' m' pd' l'} (h : Step p { s with pd } p' ⟨m', pd', l'⟩) (t : Tail p)
    (hpd : pd ≠ none) : Doomed (.frame pd' p') := by
  obtain ⟨a, b, _⟩ := tail_step h t
  have := b hpd
  cases pd' with
  | none => exact absurd rfl this
  | some e => exact .pend a

theorem doomed_step {p : Cmd L V E} {s p' s'} (h : Step p s p' s') (d : Doomed p) : Doomed p' := by
  induction h with
  | atomOk => cases d
  | atomErr => cases d
  | atomCap => cases d
  | seqStep _ ih => cases d with | seq d => exact .seq (ih d)
  | seqOk => cases d with | seq d => cases d
  | seqAbort => cases d with | seq d => cases d; exact .ub
  | parL st ih => cases d with
    | parL d => cases d with
      | frame d => exact .parL (.frame (ih d))
      | pend t => exact .parL (tail_not_doomed st t (by simp))
    | parR d => exact .parR d
  | parR st ih => cases d with
    | parL d => exact .parL d
    | parR d => cases d with
      | frame d => exact .parR (.frame (ih d))
      | pend t => exact .parR (tail_not_doomed st t (by simp))
  | parEndL => cases d with
    | parL d => cases d with
      | frame d => cases d; rw [taskEnd_ub]; exact .parL .ub
      | pend t => exact .parL .ub
    | parR d => exact .parR d
  | parEndR => cases d with
    | parL d => exact .parL d
    | parR d => cases d with
      | frame d => cases d; rw [taskEnd_ub]; exact .parR .ub
      | pend t => exact .parR .ub
  | @parJoin _ _ _ s hj =>
    generalize s.pd = x at hj
    cases d with
    | parL d => cases d; cases hj <;> first | exact .ub | contradiction
    | parR d => cases d; cases hj <;> first | exact .ub | contradiction
  | sforkStep _ ih => cases d with | sfork d => exact .sfork (ih d)
  | sforkOk => cases d with | sfork d => cases d
  | sforkUb => exact .ub
  | sforkThrow => cases d with | sfork d => cases d
  | sforkCap => cases d with | sfork d => cases d
  | frameStep st ih => cases d with
    | frame d => exact .frame (ih d)
    | pend t => exact tail_not_doomed st t (by simp)
  | frameEnd => cases d with
    | frame d => cases d; rw [taskEnd_ub]; exact .ub
    | pend t => exact .ub

theorem leaf_step {p : Cmd L V E} {pd : Option E} {s : St L V E} {p' m' pd' l'} (h : Step p { s with pd } p' ⟨m', pd', l'⟩) (t : Tail p)
    (hn : ∀ e, (e, true) ∉ s.log) : (Shape (.frame pd' p') ∧ ∀ e, (e, true) ∉ l') ∨ Doomed (.frame pd' p') := by
  obtain ⟨a, _, c⟩ := tail_step h t
  cases pd' with
  | some e => exact .inr (.pend a)
  | none =>
    refine .inl ⟨.leaf a, fun e he => ?_⟩
    rcases c ⟨e, he⟩ with h | ⟨e', h⟩
    · exact h rfl
    · exact hn e' h

theorem shape_step {p : Cmd L V E} {s p' s'} (h : Step p s p' s') (d : Shape p) (hn : ∀ e, (e, true) ∉ s.log) :
    (Shape p' ∧ ∀ e, (e, true) ∉ s'.log) ∨ Doomed p' := by
  induction h with
  | atomOk => exact .inl ⟨.halt, hn⟩
  | atomErr => exact .inl ⟨.halt, by simpa using hn⟩
  | atomCap _ h => cases d with | atom hf => exact absurd (hf _ _ _ h) (by simp)
  | seqStep _ ih => cases d with | seq d1 d2 => exact (ih d1 hn).imp (fun h => ⟨.seq h.1 d2, h.2⟩) .seq
  | seqOk => cases d with | seq d1 d2 => exact .inl ⟨d2, hn⟩
  | seqAbort => exact .inl ⟨.halt, hn⟩
  | parL st ih => cases d with
    | par d1 d2 => cases d1 with
      | frame d1 => exact (ih d1 hn).imp (fun h => ⟨.par (.frame h.1) d2, h.2⟩) fun h => .parL (.frame h)
      | leaf t => exact (leaf_step st t hn).imp (fun h => ⟨.par h.1 d2, h.2⟩) .parL
  | parR st ih => cases d with
    | par d1 d2 => cases d2 with
      | frame d2 => exact (ih d2 hn).imp (fun h => ⟨.par d1 (.frame h.1), h.2⟩) fun h => .parR (.frame h)
      | leaf t => exact (leaf_step st t hn).imp (fun h => ⟨.par d1 h.1, h.2⟩) .parR
  | parEndL => cases d with | par d1 d2 => exact .inl ⟨.par .halt d2, hn⟩
  | parEndR => cases d with | par d1 d2 => exact .inl ⟨.par d1 .halt, hn⟩
  | parJoin => exact .inl ⟨.halt, hn⟩
  | sforkStep => cases d
  | sforkOk => cases d
  | sforkUb => cases d
  | sforkThrow => cases d
  | sforkCap => cases d
  | frameStep st ih => cases d with
    | frame d => exact (ih d hn).imp (fun h => ⟨.frame h.1, h.2⟩) .frame
    | leaf t => exact leaf_step st t hn
  | frameEnd => exact .inl ⟨.halt, hn⟩

theorem shape_steps {p : Cmd L V E} {s p' s'} (h : Steps p s p' s') (d : (Shape p ∧ ∀ e, (e, true) ∉ s.log) ∨ Doomed p) :
    (∀ e, (e, true) ∉ s'.log) ∨ Doomed p' := by
  induction h with
  | refl => exact d.imp And.right id
  | head st _ ih =>
    rcases d with ⟨d, hn⟩ | d
    · exact ih (shape_step st d hn)
    · exact ih (.inr (doomed_step st d))

end

theorem foldLoop_tail (F : Fns V E) (acc : Loc) (k : Nat) : ∀ head, Tail (foldLoop F acc head k) := by
  induction k with
  | zero => exact fun _ => trivial
  | succ k ih => exact fun head => ⟨trivial, ih _⟩

theorem foldN_shape (F : Fns V E) (n : Nat) (len : Nat) : ∀ ret path head, Shape (.frame none (foldN F n ret path head len)) := by
  induction len using Nat.strongRecOn with
  | ind len ih =>
    intro ret path head
    unfold foldN
    split
    · exact .leaf trivial
    split
    · exact .leaf trivial
    split
    · exact .leaf ⟨trivial, foldLoop_tail .., trivial⟩
    split
    · exact .leaf trivial
    · exact .frame (.seq (.par (ih _ (by omega) ..) (ih _ (by omega) ..)) (.atom fun _ _ _ h => thrown_flag h))

theorem foldOne_shape (F : Fns V E) (len : Nat) : ∀ ret path head, Shape (.frame none (foldOne F ret path head len)) := by
  induction len using Nat.strongRecOn with
  | ind len ih =>
    intro ret path head
    unfold foldOne
    split
    · exact .leaf trivial
    split
    · exact .leaf trivial
    split
    · exact .leaf trivial
    · exact .frame (.seq (.par (ih _ (by omega) ..) (ih _ (by omega) ..)) (.atom fun _ _ _ h => thrown_flag h))

/-- **C48, false of the code for asynchronous operators.** Whenever an asynchronous operator called by `fold` inside a chunk throws, the
execution ends with a failed assertion (in a release build: undefined behaviour). -/
theorem fold_async_ub (F : Fns V E) (n head len : Nat) {m : Mem Loc V} {o : Out E} {s : St Loc V E}
    (h : Steps (foldTop F n head len) (start m) (.halt o) s) {e : E} (he : (e, true) ∈ s.log) : o = .ub := by
  have : Shape (foldTop F n head len) := by
    unfold foldTop
    refine .frame ?_
    split
    · exact foldOne_shape ..
    · exact foldN_shape ..
  rcases shape_steps h (.inl ⟨this, fun _ => by simp [start]⟩) with h | h
  · exact absurd he (h e)
  · cases h; rfl

theorem head_ex {p : Prog V E} {s p' s' q} (h : Step p s p' s') (t : ∃ s'', Steps p' s' q s'') : ∃ s'', Steps p s q s'' :=
  t.imp fun _ t => .head h t

/-- It happens: two elements, one chunk, an asynchronous operator that throws. -/
theorem fold_async_violates : ∃ (s : St Loc Nat Unit),
    Steps (foldTop ⟨.ok, fun _ _ => .error (), true, false⟩ 2 0 2) (start fun _ => 0) (.halt .ub) s := by
  have : foldTop (V := Nat) (E := Unit) ⟨.ok, fun _ _ => .error (), true, false⟩ 2 0 2 = .frame none (.frame none
      (.seq (atom1 (.tmp [] 0) (.cell 0) (Fns.proj ⟨.ok, fun _ _ => .error (), true, false⟩))
      (.seq (.seq (atom2 (.tmp [] 0) (.tmp [] 0) (.cell 1) (Fns.acc ⟨.ok, fun _ _ => .error (), true, false⟩)) (.halt .ok))
        (atom1 .res (.tmp [] 0) .ok)))) := by
    unfold foldTop foldN
    simp [foldLoop]
  rw [this]
  refine head_ex (.frameStep (.frameStep (.seqStep (.atomOk (v := 0) rfl)))) ?_
  refine head_ex (.frameStep (.frameStep .seqOk)) ?_
  refine head_ex (.frameStep (.frameStep (.seqStep (.seqStep (.atomCap (e := ()) 0 rfl))))) ?_
  refine head_ex (.frameStep (.frameStep (.seqStep .seqOk))) ?_
  refine head_ex (.frameStep (.frameStep .seqOk)) ?_
  refine head_ex (.frameStep (.frameStep (.atomOk rfl))) ?_
  refine head_ex (.frameStep .frameEnd) ?_
  exact head_ex .frameEnd ⟨_, .refl⟩

theorem not_fold_propagates : ∃ F : Fns Nat Unit, F.eag = false ∧ ¬ FoldPropagates Nat Unit F := by
  refine ⟨⟨.ok, fun _ _ => .error (), true, false⟩, rfl, fun h => ?_⟩
  obtain ⟨s, hs⟩ := fold_async_violates
  exact (h 2 0 2 (by decide) (by decide) _ _ _ hs).1 rfl

/-- **C48, false of the code for `scan` over pointers.** Two elements, chunk size one, a synchronous projection that throws, the left child
completes synchronously: the uninitialised `left_out` is read. -/
theorem scan_pointer_violates : ∃ (s : St Loc Nat Unit),
    Steps (scan ⟨fun _ => .error (), fun a _ => .ok a, false, false⟩ (fun _ => true) (fun _ => none) 1 0 0 2) (start fun _ => 0)
      (.halt .ub) s := by
  have : scan (V := Nat) (E := Unit) ⟨fun _ => .error (), fun a _ => .ok a, false, false⟩ (fun _ => true) (fun _ => none) 1 0 0 2 =
      .frame none (.frame none (.seq (.frame none (.sfork false (.frame none
        (.seq (atom1 (.tmp [false] 0) (.cell 0) (Fns.proj ⟨fun _ => .error (), fun a _ => .ok a, false, false⟩))
          (.seq (atom1 (.cell 0) (.tmp [false] 0) .ok) (.halt .ok))))
        (.frame none (rise ⟨fun _ => .error (), fun a _ => .ok a, false, false⟩ (fun _ => true) (fun _ => none) 1 .scan .rhs [true] 1 1 1))
        (.halt .ub))) (.halt .ok))) := by
    unfold scan
    rw [rise]
    have l1 : riseEnd (fun _ => true) 1 [false] 0 1 = 1 := by rw [riseEnd]; simp
    have l2 : riseEnd (fun _ => true) 1 [true] 1 1 = 2 := by rw [riseEnd]; simp
    have l3 : riseEnd (fun _ => true) 1 [] 0 2 = 2 := by rw [riseEnd]; simp [l1, l2]
    simp only [l3, l1]
    rw [show rise (V := Nat) (E := Unit) ⟨fun _ => .error (), fun a _ => .ok a, false, false⟩ (fun _ => true) (fun _ => none) 1 .scan
      Ival.all.l [false] 0 (2 / 2) 0 = (.seq (atom1 (.tmp [false] 0) (.cell 0) (Fns.proj ⟨fun _ => .error (), fun a _ => .ok a, false, false⟩))
          (.seq (atom1 (.cell 0) (.tmp [false] 0) .ok) (.halt .ok))) by (rw [rise]; simp [Ival.l, riseLeaf, scanLoop])]
    simp [Ival.r, l1]
  rw [this]
  refine head_ex (.frameStep (.frameStep (.seqStep (.frameStep (.sforkStep (.frameStep (.seqStep (.atomErr (e := ()) rfl)))))))) ?_
  refine head_ex (.frameStep (.frameStep (.seqStep (.frameStep (.sforkStep (.frameStep (.seqAbort (by simp)))))))) ?_
  refine head_ex (.frameStep (.frameStep (.seqStep (.frameStep (.sforkStep .frameEnd))))) ?_
  refine head_ex (.frameStep (.frameStep (.seqStep (.frameStep .sforkCap)))) ?_
  refine head_ex (.frameStep (.frameStep (.seqStep .frameEnd))) ?_
  refine head_ex (.frameStep (.frameStep (.seqAbort (by simp [taskEnd, capture])))) ?_
  refine head_ex (.frameStep .frameEnd) ?_
  exact head_ex .frameEnd ⟨_, .refl⟩

theorem not_scan_propagates : ∃ F : Fns Nat Unit, F.eag = false ∧ F.async = false ∧ ¬ ScanPropagates Nat Unit F fun _ => none := by
  refine ⟨⟨fun _ => .error (), fun a _ => .ok a, false, false⟩, rfl, rfl, fun h => ?_⟩
  obtain ⟨s, hs⟩ := scan_pointer_violates
  exact (h _ 1 0 0 2 (by decide) _ _ _ hs).1 rfl

/-! ### Non-vacuity -/

/-- A scan of seven elements in chunks of two, of which the fifth makes the projection throw: there is a complete execution, and it ends
with the exception or, if the fifth element is not projected, not at all. -/
example : ∃ o s, Steps (scan (V := Nat) (E := String) ⟨fun x => if x = 4 then .error "four" else .ok x, fun a b => .ok (a + b), false, false⟩
    (fun _ => true) (fun _ => some 0) 2 0 10 7) (start fun l => match l with | .cell a => a | _ => 0) (.halt o) s ∧ o ≠ .ub ∧
      (o = .ok ↔ s.log = []) := by
  obtain ⟨o, s, h⟩ := scan_completes (F := ⟨fun x => if x = 4 then .error "four" else .ok x, fun a b => .ok (a + b), false, false⟩) rfl
    (fun l => match l with | .cell a => a | _ => 0) (gb := fun _ => some 0) (fun _ => true) (n := 2) (src := 0) (dst := 10) (len := 7)
    (by decide) (fun _ => ⟨0, rfl, .inl (Nat.le_refl _)⟩)
  have := scan_propagates_partial (F := ⟨fun x => if x = 4 then .error "four" else .ok x, fun a b => .ok (a + b), false, false⟩) rfl
    (gb := fun _ => some 0) (fun _ => true) (n := 2) (src := 0) (dst := 10) (len := 7)
    (by decide) (fun _ => ⟨0, rfl, .inl (Nat.le_refl _)⟩) _ _ _ h
  exact ⟨o, s, h, this.1, this.2.1⟩

end Verif.Algo.Throw
