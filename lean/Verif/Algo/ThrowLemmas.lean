import Verif.Algo.ThrowModel
import Verif.Algo.ScanLemmas

/-! C48: invariant of executions in which every captured exception reaches a join. -/
namespace Verif.Algo.Throw
variable {L V E : Type}

/-- Nothing was thrown; an exception is on its way out; an exception is pending in the frame and a join will come. -/
inductive Mode where
  | calm | thrown | pending
  deriving DecidableEq

/-- The body of a task, or the outcome of a finished one. -/
def isTask : Cmd L V E → Prop
  | .halt _ => True
  | .frame _ _ => True
  | _ => False

/-- `G l b p`: the command is in mode `b`; the exceptions in it are in the log `l`. -/
inductive G : List (E × Bool) → Mode → Cmd L V E → Prop where
  | ok {l} : G l .calm (.halt .ok)
  | exn {l e c} : (e, c) ∈ l → G l .thrown (.halt (.exn e))
  | atom {l w k rs f} : (∀ v e c, f v = .error (e, c) → c = false) → G l .calm (.atom w k rs f)
  | seq {l b p q} : G l b p → G l .calm q → G l b (.seq p q)
  | sforkE {l b p q r} : isTask p → b ≠ .pending → G l b p → G l .calm q → G l b (.sfork true p q r)
  | sfork {l b p q r} : isTask p → b ≠ .pending → G l b p → G l .calm q → (∀ l', G l' .pending r) → G l b (.sfork false p q r)
  | parC {l p q} : isTask p → isTask q → G l .calm p → G l .calm q → G l .calm (.par p q)
  | parT {l b1 b2 p q} : isTask p → isTask q → b1 ≠ .pending → b2 ≠ .pending → G l b1 p → G l b2 q →
      b1 = .thrown ∨ b2 = .thrown → G l .thrown (.par p q)
  | parP {l b1 b2 p q} : isTask p → isTask q → b1 ≠ .pending → b2 ≠ .pending → G l b1 p → G l b2 q →
      G l .pending (.par p q)
  | frame {l b p} : b ≠ .pending → G l b p → G l b (.frame none p)
  | frameP {l e c p} : (e, c) ∈ l → G l .pending p → G l .thrown (.frame (some e) p)

theorem G.mono {l b} {p : Cmd L V E} (h : G l b p) {l'} (hl : ∀ x ∈ l, x ∈ l') : G l' b p := by
  induction h generalizing l' with
  | ok => exact .ok
  | exn h => exact .exn (hl _ h)
  | atom h => exact .atom h
  | seq _ _ i1 i2 => exact .seq (i1 hl) (i2 hl)
  | sforkE ht hb _ _ i1 i2 => exact .sforkE ht hb (i1 hl) (i2 hl)
  | sfork ht hb _ _ h3 i1 i2 _ => exact .sfork ht hb (i1 hl) (i2 hl) h3
  | parC a b _ _ i1 i2 => exact .parC a b (i1 hl) (i2 hl)
  | parT a b c d _ _ h i1 i2 => exact .parT a b c d (i1 hl) (i2 hl) h
  | parP a b c d _ _ i1 i2 => exact .parP a b c d (i1 hl) (i2 hl)
  | frame hb _ i => exact .frame hb (i hl)
  | frameP h _ i => exact .frameP (hl _ h) (i hl)

/-- The mode agrees with the pending exception of the running task. -/
def Agrees (l : List (E × Bool)) : Mode → Option E → Prop
  | .pending, some e => ∃ c, (e, c) ∈ l
  | .pending, none => False
  | _, none => True
  | _, some _ => False

theorem Agrees.none {l : List (E × Bool)} {b x} (h : Agrees l b x) (hb : b ≠ .pending) : x = none := by
  cases b <;> cases x <;> simp_all [Agrees]

theorem agrees_none {l : List (E × Bool)} {b} (hb : b ≠ .pending) : Agrees l b none := by
  cases b <;> simp_all [Agrees]

theorem Agrees.mono {l l' : List (E × Bool)} {b x} (h : Agrees l b x) (hl : ∀ y ∈ l, y ∈ l') : Agrees l' b x := by
  cases b <;> cases x <;> try exact h
  obtain ⟨c, hc⟩ := h
  exact ⟨c, hl _ hc⟩

variable [DecidableEq L]

theorem task_step {p : Cmd L V E} {s p' s'} (h : Step p s p' s') (ht : isTask p) : isTask p' ∧ s'.pd = s.pd := by
  cases h <;> first | exact ⟨trivial, rfl⟩ | exact ht.elim

theorem step_log {p : Cmd L V E} {s p' s'} (h : Step p s p' s') : ∀ x ∈ s.log, x ∈ s'.log := by
  induction h with
  | atomErr => intro x hx; simp [hx]
  | atomCap => intro x hx; simp [hx]
  | seqStep _ ih => exact ih
  | parL _ ih => exact ih
  | parR _ ih => exact ih
  | sforkStep _ ih => exact ih
  | frameStep _ ih => exact ih
  | _ => intro x hx; exact hx

theorem taskEnd_calm {l : List (E × Bool)} {pd : Option E} {o : Out E} (h : G (L := L) (V := V) l .calm (.frame pd (.halt o))) :
    G (L := L) (V := V) l .calm (.halt (taskEnd pd o)) := by
  cases h with
  | frame _ h => exact h

theorem taskEnd_thrown {l : List (E × Bool)} {pd : Option E} {o : Out E} (h : G (L := L) (V := V) l .thrown (.frame pd (.halt o))) :
    G (L := L) (V := V) l .thrown (.halt (taskEnd pd o)) := by
  cases h with
  | frame _ h => exact h
  | frameP _ h => cases h

theorem taskEnd_mode {l : List (E × Bool)} {b : Mode} {pd : Option E} {o : Out E} (hb : b ≠ .pending)
    (h : G (L := L) (V := V) l b (.frame pd (.halt o))) : G (L := L) (V := V) l b (.halt (taskEnd pd o)) := by
  cases b with
  | calm => exact taskEnd_calm h
  | thrown => exact taskEnd_thrown h
  | pending => exact absurd rfl hb

theorem not_pending_frame {l : List (E × Bool)} {pd : Option E} {p : Cmd L V E} (h : G l .pending (.frame pd p)) : False := by
  cases h with
  | frame hb _ => exact hb rfl

/-- The mode of a frame's body. -/
theorem body {l : List (E × Bool)} {b : Mode} {pd : Option E} {p : Cmd L V E} (h : G l b (.frame pd p)) :
    ∃ b', G l b' p ∧ Agrees l b' pd ∧ (b' = .calm → b = .calm) ∧ (b = .calm → b' = .calm) := by
  cases h with
  | frame hb h => exact ⟨b, h, agrees_none hb, id, id⟩
  | frameP he h => exact ⟨.pending, h, ⟨_, he⟩, nofun, nofun⟩

theorem unbody {l : List (E × Bool)} {b : Mode} {pd : Option E} {p : Cmd L V E} (h : G l b p) (ha : Agrees l b pd) :
    ∃ b', G l b' (.frame pd p) ∧ b' ≠ .pending ∧ (b' = .calm ↔ b = .calm) := by
  cases b with
  | calm => cases pd with
    | none => exact ⟨.calm, .frame nofun h, nofun, Iff.rfl⟩
    | some e => exact ha.elim
  | thrown => cases pd with
    | none => exact ⟨.thrown, .frame nofun h, nofun, Iff.rfl⟩
    | some e => exact ha.elim
  | pending => cases pd with
    | none => exact ha.elim
    | some e => obtain ⟨c, hc⟩ := ha; exact ⟨.thrown, .frameP hc h, nofun, by simp⟩

theorem par_mode {l : List (E × Bool)} {b : Mode} {p q : Cmd L V E} (h : G l b (.par p q)) :
    ∃ b1 b2, isTask p ∧ isTask q ∧ b1 ≠ .pending ∧ b2 ≠ .pending ∧ G l b1 p ∧ G l b2 q ∧
      (b = .calm → b1 = .calm ∧ b2 = .calm) ∧ (b = .thrown → b1 = .thrown ∨ b2 = .thrown) := by
  cases h with
  | parC a b h1 h2 => exact ⟨.calm, .calm, a, b, nofun, nofun, h1, h2, fun _ => ⟨rfl, rfl⟩, nofun⟩
  | parT a b c d h1 h2 h => exact ⟨_, _, a, b, c, d, h1, h2, nofun, fun _ => h⟩
  | parP a b c d h1 h2 => exact ⟨_, _, a, b, c, d, h1, h2, nofun, nofun⟩

/-- Build a `par` again. -/
theorem mk_par {l : List (E × Bool)} {b b1 b2 : Mode} {x : Option E} {p q : Cmd L V E} (ha : Agrees l b x) (h1 : isTask p) (h2 : isTask q)
    (h3 : b1 ≠ .pending) (h4 : b2 ≠ .pending) (g1 : G l b1 p) (g2 : G l b2 q)
    (ht : b = .thrown → b1 = .thrown ∨ b2 = .thrown) :
    ∃ b', Agrees l b' x ∧ G l b' (.par p q) ∧ (b' = .calm → b = .calm ∧ b1 = .calm ∧ b2 = .calm) := by
  by_cases hp : b = .pending
  · subst hp; exact ⟨.pending, ha, .parP h1 h2 h3 h4 g1 g2, nofun⟩
  · have hx := ha.none hp; subst hx
    by_cases hc : b1 = .thrown ∨ b2 = .thrown
    · exact ⟨.thrown, trivial, .parT h1 h2 h3 h4 g1 g2 hc, nofun⟩
    · have e1 : b1 = .calm := by cases b1 <;> simp_all
      have e2 : b2 = .calm := by cases b2 <;> simp_all
      subst e1 e2
      refine ⟨.calm, trivial, .parC h1 h2 g1 g2, fun _ => ⟨?_, rfl, rfl⟩⟩
      cases b <;> simp_all

theorem step_pres {p : Cmd L V E} {s p' s'} (h : Step p s p' s') {b : Mode} (g : G s.log b p) (a : Agrees s.log b s.pd) :
    ∃ b', G s'.log b' p' ∧ Agrees s'.log b' s'.pd ∧ (b' = .calm → b = .calm ∧ s'.log = s.log) := by
  induction h generalizing b with
  | atomOk h => cases g; exact ⟨.calm, .ok, a, fun _ => ⟨rfl, rfl⟩⟩
  | @atomErr w k rs f s e h =>
    cases g
    refine ⟨.thrown, .exn (e := e) (c := false) (by simp), ?_, nofun⟩
    have := a.none nofun
    simp [this, Agrees]
  | @atomCap w k rs f s e v h =>
    cases g with
    | atom hf => exact absurd (hf _ _ _ h) nofun
  | @seqStep p q s p' s' st ih =>
    cases g with
    | seq g1 g2 =>
      obtain ⟨b', h1, h2, h3⟩ := ih g1 a
      exact ⟨b', .seq h1 (g2.mono (step_log st)), h2, h3⟩
  | @seqOk q s =>
    cases g with
    | seq g1 g2 =>
      cases g1
      exact ⟨.calm, g2, a, fun _ => ⟨rfl, rfl⟩⟩
  | @seqAbort o q s ho =>
    cases g with
    | seq g1 g2 =>
      cases g1 with
      | ok => exact absurd rfl ho
      | exn h => exact ⟨.thrown, .exn h, a, nofun⟩
  | @parL p q s pd p' m' pd' log' st ih =>
    obtain ⟨b1, b2, h1, h2, h3, h4, g1, g2, hc, ht⟩ := par_mode g
    obtain ⟨b0, k1, k2, k3, k4⟩ := body g1
    obtain ⟨b', i1, i2, i3⟩ := ih k1 k2
    obtain ⟨b'', j1, j2, j3⟩ := unbody i1 i2
    have hl := step_log st
    have ha : Agrees log' b s.pd := a.mono hl
    have hb : b = .thrown → b'' = .thrown ∨ b2 = .thrown := by
      intro hb
      rcases ht hb with h | h
      · left
        have : b'' ≠ .calm := fun e => by
          have := (i3 (j3.1 e)).1
          have := k3 this
          simp_all
        cases b'' <;> simp_all
      · exact Or.inr h
    obtain ⟨b3, l1, l2, l3⟩ := mk_par (p := .frame pd' p') ha trivial h2 j2 h4 j1 (g2.mono hl) hb
    exact ⟨b3, l2, l1, fun e => ⟨(l3 e).1, (i3 (j3.1 (l3 e).2.1)).2⟩⟩
  | @parR p q s pd q' m' pd' log' st ih =>
    obtain ⟨b1, b2, h1, h2, h3, h4, g1, g2, hc, ht⟩ := par_mode g
    obtain ⟨b0, k1, k2, k3, k4⟩ := body g2
    obtain ⟨b', i1, i2, i3⟩ := ih k1 k2
    obtain ⟨b'', j1, j2, j3⟩ := unbody i1 i2
    have hl := step_log st
    have ha : Agrees log' b s.pd := a.mono hl
    have hb : b = .thrown → b1 = .thrown ∨ b'' = .thrown := by
      intro hb
      rcases ht hb with h | h
      · exact Or.inl h
      · right
        have : b'' ≠ .calm := fun e => by
          have := (i3 (j3.1 e)).1
          have := k3 this
          simp_all
        cases b'' <;> simp_all
    obtain ⟨b3, l1, l2, l3⟩ := mk_par (q := .frame pd' q') ha h1 trivial h3 j2 (g1.mono hl) j1 hb
    exact ⟨b3, l2, l1, fun e => ⟨(l3 e).1, (i3 (j3.1 (l3 e).2.2)).2⟩⟩
  | @parEndL pd o q s =>
    obtain ⟨b1, b2, h1, h2, h3, h4, g1, g2, hc, ht⟩ := par_mode g
    obtain ⟨b3, l1, l2, l3⟩ := mk_par (p := .halt (taskEnd pd o)) a trivial h2 h3 h4 (taskEnd_mode h3 g1) g2 ht
    exact ⟨b3, l2, l1, fun e => ⟨(l3 e).1, rfl⟩⟩
  | @parEndR pd o p s =>
    obtain ⟨b1, b2, h1, h2, h3, h4, g1, g2, hc, ht⟩ := par_mode g
    obtain ⟨b3, l1, l2, l3⟩ := mk_par (q := .halt (taskEnd pd o)) a h1 trivial h3 h4 g1 (taskEnd_mode h4 g2) ht
    exact ⟨b3, l2, l1, fun e => ⟨(l3 e).1, rfl⟩⟩
  | @parJoin o1 o2 o s hj =>
    obtain ⟨b1, b2, h1, h2, h3, h4, g1, g2, hc, ht⟩ := par_mode g
    have u1 : o1 ≠ .ub := fun e => by subst e; cases g1
    have u2 : o2 ≠ .ub := fun e => by subst e; cases g2
    generalize hx : s.pd = x at hj a
    cases hj with
    | ubL => exact absurd rfl u1
    | ubR => exact absurd rfl u2
    | ok =>
      cases g1; cases g2
      have : b = .calm := by
        cases b with
        | calm => rfl
        | thrown => simp at ht
        | pending => exact a.elim
      exact ⟨.calm, .ok, trivial, fun _ => ⟨this, rfl⟩⟩
    | left _ =>
      cases g1 with
      | exn h => exact ⟨.thrown, .exn h, trivial, nofun⟩
    | right _ =>
      cases g2 with
      | exn h => exact ⟨.thrown, .exn h, trivial, nofun⟩
    | pending =>
      cases b with
      | calm => exact a.elim
      | thrown => exact a.elim
      | pending => obtain ⟨c, hc⟩ := a; exact ⟨.thrown, .exn hc, trivial, nofun⟩
  | @sforkStep eag p q r s p' s' st ih =>
    have hl := step_log st
    cases g with
    | sforkE ht hb g1 g2 =>
      obtain ⟨b', i1, i2, i3⟩ := ih g1 a
      obtain ⟨k1, k2⟩ := task_step st ht
      have hb' : b' ≠ .pending := fun e => by
        rw [k2, a.none hb, e] at i2; exact i2
      exact ⟨b', .sforkE k1 hb' i1 (g2.mono hl), i2, i3⟩
    | sfork ht hb g1 g2 g3 =>
      obtain ⟨b', i1, i2, i3⟩ := ih g1 a
      obtain ⟨k1, k2⟩ := task_step st ht
      have hb' : b' ≠ .pending := fun e => by
        rw [k2, a.none hb, e] at i2; exact i2
      exact ⟨b', .sfork k1 hb' i1 (g2.mono hl) g3, i2, i3⟩
  | sforkOk =>
    cases g with
    | sforkE ht hb g1 g2 => cases g1; exact ⟨.calm, g2, a, fun _ => ⟨rfl, rfl⟩⟩
    | sfork ht hb g1 g2 g3 => cases g1; exact ⟨.calm, g2, a, fun _ => ⟨rfl, rfl⟩⟩
  | sforkUb =>
    cases g with
    | sforkE ht hb g1 g2 => cases g1
    | sfork ht hb g1 g2 g3 => cases g1
  | sforkThrow =>
    cases g with
    | sforkE ht hb g1 g2 => cases g1 with | exn h => exact ⟨.thrown, .exn h, a, nofun⟩
  | @sforkCap q r s e =>
    cases g with
    | sfork ht hb g1 g2 g3 =>
      cases g1 with
      | exn h =>
        have := a.none hb
        exact ⟨.pending, g3 _, by simp only [this, capture]; exact ⟨_, h⟩, nofun⟩
  | @frameStep p s pd p' m' pd' log' st ih =>
    obtain ⟨b0, k1, k2, k3, k4⟩ := body g
    obtain ⟨b', i1, i2, i3⟩ := ih k1 k2
    obtain ⟨b'', j1, j2, j3⟩ := unbody i1 i2
    have : b ≠ .pending := fun e => by subst e; exact not_pending_frame g
    have hx := a.none this
    refine ⟨b'', j1, ?_, fun e => ?_⟩
    · show Agrees _ _ s.pd
      rw [hx]; exact agrees_none j2
    · obtain ⟨e1, e2⟩ := i3 (j3.1 e)
      exact ⟨k3 e1, e2⟩
  | frameEnd =>
    have hb : b ≠ .pending := fun e => by subst e; exact not_pending_frame g
    exact ⟨b, taskEnd_mode hb g, a, fun e => ⟨e, rfl⟩⟩

end Verif.Algo.Throw
