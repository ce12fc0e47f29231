import Verif.Exn.Props

/-!
Concrete programs that throw: they meet the hypotheses of the theorems of Verif.Exn.Props, and the rules of `Disc` are needed.
-/
namespace Verif.Exn
open Verif.Runtime (State Res Few Ev status forked)

/-- The states of a task that forks one child that throws and one that does not, calls one that throws, and joins. -/
inductive P where
  | root
  | r1 (b : Bool)
  | r2 (b c : Bool)
  | r3
  | j1
  | out (e : Nat)
  | leaf (v : Nat)
  | bad (e : Nat)

def prog : P → Act P Nat Nat
  | .root => .fork (.bad 7) .r1 .out
  | .r1 b => .fork (.leaf 5) (.r2 b) (fun _ => .j1)
  | .r2 _ _ => .call (.bad 9) (fun _ => .r3) (fun _ => .r3)
  | .r3 => .join (fun vs => .leaf vs.sum) (fun e l => .leaf (10 * e + l.length))
  | .j1 => .join (fun vs => .leaf vs.sum) (fun e _ => .bad e)
  | .out e => .throw e
  | .leaf v => .ret v
  | .bad e => .throw e

def pPend : P → Nat
  | .r1 _ => 1
  | .r2 _ _ => 2
  | .r3 => 2
  | .j1 => 1
  | _ => 0

def pDirty : P → Prop
  | .r3 => True
  | _ => False

theorem prog_disc : Disc prog pPend pDirty where
  ret s v h := by cases s <;> simp only [prog] at h <;> cases h; exact ⟨rfl, id⟩
  throw s e h := by cases s <;> simp only [prog] at h <;> cases h <;> exact ⟨rfl, id⟩
  fork s c k x h := by
    cases s <;> simp only [prog] at h <;> cases h
    · exact ⟨rfl, fun b => ⟨rfl, id⟩, fun e => ⟨rfl, id⟩⟩
    · exact ⟨rfl, fun b => ⟨rfl, id⟩, fun e => ⟨rfl, id⟩⟩
  call s c k x h := by
    cases s <;> simp only [prog] at h <;> cases h
    exact ⟨rfl, fun r => ⟨rfl, fun _ => trivial⟩, fun e => ⟨rfl, fun _ => trivial⟩⟩
  join s k x h := by
    cases s <;> simp only [prog] at h <;> cases h
    · exact ⟨fun _ => rfl, fun _ _ => rfl⟩
    · exact ⟨fun _ => rfl, fun _ _ => rfl⟩
  switch s d k x h := by cases s <;> simp only [prog] at h <;> cases h

theorem prog_small (x : P) : pPend x ≤ 65534 := by cases x <;> simp [pPend]

/-- A schedule: which worker takes a step, and the choice. -/
def exec {σ V E : Type} (body : σ → Act σ V E) : List (Nat × Choice E) → XS σ V E → Res (XS σ V E)
  | [], s => .ok s
  | (w, ch) :: l, s => Res.bind (step body w ch s) (exec body l)

theorem exec_reach {σ V E : Type} {body : σ → Act σ V E} {pend : σ → Nat} {l : List (Nat × Choice E)} {s s' : XS σ V E}
    (h : ReachAny body pend (fun _ => True) s) (he : exec body l s = .ok s') : ReachAny body pend (fun _ => True) s' := by
  induction l generalizing s with
  | nil => cases he; exact h
  | cons a l ih =>
    obtain ⟨w, ch⟩ := a
    simp only [exec] at he
    cases hs : step body w ch s with
    | ok s1 => rw [hs] at he; exact ih (h.step (by cases ch <;> trivial) hs) he
    | ub => rw [hs] at he; cases he
    | no => rw [hs] at he; cases he

def get? {α : Type} : Res α → Option α
  | .ok a => some a
  | _ => none

theorem get_ok {α : Type} {r : Res α} {a : α} (h : get? r = some a) : r = .ok a := by
  cases r <;> simp [get?] at h; rw [h]

/-- The task submitted to worker 0. -/
def sub {σ V E : Type} (x : σ) : XS σ V E := submit (XS.start x) x 0

abbrev g : Choice Nat := .go .take

/-- Worker 0 alone: the forked child throws first, its exception is the one rethrown. -/
def alone : List (Nat × Choice Nat) := List.replicate 11 (0, g)

/-- Worker 1 steals the task before its first child has started to run, and the callee throws first. -/
def stolen : List (Nat × Choice Nat) :=
  [(0, g), (0, g), (1, .go (.steal 0)), (1, g), (1, g), (1, g), (1, g), (1, g), (1, g), (1, g), (1, g), (1, g), (0, g), (0, g), (0, g),
    (0, g), (0, g), (1, g)]

/-- The second fork cannot allocate: the task joins the first child, whose exception is rethrown, and throws it. -/
def fails : List (Nat × Choice Nat) := [(0, g), (0, g), (0, g), (0, g), (0, .fail 1 true), (0, g), (0, g)]

theorem alone_log : (get? (exec prog alone (sub .root))).map (·.c.log) = some
    [.done 0 (.ok 72), .resume 0 0, .suspend 0 .join, .resume 0 0, .done 3 (.error 9), .resume 3 0, .suspend 0 (.call 3), .resume 0 0,
      .done 2 (.ok 5), .resume 2 0, .suspend 0 (.fork 2), .resume 0 0, .done 1 (.error 7), .resume 1 0, .suspend 0 (.fork 1),
      .resume 0 0, .submit 0 .root 0] := rfl

theorem stolen_log : (get? (exec prog stolen (sub .root))).map (·.c.log) = some
    [.done 0 (.ok 92), .resume 0 0, .done 1 (.error 7), .suspend 0 .join, .resume 0 1, .done 3 (.error 9), .resume 3 1,
      .suspend 0 (.call 3), .resume 0 1, .done 2 (.ok 5), .resume 2 1, .suspend 0 (.fork 2), .resume 0 1, .resume 1 0,
      .suspend 0 (.fork 1), .resume 0 0, .submit 0 .root 0] := rfl

theorem fails_log : (get? (exec prog fails (sub .root))).map (·.c.log) = some
    [.done 0 (.error 7), .resume 0 0, .suspend 0 .join, .resume 0 0, .done 1 (.error 7), .resume 1 0, .suspend 0 (.fork 1), .resume 0 0,
      .submit 0 .root 0] := rfl

theorem sub_reach : ReachAny prog pPend (fun _ => True) (sub .root) := (ReachAny.start _).submit 0 rfl

/-- These schedules meet the hypotheses of the theorems, and run to the end. -/
theorem prog_run (l : List (Nat × Choice Nat)) {lg : List (Ev P (Except Nat Nat))} (h : (get? (exec prog l (sub .root))).map (·.c.log) = some lg) :
    ∃ s, Reach prog pPend (fun _ => True) s ∧ Few s.c ∧ s.c.log = lg := by
  rw [Option.map_eq_some_iff] at h
  obtain ⟨s, hs, e⟩ := h
  exact ⟨s, (reach_of_bounded prog_disc prog_small (exec_reach sub_reach (get_ok hs))).1,
    (reach_of_bounded prog_disc prog_small (exec_reach sub_reach (get_ok hs))).2, e⟩

/-- `result_serial`: both results are results of the serial elision, which exception is rethrown depends on the schedule. -/
example : Ser prog (fun _ => True) .root [] [] (.ok 72) ∧ Ser prog (fun _ => True) .root [] [] (.ok 92) ∧
    Ser prog (fun _ => True) .root [] [] (.error 7) := by
  refine ⟨?_, ?_, ?_⟩
  · obtain ⟨s, hr, _, hl⟩ := prog_run alone alone_log
    exact result_serial prog_disc hr (f := 0) (w := 0) (by rw [hl]; simp) (by rw [hl]; simp)
  · obtain ⟨s, hr, _, hl⟩ := prog_run stolen stolen_log
    exact result_serial prog_disc hr (f := 0) (w := 0) (by rw [hl]; simp) (by rw [hl]; simp)
  · obtain ⟨s, hr, _, hl⟩ := prog_run fails fails_log
    exact result_serial prog_disc hr (f := 0) (w := 0) (by rw [hl]; simp) (by rw [hl]; simp)

theorem bad_ser {may : Nat → Prop} {e : Nat} {rs : List (Except Nat Nat)} {es : List Nat} {r : Except Nat Nat}
    (h : Ser prog may (.bad e) rs es r) : r = .error e := by
  cases h with
  | throw hb => cases hb; rfl
  | ret hb => cases hb
  | fork _ hb => cases hb
  | call hb => cases hb
  | callThrew hb => cases hb
  | join hb => cases hb
  | rethrow hb => cases hb
  | switch hb => cases hb
  | forkFails _ _ hb => cases hb
  | callFails _ _ hb => cases hb
  | switchFails _ _ hb => cases hb

theorem leaf_ser {may : Nat → Prop} {v : Nat} {rs : List (Except Nat Nat)} {es : List Nat} {r : Except Nat Nat}
    (h : Ser prog may (.leaf v) rs es r) : r = .ok v := by
  cases h with
  | ret hb => cases hb; rfl
  | throw hb => cases hb
  | fork _ hb => cases hb
  | call hb => cases hb
  | callThrew hb => cases hb
  | join hb => cases hb
  | rethrow hb => cases hb
  | switch hb => cases hb
  | forkFails _ _ hb => cases hb
  | callFails _ _ hb => cases hb
  | switchFails _ _ hb => cases hb

/-- The exceptions are not swallowed: without failing forks every schedule ends with what the handler of the join makes of one of the
two exceptions. -/
theorem prog_ser {r : Except Nat Nat} (h : Ser prog (fun _ => False) .root [] [] r) : r = .ok 72 ∨ r = .ok 92 := by
  cases h with
  | ret hb => cases hb
  | throw hb => cases hb
  | call hb => cases hb
  | callThrew hb => cases hb
  | join hb => cases hb
  | rethrow hb => cases hb
  | switch hb => cases hb
  | forkFails _ hf => exact hf.elim
  | callFails _ hf => exact hf.elim
  | switchFails _ hf => exact hf.elim
  | fork b hb h1 h2 =>
    cases hb
    cases bad_ser h1
    cases h2 with
    | ret hb => cases hb
    | throw hb => cases hb
    | call hb => cases hb
    | callThrew hb => cases hb
    | join hb => cases hb
    | rethrow hb => cases hb
    | switch hb => cases hb
    | forkFails _ hf => exact hf.elim
    | callFails _ hf => exact hf.elim
    | switchFails _ hf => exact hf.elim
    | fork b hb h1 h2 =>
      cases hb
      cases leaf_ser h1
      cases h2 with
      | ret hb => cases hb
      | throw hb => cases hb
      | fork _ hb => cases hb
      | join hb => cases hb
      | rethrow hb => cases hb
      | switch hb => cases hb
      | forkFails _ hf => exact hf.elim
      | callFails _ hf => exact hf.elim
      | switchFails _ hf => exact hf.elim
      | call hb h1 => cases hb; cases bad_ser h1
      | callThrew hb h1 h2 =>
        cases hb
        cases bad_ser h1
        cases h2 with
        | ret hb => cases hb
        | throw hb => cases hb
        | fork _ hb => cases hb
        | call hb => cases hb
        | callThrew hb => cases hb
        | switch hb => cases hb
        | forkFails _ hf => exact hf.elim
        | callFails _ hf => exact hf.elim
        | switchFails _ hf => exact hf.elim
        | rethrow hb he h1 =>
          cases hb
          simp [errs] at he
          rcases he with rfl | rfl
          · exact .inl (leaf_ser h1)
          · exact .inr (leaf_ser h1)

/-- `join_after_children` on the second schedule: worker 0 resumes the task when both children have ended. -/
example : ∀ c ∈ [2, 1], ∃ r, Ev.done c r ∈ ([.done 1 (.error 7), .suspend 0 .join, .resume 0 1, .done 3 (.error 9), .resume 3 1,
      .suspend 0 (.call 3), .resume 0 1, .done 2 (.ok 5), .resume 2 1, .suspend 0 (.fork 2), .resume 0 1, .resume 1 0,
      .suspend 0 (.fork 1), .resume 0 0, .submit 0 .root 0] : List (Ev P (Except Nat Nat))) := by
  obtain ⟨s, hr, _, hl⟩ := prog_run stolen stolen_log
  exact join_after_children prog_disc hr (f := 0) (w := 0) (l2 := [.done 0 (.ok 92)]) hl rfl

/-- `sync_fork` on the first schedule up to the first resumption after a fork, and on the second: the answers are `true` and `false`. -/
example : (get? (exec prog [(0, g), (0, g), (0, g), (0, g)] (sub .root))).map (fun s => ((s.c.fr 0).st, (s.c.fr 0).stolen)) = some (.r1 true, 0) :=
  rfl
example : (get? (exec prog (stolen.take 4) (sub .root))).map (fun s => ((s.c.fr 0).st, (s.c.fr 0).stolen)) = some (.r1 false, 1) := rfl

/-- `nothing_lost`, `nothing_leaks`: the final state of the second schedule. -/
example : ∃ s, Reach prog pPend (fun _ => True) s ∧ (∀ w, s.c.pc w = .idle) ∧ (∀ w, s.c.inbox w = []) ∧ s.c.nf = 4 := by
  have h : ((get? (exec prog stolen (sub .root))).map fun s => s.c.nf) = some 4 := rfl
  rw [Option.map_eq_some_iff] at h
  obtain ⟨s, hs, hn⟩ := h
  refine ⟨s, (reach_of_bounded prog_disc prog_small (exec_reach sub_reach (get_ok hs))).1, ?_, ?_, hn⟩ <;>
  · intro w
    injection hs with hs
    subst hs
    match w with
    | 0 => rfl
    | 1 => rfl
    | w + 2 => rfl

/-- `fail_atomic`: a state in which the second fork fails. -/
example : ∃ s, Reach prog pPend (fun _ => True) s ∧ s.c.pc 0 = .run 0 ∧ prog (s.c.fr 0).st = .fork (.leaf 5) (.r2 true) (fun _ => .j1) := by
  have h : ((get? (exec prog [(0, g), (0, g), (0, g), (0, g)] (sub .root))).map fun s => (s.c.pc 0, (s.c.fr 0).st)) = some (.run 0, .r1 true) := rfl
  rw [Option.map_eq_some_iff] at h
  obtain ⟨s, hs, hn⟩ := h
  cases hn' : (s.c.fr 0).st with
  | r1 b =>
    rw [hn'] at hn
    obtain ⟨h1, h2⟩ := Prod.mk.inj hn
    cases h2
    exact ⟨s, (reach_of_bounded prog_disc prog_small (exec_reach sub_reach (get_ok hs))).1, h1, by rw [hn']; rfl⟩
  | _ => rw [hn'] at hn; obtain ⟨_, h2⟩ := Prod.mk.inj hn; cases h2

/-! ### The rules are needed -/

/-- A task that lets an exception leave its scope while a child is outstanding. -/
def wild : Nat → Act Nat Nat Nat
  | 0 => .fork 2 (fun _ => 1) (fun _ => 3)
  | 1 => .throw 3
  | 2 => .ret 5
  | _ => .ret 0

/-- promise.hpp:302-316: if the task is stolen its frame would be destroyed under the running child; the assertion fails. -/
theorem scope_left_ub : exec wild [(0, g), (0, g), (1, .go (.steal 0)), (1, g), (1, g)] (sub 0) = .ub := rfl

/-- A task that does not join after a call that threw. -/
def hasty : Nat → Act Nat Nat Nat
  | 0 => .call 2 (fun _ => 1) (fun _ => 1)
  | 1 => .ret 0
  | _ => .throw 4

/-- The exception would be lost; promise.hpp:316 asserts that there is none. -/
theorem call_threw_ub : exec hasty [(0, g), (0, g), (0, g), (0, g)] (sub 0) = .ub := rfl

end Verif.Exn
