import Verif.Par.Props
import Verif.Exn.Example

/-! Executions of `lf::fold` and `lf::map` that meet the hypotheses of C63: by one worker, and by two after a steal. -/
namespace Verif.Par
open Verif.Mem (MS ReachAny step submit subs)
open Verif.Runtime (Res Ev)
open Verif.Exn (Choice)

section
variable {L V E : Type} [DecidableEq L]

/-- A schedule. -/
def exec : List (Nat × Choice (Dat V E)) → MS (T L V E) Unit (Dat V E) L → Res (MS (T L V E) Unit (Dat V E) L)
  | [], s => .ok s
  | (w, ch) :: l, s => Exn.Res.bind (step body w ch s) (exec l)

/-- The program is submitted to worker 0. -/
def sub (p : Algo.Cmd L V E) (m : L → V) : MS (T L V E) Unit (Dat V E) L := submit (MS.start .ret (vals m)) (task p) 0

theorem exec_reach {may : Dat V E → Prop} {m : L → V} {l : List (Nat × Choice (Dat V E))} {s s' : MS (T L V E) Unit (Dat V E) L}
    (h : ReachAny body pend may ok (vals m) s) (hl : ∀ a ∈ l, Mem.Allowed may a.2) (he : exec l s = .ok s') : ReachAny body pend may ok (vals m) s' := by
  induction l generalizing s with
  | nil => cases he; exact h
  | cons a l ih =>
    simp only [exec] at he
    cases hs : step body a.1 a.2 s with
    | ok s1 => rw [hs] at he; exact ih (h.step (hl a (by simp)) hs) (fun a ha => hl a (by simp [ha])) he
    | ub => rw [hs] at he; cases he
    | no => rw [hs] at he; cases he

theorem sub_reach {may : Dat V E → Prop} (p : Algo.Cmd L V E) (hp : Algo.RaceFree p) (m : L → V) : ReachAny body pend may ok (vals m) (sub p m) := by
  refine .submit 0 (.start _) (next_pend _).1 ⟨p, rfl, hp, ?_⟩
  rintro c ⟨f, w, h, _⟩
  cases h
end

abbrev t (w : Nat) : Nat × Choice (Dat (List Nat) Nat) := (w, .go .take)
abbrev steal (w v : Nat) : Nat × Choice (Dat (List Nat) Nat) := (w, .go (.steal v))

abbrev cat (a b : List Nat) : Except Nat (List Nat) := .ok (a ++ b)
abbrev idt (a : List Nat) : Except Nat (List Nat) := .ok a

/-- Concatenation of three lists: associative, not commutative. -/
def fold3 : Algo.Prog (List Nat) Nat :=
  .seq (.par (.atom1 (.tmp [] 1) (.cell 0) idt)
      (.seq (.par (.atom1 (.tmp [true] 1) (.cell 1) idt) (.atom1 (.tmp [true] 2) (.cell 2) idt)) (.atom2 (.tmp [] 2) (.tmp [true] 1) (.tmp [true] 2) cat)))
    (.atom2 .res (.tmp [] 1) (.tmp [] 2) cat)

theorem fold3_eq : Algo.foldTop idt cat 1 0 3 = some fold3 := by
  simp [Algo.foldTop, Algo.foldOne, fold3]

def mem3 : Algo.Loc → List Nat := fun l => match l with | .cell a => [a] | _ => []

def after (l : List (Nat × Choice (Dat (List Nat) Nat))) : Option (MS (T Algo.Loc (List Nat) Nat) Unit (Dat (List Nat) Nat) Algo.Loc) :=
  Exn.get? (exec l (sub fold3 mem3))

def alone : List (Nat × Choice (Dat (List Nat) Nat)) := List.replicate 26 (t 0)

/-- Worker 1 steals the parent while worker 0 has not yet projected the first element, folds the other two, and comes to the join first. -/
def stolen : List (Nat × Choice (Dat (List Nat) Nat)) := [t 0, t 0, steal 1 0] ++ List.replicate 19 (t 1) ++ List.replicate 10 (t 0)

/-- The second fork cannot allocate. -/
def failing : List (Nat × Choice (Dat (List Nat) Nat)) := List.replicate 7 (t 0) ++ [(0, .fail (.exn 7) false)] ++ List.replicate 3 (t 0)

theorem alone_log : (after alone).map (fun s => (subs s.x.c.log, s.x.c.log.head?, s.x.c.log.length, s.m .res)) =
    some ([(0, task fold3)], some (.done 0 (.ok ())), 23, .val [0, 1, 2]) := rfl

theorem stolen_log : (after stolen).map (fun s => (subs s.x.c.log, s.x.c.log.head?, s.x.c.log.length, s.m .res)) =
    some ([(0, task fold3)], some (.done 0 (.ok ())), 23, .val [0, 1, 2]) := rfl

theorem failing_log : (after failing).map (fun s => (subs s.x.c.log, s.x.c.log.head?, s.x.c.log.length, s.m .res)) =
    some ([(0, task fold3)], some (.done 0 (.error (.exn 7))), 13, .val []) := rfl

theorem fold3_free : Algo.RaceFree fold3 := (fold_all (by omega) (by omega) fold3_eq).2.1

theorem mem_head {α : Type} {l : List α} {a : α} (h : l.head? = some a) : a ∈ l := List.mem_of_mem_head? h

/-- The hypotheses of C63 are met: by an execution of two workers, in which the child that was forked first ends last. -/
example : ∃ s, ReachAny body pend (fun _ => False) ok (vals mem3) s ∧ subs s.x.c.log = [(0, task fold3)] ∧ Ev.done 0 (.ok ()) ∈ s.x.c.log ∧
    s.m .res = .val [0, 1, 2] := by
  obtain ⟨s, hs, e⟩ := Option.map_eq_some_iff.1 stolen_log
  simp only [Prod.mk.injEq] at e
  refine ⟨s, exec_reach (sub_reach fold3 fold3_free mem3) ?_ (Exn.get_ok hs), e.1, mem_head e.2.1, e.2.2.2⟩
  intro a ha
  simp only [stolen, List.mem_append, List.mem_cons, List.mem_replicate, List.not_mem_nil, or_false] at ha
  rcases ha with ((rfl | rfl | rfl) | ⟨_, rfl⟩) | ⟨_, rfl⟩ <;> trivial

/-- And by one in which an allocation fails. -/
example : ∃ s, ReachAny body pend (fun e => e = .exn 7) ok (vals mem3) s ∧ subs s.x.c.log = [(0, task fold3)] ∧
    Ev.done 0 (.error (.exn 7)) ∈ s.x.c.log := by
  obtain ⟨s, hs, e⟩ := Option.map_eq_some_iff.1 failing_log
  simp only [Prod.mk.injEq] at e
  refine ⟨s, exec_reach (sub_reach fold3 fold3_free mem3) ?_ (Exn.get_ok hs), e.1, mem_head e.2.1⟩
  intro a ha
  simp only [failing, List.mem_append, List.mem_cons, List.mem_replicate, List.not_mem_nil, or_false] at ha
  rcases ha with (⟨_, rfl⟩ | rfl) | ⟨_, rfl⟩ <;> first | trivial | rfl

/-- C63 on it. -/
example {s : MS (T Algo.Loc (List Nat) Nat) Unit (Dat (List Nat) Nat) Algo.Loc} (h : ReachAny body pend (fun _ => False) ok (vals mem3) s)
    (hs : subs s.x.c.log = [(0, task fold3)]) {r : Except (Dat (List Nat) Nat) Unit} (hd : Ev.done 0 r ∈ s.x.c.log) : s.m .res = .val [0, 1, 2] := by
  obtain ⟨m', h1, _, h2, _⟩ := C63_fold_assoc (fun x => x) (· ++ ·) List.append_assoc (by omega) (by omega) fold3_eq h hs hd
  rw [h1]
  show Dat.val (m' .res) = _
  rw [h2]; rfl

end Verif.Par
