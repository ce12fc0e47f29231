import Verif.Sync.Props
import Verif.Exn.Example

/-! A task that, as scan.hpp:268-277 does, forks `sync_outside` and returns without a join if the child has completed, and the executions
in which it has and has not; and why the child must not throw. -/
namespace Verif.Sync
open Verif.Runtime (Res Ev Few)
open Verif.Exn (Choice)
open Verif.Mem (MS)

/-- The task forks a child that writes cell 1 and returns 10, or throws. -/
inductive P where
  | main
  | got (v : Nat)
  | fin (v : Nat)
  | wait
  | leaf
  | last
  deriving DecidableEq

def prog (throws : Bool) : P → Act P Nat Nat Nat
  | .main => .out .leaf (fun o => match o with | some v => .got v | none => .wait) fun _ => .fin 0
  | .got v => .plain (.store 0 v (.fin v))
  | .fin v => .plain (.ret v)
  | .wait => .plain (.join (fun l => match l with | [v] => .got v | _ => .fin 0) fun _ _ => .fin 0)
  | .leaf => .plain (.store 1 10 .last)
  | .last => .plain (if throws then .throw 7 else .ret 10)

def pPend : P → Nat
  | .wait => 1
  | _ => 0

theorem prog_disc (b : Bool) : Disc (prog b) pPend fun _ => False where
  plain y a h := by
    have : ∀ z : P, ¬ False := fun _ => id
    cases y <;> simp only [prog] at h <;> cases h
    case got v =>
      constructor <;> intros <;> simp_all [pPend]
      rename_i h; rw [← h.2.2]
    case fin v => constructor <;> intros <;> simp_all [pPend]
    case wait =>
      constructor <;> intros <;> simp_all [pPend]
      rename_i h
      obtain ⟨rfl, rfl⟩ := h
      refine ⟨fun l => ?_, fun _ _ => rfl⟩
      match l with
      | [] => rfl
      | [_] => rfl
      | _ :: _ :: _ => rfl
    case leaf =>
      constructor <;> intros <;> simp_all [pPend]
      rename_i h; rw [← h.2.2]
    case last => cases b <;> constructor <;> intros <;> simp_all [pPend]
  out := by
    constructor <;> intro y <;> cases y <;> simp [prog] <;> intros <;> subst_vars <;> first | rfl | exact ⟨rfl, rfl⟩

/-- The child returns 10. -/
def J : List (Nat → Prop) → (Nat → Prop) → P → Prop
  | Qs, Q, .main => Qs = [] ∧ Q 10
  | Qs, Q, .got v => Qs = [] ∧ Q v
  | Qs, Q, .fin v => Qs = [] ∧ Q v
  | Qs, Q, .wait => Qs = [(· = 10)] ∧ Q 10
  | Qs, Q, .leaf => Qs = [] ∧ Q 10
  | Qs, Q, .last => Qs = [] ∧ Q 10

theorem calm : Calm (prog false) (fun _ => False) J where
  ret {Qs Q y v} hJ h := by cases y <;> simp only [prog] at h <;> cases h <;> exact hJ.2
  throw {Qs Q y e} hJ h := by cases y <;> simp only [prog] at h <;> cases h
  fork {Qs Q y c k x} hJ h := by cases y <;> simp only [prog] at h <;> cases h
  call {Qs Q y c k x} hJ h := by cases y <;> simp only [prog] at h <;> cases h
  join {Qs Q y k x} hJ h vs hm := by
    cases y <;> simp only [prog] at h <;> cases h
    obtain ⟨rfl, hQ⟩ := hJ
    cases hm with
    | cons hv hm =>
      cases hm
      rw [hv]
      exact ⟨rfl, hQ⟩
  switch {Qs Q y d k x} hJ h := by cases y <;> simp only [prog] at h <;> cases h
  load {Qs Q y l k} hJ h := by cases y <;> simp only [prog] at h <;> cases h
  store {Qs Q y l d k} hJ h := by cases y <;> simp only [prog] at h <;> cases h <;> exact hJ
  out {Q y c k x} hJ h := by
    cases y <;> simp only [prog] at h <;> cases h
    exact ⟨⟨(· = 10), ⟨rfl, rfl⟩, (fun v hv => ⟨rfl, by rw [hv]; exact hJ.2⟩), rfl, hJ.2⟩, fun _ h => h.elim⟩

theorem safe (ok : (P → Prop) → P → Prop) : Safe (prog false) (fun _ => False) ok J := .of calm fun {y c k x} h => by
  cases y <;> simp only [prog] at h <;> cases h
  exact ⟨(· = 10), rfl, rfl⟩

def exec (body : P → Act P Nat Nat Nat) : List (Nat × Runtime.Choice) → MS (St P) Nat Nat Nat → Res (MS (St P) Nat Nat Nat)
  | [], s => .ok s
  | (w, ch) :: l, s => Exn.Res.bind (step body w (.go ch) s) (exec body l)

abbrev any : (P → Prop) → P → Prop := fun _ _ => True

theorem exec_reach {body : P → Act P Nat Nat Nat} {m : Nat → Nat} {l : List (Nat × Runtime.Choice)} {s s' : MS (St P) Nat Nat Nat}
    (h : ReachAny body pPend (fun _ => False) any m s) (he : exec body l s = .ok s') : ReachAny body pPend (fun _ => False) any m s' := by
  induction l generalizing s with
  | nil => cases he; exact h
  | cons a l ih =>
    simp only [exec] at he
    cases hs : step body a.1 (.go a.2) s with
    | ok s1 => rw [hs] at he; exact ih (h.step (ch := .go a.2) trivial hs) he
    | ub => rw [hs] at he; cases he
    | no => rw [hs] at he; cases he

abbrev t (w : Nat) : Nat × Runtime.Choice := (w, .take)

def sub : MS (St P) Nat Nat Nat := Mem.submit (MS.start (.here .main) fun _ => 0) (.here .main) 0

theorem sub_reach (body : P → Act P Nat Nat Nat) : ReachAny body pPend (fun _ => False) any (fun _ => 0) sub := .submit 0 (.start _) rfl trivial

/-- Worker 0 runs everything: the task is told that its child has completed. -/
def alone : List (Nat × Runtime.Choice) := List.replicate 5 (t 0)

/-- Worker 1 steals the task: it is told that its child has not completed, joins, and the child's end resumes it. -/
def stolen : List (Nat × Runtime.Choice) := [t 0, t 0, (1, .steal 0), t 1, t 1, t 1, t 1, t 1, t 0, t 0, t 0, t 0, t 0, t 0, t 0]

theorem after_reach {l : List (Nat × Runtime.Choice)} {s : MS (St P) Nat Nat Nat} (h : Exn.get? (exec (prog false) l sub) = some s) :
    Reach (prog false) pPend (fun _ => False) any (fun _ => 0) s ∧ Few s.x.c :=
  C65_bounded (prog_disc _) (safe _) (fun y => by cases y <;> simp [pPend]) (exec_reach (sub_reach _) (Exn.get_ok h))

/-- The answer is yes in the first execution, and the state meets the hypotheses of C65. -/
example : ∃ s, Reach (prog false) pPend (fun _ => False) any (fun _ => 0) s ∧ Few s.x.c ∧ s.x.c.pc 0 = .run 0 ∧
    (s.x.c.fr 0).st = .answer .main ∧ Ev.done 1 (.ok 10) ∈ s.x.c.log := by
  have h : (Exn.get? (exec (prog false) alone sub)).map (fun s => (s.x.c.pc 0, (s.x.c.fr 0).st, s.x.c.log)) =
      some (.run 0, .answer .main, [.resume 0 0, .done 1 (.ok 10), .resume 1 0, .suspend 0 (.fork 1), .resume 0 0, .submit 0 (.here .main) 0]) := rfl
  obtain ⟨s, hs, e⟩ := Option.map_eq_some_iff.1 h
  simp only [Prod.mk.injEq] at e
  exact ⟨s, (after_reach hs).1, (after_reach hs).2, e.1, e.2.1, by rw [e.2.2]; simp⟩

/-- In the first execution the task goes on without a join and returns 10. In the second it is stolen and has to join, with the same
result. -/
example : ∃ s s', Reach (prog false) pPend (fun _ => False) any (fun _ => 0) s ∧ Reach (prog false) pPend (fun _ => False) any (fun _ => 0) s' ∧
    s.m 0 = 10 ∧ s.m 1 = 10 ∧ s'.m 0 = 10 ∧ s'.m 1 = 10 ∧
    s.x.c.log = [.done 0 (.ok 10), .resume 0 0, .suspend 0 .join, .resume 0 0, .done 1 (.ok 10), .resume 1 0, .suspend 0 (.fork 1), .resume 0 0,
      .submit 0 (.here .main) 0] ∧
    s'.x.c.log = [.done 0 (.ok 10), .resume 0 0, .done 1 (.ok 10), .suspend 0 .join, .resume 0 1, .resume 1 0, .suspend 0 (.fork 1), .resume 0 0,
      .submit 0 (.here .main) 0] := by
  have h : (Exn.get? (exec (prog false) (alone ++ [t 0, t 0, t 0]) sub)).map (fun s => (s.m 0, s.m 1, s.x.c.log)) = some (10, 10, _) := rfl
  have h' : (Exn.get? (exec (prog false) stolen sub)).map (fun s => (s.m 0, s.m 1, s.x.c.log)) = some (10, 10, _) := rfl
  obtain ⟨s, hs, e⟩ := Option.map_eq_some_iff.1 h
  obtain ⟨s', hs', e'⟩ := Option.map_eq_some_iff.1 h'
  simp only [Prod.mk.injEq] at e e'
  exact ⟨s, s', (after_reach hs).1, (after_reach hs').1, e.1, e.2.1, e'.1, e'.2.1, e.2.2, e'.2.2⟩

/-- If the child throws, the answer is yes all the same: no exception is rethrown, the return object holds nothing, and reading it is undefined.
So C65 asks that the children of `sync_outside` forks do not throw. -/
theorem throw_matters : Disc (prog true) pPend (fun _ => False) ∧
    ∃ s, ReachAny (prog true) pPend (fun _ => False) any (fun _ => 0) s ∧ (s.x.c.fr 0).st = .answer .main ∧ Ev.done 1 (.error 7) ∈ s.x.c.log ∧
      step (prog true) 0 (.go .take) s = .ub := by
  refine ⟨prog_disc _, ?_⟩
  have h : (Exn.get? (exec (prog true) alone sub)).map (fun s => ((s.x.c.fr 0).st, s.x.c.log, Exn.get? (step (prog true) 0 (.go .take) s) |>.isSome)) =
      some (.answer .main, [.resume 0 0, .done 1 (.error 7), .resume 1 0, .suspend 0 (.fork 1), .resume 0 0, .submit 0 (.here .main) 0], false) := rfl
  have h2 : exec (prog true) (alone ++ [t 0]) sub = .ub := rfl
  obtain ⟨s, hs, e⟩ := Option.map_eq_some_iff.1 h
  simp only [Prod.mk.injEq] at e
  refine ⟨s, exec_reach (sub_reach _) (Exn.get_ok hs), e.1, by rw [e.2.1]; simp, ?_⟩
  have h3 : ∀ (l : List (Nat × Runtime.Choice)) (a : MS (St P) Nat Nat Nat) (b), exec (prog true) l a = .ok b →
      exec (prog true) (l ++ [t 0]) a = exec (prog true) [t 0] b := by
    intro l
    induction l with
    | nil => intro a b e; cases e; rfl
    | cons x l ih =>
      intro a b e
      simp only [List.cons_append, exec] at e ⊢
      cases hx : step (prog true) x.1 (.go x.2) a with
      | ok a' => rw [hx] at e; exact ih a' b e
      | ub => rw [hx] at e; cases e
      | no => rw [hx] at e; cases e
  rw [h3 _ _ _ (Exn.get_ok hs)] at h2
  simp only [exec] at h2
  cases hx : step (prog true) 0 (.go .take) s with
  | ok a' => rw [hx] at h2; cases h2
  | ub => rfl
  | no => rw [hx] at h2; cases h2

end Verif.Sync
