import Verif.LazyPool.Example
import Verif.WholeX.Exec

/-!
Executions that meet the hypotheses of the theorems of Verif.WholeX.Props: two threads call `sync_wait` on a pool of two workers. The first task forks
a child that throws, and does not catch what the join rethrows; the second moves to worker 1, where a fork fails, which it catches.
-/
namespace Verif.WholeX.Example
open Verif.Runtime (Res Ev)
open Verif.LazyPool (Cfg St)
open Verif.LazyPool.Example (two two_ok two_lt)
open Verif.EventCount (P32)
open Verif.Exn (XS Act Choice Disc Ser Ends)
open Verif.Whole (Caller Actor)

deriving instance DecidableEq for Runtime.Choice
deriving instance DecidableEq for Exn.Choice
deriving instance DecidableEq for Move

inductive Prog where
  | start
  | forked
  | called
  | hop
  | landed
  | last
  | leaf (v : Nat)
  | bad (e : Nat)

def body : Prog → Act Prog Nat Nat
  | .start => .fork (.bad 3) (fun _ => .forked) .bad
  | .forked => .call (.leaf 5) (fun _ => .called) (fun _ => .called)
  | .called => .join (fun vs => .leaf vs.sum) (fun e _ => .bad e)
  | .hop => .switch 1 .landed .bad
  | .landed => .fork (.leaf 6) (fun _ => .last) (fun e => .leaf (70 + e))
  | .last => .join (fun vs => .leaf vs.sum) (fun e _ => .bad e)
  | .leaf v => .ret v
  | .bad e => .throw e

def pend : Prog → Nat
  | .forked => 1
  | .called => 1
  | .last => 1
  | _ => 0

def dirty : Prog → Prop
  | .called => True
  | _ => False

def root : Nat → Prog
  | 0 => .start
  | _ => .hop

theorem disc : Disc body pend dirty where
  ret s v h := by cases s <;> simp only [body] at h <;> cases h; exact ⟨rfl, id⟩
  throw s e h := by cases s <;> simp only [body] at h <;> cases h; exact ⟨rfl, id⟩
  fork s c k x h := by
    cases s <;> simp only [body] at h <;> cases h
    · exact ⟨rfl, fun b => ⟨rfl, id⟩, fun e => ⟨rfl, id⟩⟩
    · exact ⟨rfl, fun b => ⟨rfl, id⟩, fun e => ⟨rfl, id⟩⟩
  call s c k x h := by
    cases s <;> simp only [body] at h <;> cases h
    exact ⟨rfl, fun r => ⟨rfl, fun _ => trivial⟩, fun e => ⟨rfl, fun _ => trivial⟩⟩
  join s k x h := by
    cases s <;> simp only [body] at h <;> cases h
    · exact ⟨fun _ => rfl, fun _ _ => rfl⟩
    · exact ⟨fun _ => rfl, fun _ _ => rfl⟩
  switch s d k x h := by
    cases s <;> simp only [body] at h <;> cases h
    exact ⟨rfl, id, fun e => ⟨rfl, id⟩⟩

theorem small (x : Prog) : pend x ≤ 65534 := by cases x <;> simp [pend]

theorem sw (x : Prog) (d : Nat) (k : Prog) (e : Nat → Prog) (h : body x = .switch d k e) : d < two.N := by
  cases x <;> simp only [body] at h <;> cases h
  exact (by decide +kernel : 1 < two.N)

theorem roots (i : Nat) (_ : i < 2) : pend (root i) = 0 := by unfold root; split <;> rfl

theorem ends (i : Nat) (_ : i < 2) : ∃ n, Ends body (fun _ => True) (root i) [] [] n := by
  have leaf : ∀ v rs es, Ends body (fun _ => True) (.leaf v) rs es 1 := fun v rs es => .ret (v := v) rfl (Nat.le_refl _)
  have bad : ∀ e rs es, Ends body (fun _ => True) (.bad e) rs es 1 := fun e rs es => .throw (e := e) rfl (Nat.le_refl _)
  have called : ∀ rs es, Ends body (fun _ => True) .called rs es 2 := fun rs es =>
    .join rfl (fun _ => leaf _ _ _) (fun e _ => bad _ _ _) (Nat.le_refl _)
  have last : ∀ rs es, Ends body (fun _ => True) .last rs es 2 := fun rs es =>
    .join rfl (fun _ => leaf _ _ _) (fun e _ => bad _ _ _) (Nat.le_refl _)
  unfold root; split
  · exact ⟨6, .fork rfl (bad _ _ _) (fun _ _ _ => .call rfl (leaf _ _ _) (fun _ _ => called _ _) (fun _ _ => called _ _) (fun _ _ => called _ _)
      (Nat.le_refl _)) (fun _ _ => (bad _ _ _).mono (by omega)) (Nat.le_refl _)⟩
  · exact ⟨5, .switch rfl (.fork rfl (leaf _ _ _) (fun _ _ _ => last _ _) (fun _ _ => (leaf _ _ _).mono (by omega)) (Nat.le_refl _))
      (fun _ _ => (bad _ _ _).mono (by omega)) (Nat.le_refl _)⟩

/-- `n` steps of a worker, its thefts fail. -/
def steps (w n : Nat) : List (Move Nat) := List.replicate n { a := .worker w }

/-- A thread calls `sync_wait`; the generator picks worker `d`. -/
def calls (i d : Nat) : List (Move Nat) := [{ a := .caller i }, { a := .caller i, k := d }, { a := .caller i }, { a := .caller i }]

/-- Both workers go to sleep; thread 0 calls `sync_wait`, the task is submitted to worker 0, which forks its child; worker 1 steals the rest; thread
1 calls `sync_wait`, its task is submitted to worker 0. -/
@[irreducible] def stolen : List (Move Nat) :=
  steps 0 9 ++ steps 1 9 ++ calls 0 0 ++ steps 0 14 ++ steps 1 4 ++ [{ a := .worker 1, k := 1 }] ++ calls 1 0

/-- Worker 1 arrives at the join first; worker 0 finishes the child, which throws, and passes the join. -/
@[irreducible] def joined : List (Move Nat) := stolen ++ steps 1 12 ++ steps 0 8

/-- Worker 1 falls asleep; worker 0 runs the second task, which moves to worker 1. -/
@[irreducible] def moved : List (Move Nat) := joined ++ steps 1 30 ++ steps 0 30

/-- Its fork fails; both threads get their results, the workers fall asleep. -/
@[irreducible] def life : List (Move Nat) :=
  moved ++ steps 1 13 ++ [{ a := .worker 1, ch := .fail 9 false }] ++ steps 1 30 ++ steps 0 30 ++ steps 1 30 ++ steps 0 30 ++
    [{ a := .caller 0 }, { a := .caller 1 }]

/-- The pool is destroyed. -/
@[irreducible] def death : List (Move Nat) :=
  life ++ List.replicate 4 { a := .dtor } ++ steps 0 30 ++ steps 1 30 ++ steps 0 2 ++ [{ a := .dtor }]

abbrev at_ (l : List (Move Nat)) : X Prog Nat Nat := fin two body 2 root .start l

def isBack (v : Except Nat Nat) : Caller (Except Nat Nat) → Bool
  | .back u =>
    match u, v with
    | .ok a, .ok b => a == b
    | .error a, .error b => a == b
    | _, _ => false
  | _ => false

theorem isBack_eq {v : Except Nat Nat} {x : Caller (Except Nat Nat)} (h : isBack v x = true) : x = .back v := by
  cases x with
  | back u => cases u <;> cases v <;> simp [isBack] at h <;> rw [h]
  | _ => cases h

def isWaiting (f : Nat) : Caller (Except Nat Nat) → Bool
  | .waiting g => g == f
  | _ => false

theorem isWaiting_eq {f : Nat} {x : Caller (Except Nat Nat)} (h : isWaiting f x = true) : x = .waiting f := by
  cases x <;> simp [isWaiting] at h
  rw [h]

theorem stolen_end : (at_ stolen).x.c.pc 1 = .stole 0 ∧ (at_ stolen).x.c.pc 0 = .run 1 ∧ (at_ stolen).l.inbox 0 = [1] ∧
    isWaiting 0 ((at_ stolen).caller 0) = true ∧ isWaiting 2 ((at_ stolen).caller 1) = true := by decide +kernel

theorem death_end : isBack (.error 3) ((at_ death).caller 0) = true ∧ isBack (.ok 79) ((at_ death).caller 1) = true ∧
    (at_ death).l.pc 0 = .fin4 ∧ (at_ death).l.pc 1 = .fin4 ∧ (at_ death).l.dpc = .gone := by decide +kernel

def deathRun : Fair.Run (system two body (fun _ => True) 2 root) := Script.run two body 2 root .start death

theorem short : death.length < P32 := by unfold P32; exact of_decide_eq_true (by decide +kernel)

theorem death_few (t : Nat) : LazyPool.Few two (deathRun.st t).l := run_few Prog.start death short t

theorem death_st {l : List (Move Nat)} {n : Nat} (h : death.take n = l) : deathRun.st n = at_ l := by
  show Fair.play _ _ _ _ = _
  unfold Fair.play
  rw [h]; rfl

theorem reach_death (t : Nat) : Reach two body (fun _ => True) 2 root (deathRun.st t) := run_reach deathRun death_few t

theorem death_fair : deathRun.Fair := by
  obtain ⟨h1, h2, h3, h4, h5⟩ := death_end
  refine Fair.Script.fair (S := system two body (fun _ => True) 2 root) (hfire := fire_step) (h0 := ⟨Prog.start, rfl⟩) fun a => ?_
  show ¬ ready two (at_ death) a
  cases a with
  | worker w =>
    intro ⟨hw, _, ha, _⟩
    rcases two_lt hw with e | e <;> subst e
    · exact ha h3
    · exact ha h4
  | caller i =>
    intro hr
    by_cases h : i < 2
    · have : ∃ v, (at_ death).caller i = .back v := by
        have : i = 0 ∨ i = 1 := by omega
        rcases this with e | e <;> subst e
        · exact ⟨_, isBack_eq h1⟩
        · exact ⟨_, isBack_eq h2⟩
      obtain ⟨v, e⟩ := this
      simp only [ready, e] at hr
    · have h6 := reach_death death.length
      rw [death_st (List.take_length ..)] at h6
      obtain ⟨_, _, y, hi, _⟩ := reach_hex two_ok disc small roots h6 fun _ => .nil
      have hlt : (at_ death).caller i ≠ .before → i < 2 := hi.sync.lt i
      cases hx : (at_ death).caller i with
      | before => simp only [ready, hx] at hr
      | _ => exact h (hlt (by rw [hx]; simp))
  | dtor => intro ⟨_, ha, _⟩; exact ha h5

/-- C60: the hypotheses of `C60_returns` are met by this schedule, at a time when the first task has been stolen and its child is about to throw. -/
example : ∃ t' v, 45 ≤ t' ∧ (deathRun.st t').caller 0 = .back v ∧ Ser body (fun _ => True) .start [] [] v :=
  C60_returns two_ok disc small sw roots ends death_fair death_few (t := 45) (i := 0) (by
    rw [death_st (l := stolen) (by decide +kernel), isWaiting_eq stolen_end.2.2.2.1]; simp)

/-- C60: the hypotheses of `C60_destroyed`, one step into the destructor, when both workers sleep. -/
example : ∃ t', life.length + 1 ≤ t' ∧ (deathRun.st t').l.dpc = .gone :=
  C60_destroyed two_ok disc small roots ends death_fair death_few (t := life.length + 1) (by
    have : (Fair.play (fire two body 2 root) (X.start two .start) death (life.length + 1)).l.dpc = .notify 0 := by decide +kernel
    rw [show (deathRun.st _).l.dpc = _ from this]; simp)

/-- C60: the hypotheses of `C60_result`: one call throws the exception of the child, the other returns the value computed after the fork that failed. -/
example : ∃ s : X Prog Nat Nat, Reach two body (fun _ => True) 2 root s ∧ s.caller 0 = .back (.error 3) ∧ s.caller 1 = .back (.ok 79) ∧
    Ser body (fun _ => True) .start [] [] (.error 3) ∧ Ser body (fun _ => True) .hop [] [] (.ok 79) := by
  have h := reach_death death.length
  rw [death_st (List.take_length ..)] at h
  exact ⟨_, h, isBack_eq death_end.1, isBack_eq death_end.2.1, C60_result two_ok disc small roots h (isBack_eq death_end.1),
    C60_result two_ok disc small roots h (isBack_eq death_end.2.1)⟩

/-- C60: the hypotheses of `C60_destructor_idle`. -/
example : ∃ s : X Prog Nat Nat, Reach two body (fun _ => True) 2 root s ∧ s.l.dpc ≠ .alive := by
  have h := reach_death death.length
  rw [death_st (List.take_length ..)] at h
  exact ⟨_, h, by rw [death_end.2.2.2.2]; simp⟩

/-- C60: the hypotheses of `C60_progress`: a worker inside a task that is about to throw. -/
example : ∃ s : X Prog Nat Nat, Reach two body (fun _ => True) 2 root s ∧ ready two s (.worker 0) ∧ s.x.c.pc 0 = .run 1 ∧
    ∃ s', Step two body (fun _ => True) 2 root (.worker 0) s (.ok s') := by
  have h := reach_death 45
  rw [death_st (l := stolen) (by decide +kernel)] at h
  have hr : ready two (at_ stolen) (.worker 0) := by
    have e : (at_ stolen).l.pc 0 = .work := by decide +kernel
    refine ⟨by decide +kernel, ?_⟩
    rw [e]; simp
  exact ⟨_, h, hr, stolen_end.2.1, C60_progress two_ok disc small sw roots (by decide +kernel) h hr⟩

def isCalling (j : Nat) : Caller (Except Nat Nat) → Bool
  | .calling k _ => k == j
  | _ => false

/-- C60: the hypotheses of `C60_pool_alive`, for a thread. -/
example : ∃ (s : X Prog Nat Nat) (f : Nat), Reach two body (fun _ => True) 2 root s ∧ s.caller 0 = .calling 0 f := by
  have h := reach_death 20
  have e : isCalling 0 ((Fair.play (fire two body 2 root) (X.start two .start) death 20).caller 0) = true := by decide +kernel
  have e : isCalling 0 ((deathRun.st 20).caller 0) = true := e
  cases hx : (deathRun.st 20).caller 0 with
  | calling j f =>
    rw [hx] at e
    simp only [isCalling, beq_iff_eq] at e
    subst e
    exact ⟨_, f, h, hx⟩
  | _ => rw [hx] at e; cases e

/-- C60: the race that `C60_no_ub` leaves (C58). -/
example : ∃ s : X Prog Nat Nat, Reach two body (fun _ => True) 2 root s ∧ Step two body (fun _ => True) 2 root (.caller 1) s .ub := by
  refine ⟨{ X.start two .start with caller := EventCount.upd (fun _ => .before) 0 .picking }, ?_, ?_⟩
  · refine Reach.step (a := .caller 0) (Reach.start .start) (fun w _ h => ?_) ?_
    · simp [X.start, St.start, LazyPool.reg] at h
    · exact Step.begin _ 0 (by omega) rfl (fun k _ => by simp [X.start])
  · exact Step.race _ 1 0 (by omega) rfl (by omega) rfl

end Verif.WholeX.Example
