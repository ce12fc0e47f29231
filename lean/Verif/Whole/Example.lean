import Verif.LazyPool.Example
import Verif.Whole.Exec

/-!
Executions that meet the hypotheses of the theorems of Verif.Whole.Props: two threads call `sync_wait` on a pool of two workers, with the
Fibonacci task of README.md and with a task that hops to worker 1.
-/
namespace Verif.Whole.Example
open Verif.Runtime (State Res Ev Act Disc Ser)
open Verif.LazyPool (Cfg St)
open Verif.LazyPool.Example (two two_ok two_lt)
open Verif.EventCount (P32)

inductive Prog where
  | start (n : Nat)
  | forked (n : Nat)
  | called (y : Nat)
  | joined (v : Nat)
  | hop
  | landed

/-- README.md "fib", and `co_await resume_on(worker 1); co_return 7`. -/
def body : Prog → Act Prog Nat
  | .start n => if n < 2 then .ret n else .fork (.start (n - 1)) (.forked n)
  | .forked n => .call (.start (n - 2)) .called
  | .called y => .join fun vs => .joined (vs.sum + y)
  | .joined v => .ret v
  | .hop => .switch 1 .landed
  | .landed => .ret 7

def pend : Prog → Nat
  | .forked _ => 1
  | .called _ => 1
  | _ => 0

def root : Nat → Prog
  | 0 => .start 2
  | _ => .hop

theorem disc : Disc body pend where
  ret s v h := by cases s <;> simp [body, pend] at h ⊢
  fork s c k h := by
    cases s <;> simp only [body] at h <;> try cases h
    split at h <;> cases h
    exact ⟨rfl, rfl⟩
  call s c k h := by
    cases s <;> simp only [body] at h <;> try cases h
    · split at h <;> cases h
    · exact ⟨rfl, fun _ => rfl⟩
  join s k h := by
    cases s <;> simp only [body] at h <;> try cases h
    · split at h <;> cases h
    · exact fun _ => rfl
  switch s d k h := by
    cases s <;> simp only [body] at h <;> try cases h
    · split at h <;> cases h
    · rfl

theorem small (x : Prog) : pend x ≤ 65534 := by cases x <;> simp [pend]

theorem sw (x : Prog) (d : Nat) (k : Prog) (h : body x = .switch d k) : d < two.N := by
  cases x <;> simp only [body] at h <;> try cases h
  · split at h <;> cases h
  · exact (by decide +kernel : 1 < two.N)

theorem roots (i : Nat) (_ : i < 2) : pend (root i) = 0 := by unfold root; split <;> rfl

theorem serial (i : Nat) (_ : i < 2) : ∃ v, Ser body (root i) [] v := by
  unfold root; split
  · exact ⟨1, .fork (c := .start 1) (k := .forked 2) (y := 1) rfl (.ret rfl) (.call (c := .start 0) (k := .called) (y := 0) rfl (.ret rfl)
      (.join (k := fun vs => .joined (vs.sum + 0)) rfl (.ret rfl)))⟩
  · exact ⟨7, .switch (k := .landed) (d := 1) rfl (.ret rfl)⟩

/-- `n` steps of a worker, its thefts fail. -/
def steps (w n : Nat) : List (Actor × Nat) := List.replicate n (.worker w, 0)

/-- A thread calls `sync_wait`; the generator picks worker `d`. -/
def calls (i d : Nat) : List (Actor × Nat) := [(.caller i, 0), (.caller i, d), (.caller i, 0), (.caller i, 0)]

/-- Both workers go to sleep; thread 0 calls `sync_wait`, the task is submitted to worker 0, which forks its child; worker 1 steals the rest; thread
1 calls `sync_wait`, its task is submitted to worker 0. -/
@[irreducible] def stolen : List (Actor × Nat) :=
  steps 0 9 ++ steps 1 9 ++ calls 0 0 ++ steps 0 14 ++ steps 1 4 ++ [(.worker 1, 1)] ++ calls 1 0

/-- Worker 1 arrives at the join first; worker 0 finishes the child and passes the join. -/
@[irreducible] def joined : List (Actor × Nat) := stolen ++ steps 1 12 ++ steps 0 8

/-- Worker 1 falls asleep; worker 0 runs the second task, which moves to worker 1. -/
@[irreducible] def moved : List (Actor × Nat) := joined ++ steps 1 30 ++ steps 0 30

/-- Both threads get their results, the workers fall asleep. -/
@[irreducible] def life : List (Actor × Nat) :=
  moved ++ steps 1 30 ++ steps 0 30 ++ steps 1 30 ++ steps 0 30 ++ [(.caller 0, 0), (.caller 1, 0)]

/-- The pool is destroyed. -/
@[irreducible] def death : List (Actor × Nat) := life ++ List.replicate 4 (.dtor, 0) ++ steps 0 30 ++ steps 1 30 ++ steps 0 2 ++ [(.dtor, 0)]

abbrev at_ (l : List (Actor × Nat)) : W Prog Nat := fin two body 2 root (.start 0) l

def isBack (v : Nat) : Caller Nat → Bool
  | .back u => u == v
  | _ => false

theorem isBack_eq {v : Nat} {x : Caller Nat} (h : isBack v x = true) : x = .back v := by
  cases x <;> simp [isBack] at h
  rw [h]

def isWaiting (f : Nat) : Caller Nat → Bool
  | .waiting g => g == f
  | _ => false

theorem isWaiting_eq {f : Nat} {x : Caller Nat} (h : isWaiting f x = true) : x = .waiting f := by
  cases x <;> simp [isWaiting] at h
  rw [h]

theorem stolen_end : (at_ stolen).r.pc 1 = .stole 0 ∧ (at_ stolen).r.pc 0 = .run 1 ∧ (at_ stolen).l.inbox 0 = [1] ∧
    isWaiting 0 ((at_ stolen).caller 0) = true ∧ isWaiting 2 ((at_ stolen).caller 1) = true := by decide +kernel

theorem moved_end : (at_ moved).l.inbox 1 = [2] ∧ (at_ moved).task 2 = 2 ∧ (at_ moved).l.pc 0 = .asleep ∧ (at_ moved).l.pc 1 = .look := by
  decide +kernel

theorem life_end : isBack 1 ((at_ life).caller 0) = true ∧ isBack 7 ((at_ life).caller 1) = true ∧
    (at_ life).l.pc 0 = .asleep ∧ (at_ life).l.pc 1 = .asleep ∧ (at_ life).l.dpc = .alive := by decide +kernel

theorem death_end : isBack 1 ((at_ death).caller 0) = true ∧ isBack 7 ((at_ death).caller 1) = true ∧
    (at_ death).l.pc 0 = .fin4 ∧ (at_ death).l.pc 1 = .fin4 ∧ (at_ death).l.dpc = .gone := by decide +kernel

def deathRun : Fair.Run (system two body 2 root) := Script.run two body 2 root (.start 0) death

theorem short : death.length < P32 := by unfold P32; exact of_decide_eq_true (by decide +kernel)

theorem death_few (t : Nat) : LazyPool.Few two (deathRun.st t).l := run_few two_ok roots (.start 0) death short t

theorem death_st {l : List (Actor × Nat)} {n : Nat} (h : death.take n = l) : deathRun.st n = at_ l := by
  show Fair.play _ _ _ _ = _
  unfold Fair.play
  rw [h]; rfl

theorem death_fair : deathRun.Fair := by
  obtain ⟨h1, h2, h3, h4, h5⟩ := death_end
  refine Fair.Script.fair (S := system two body 2 root) (hfire := fire_step) (h0 := ⟨.start 0, rfl⟩) fun a => ?_
  show ¬ ready two (at_ death) a
  cases a with
  | worker w =>
    intro ⟨hw, _, ha, _⟩
    rcases two_lt hw with e | e <;> subst e
    · exact ha h3
    · exact ha h4
  | caller i =>
    intro hr
    by_cases h : i < 2
    · have : ∃ v, (at_ death).caller i = .back v := by
        have : i = 0 ∨ i = 1 := by omega
        rcases this with e | e <;> subst e
        · exact ⟨1, isBack_eq h1⟩
        · exact ⟨7, isBack_eq h2⟩
      obtain ⟨v, e⟩ := this
      simp only [ready, e] at hr
    · have hi := run_inv (pend := pend) two_ok roots deathRun death_few death.length
      rw [death_st (List.take_length ..)] at hi
      cases hx : (at_ death).caller i with
      | before => simp only [ready, hx] at hr
      | _ => exact h (hi.sync.lt i (by rw [hx]; simp))
  | dtor => intro ⟨_, ha, _⟩; exact ha h5

/-- C57: the hypotheses of `C57_returns` are met by this schedule, at a time when the first task has been stolen and the second is in the list of a worker
that is busy. -/
example : ∃ t' v, 45 ≤ t' ∧ (deathRun.st t').caller 1 = .back v ∧ Ser body .hop [] v :=
  C57_returns two_ok disc small sw roots serial death_fair death_few (t := 45) (i := 1) (by
    rw [death_st (l := stolen) (by decide +kernel), isWaiting_eq stolen_end.2.2.2.2]; simp)

/-- C57: the hypotheses of `C57_destroyed`, one step into the destructor, when both workers sleep. -/
example : ∃ t', life.length + 1 ≤ t' ∧ (deathRun.st t').l.dpc = .gone :=
  C57_destroyed two_ok disc small roots serial death_fair death_few (t := life.length + 1) (by
    have : (Fair.play (fire two body 2 root) (W.start two (.start 0)) death (life.length + 1)).l.dpc = .notify 0 := by decide +kernel
    rw [show (deathRun.st _).l.dpc = _ from this]; simp)

theorem reach_death (t : Nat) : Reach two body 2 root (deathRun.st t) := run_reach deathRun death_few t

/-- C57: the hypotheses of `C57_result`. -/
example : ∃ s : W Prog Nat, Reach two body 2 root s ∧ s.caller 0 = .back 1 ∧ Ser body (.start 2) [] 1 := by
  have h := reach_death death.length
  rw [death_st (List.take_length ..)] at h
  exact ⟨_, h, isBack_eq death_end.1, (C57_result two_ok disc small roots h (isBack_eq death_end.1)).1⟩

/-- C57: the hypotheses of `C57_destructor_idle`. -/
example : ∃ s : W Prog Nat, Reach two body 2 root s ∧ s.l.dpc ≠ .alive := by
  have h := reach_death death.length
  rw [death_st (List.take_length ..)] at h
  exact ⟨_, h, by rw [death_end.2.2.2.2]; simp⟩

def isCalling (j : Nat) : Caller Nat → Bool
  | .calling k _ => k == j
  | _ => false

/-- C57: the hypotheses of `C57_pool_alive`, for a thread. -/
example : ∃ (s : W Prog Nat) (f : Nat), Reach two body 2 root s ∧ s.caller 0 = .calling 0 f := by
  have h := reach_death 20
  have e : isCalling 0 ((Fair.play (fire two body 2 root) (W.start two (.start 0)) death 20).caller 0) = true := by decide +kernel
  have e : isCalling 0 ((deathRun.st 20).caller 0) = true := e
  cases hx : (deathRun.st 20).caller 0 with
  | calling j f =>
    rw [hx] at e
    simp only [isCalling, beq_iff_eq] at e
    subst e
    exact ⟨_, f, h, hx⟩
  | _ => rw [hx] at e; cases e

/-- C57: the hypotheses of `C57_pool_alive`, for a task that moves. -/
example : ∃ (s : W Prog Nat), Reach two body 2 root s ∧ s.out 0 = some 2 := by
  have e : ∃ n, n < death.length ∧ (Fair.play (fire two body 2 root) (W.start two (.start 0)) death n).out 0 = some 2 :=
    ⟨106, by decide +kernel, by decide +kernel⟩
  obtain ⟨n, _, e⟩ := e
  exact ⟨_, reach_death n, e⟩

/-- C58: the hypotheses of `C58_concurrent_calls_partial`: the call of thread 0 is in progress, thread 1 is about to call. -/
example : ∃ (s : W Prog Nat), Reach two body 2 root s ∧ (∀ k, k < 2 → s.caller k ≠ .picking) ∧ ∃ f, s.caller 0 = .calling 0 f := by
  have h := reach_death 20
  have e : isCalling 0 ((Fair.play (fire two body 2 root) (W.start two (.start 0)) death 20).caller 0) = true ∧
    ((Fair.play (fire two body 2 root) (W.start two (.start 0)) death 20).caller 1).isPicking = false := by decide +kernel
  have e : isCalling 0 ((deathRun.st 20).caller 0) = true ∧ ((deathRun.st 20).caller 1).isPicking = false := e
  refine ⟨_, h, fun k hk hp => ?_, ?_⟩
  · have : k = 0 ∨ k = 1 := by omega
    rcases this with r | r <;> subst r
    · rw [hp] at e; cases e.1
    · rw [hp] at e; cases e.2
  · cases hx : (deathRun.st 20).caller 0 with
    | calling j f =>
      rw [hx] at e
      simp only [isCalling, beq_iff_eq] at e
      exact ⟨f, by rw [e.1]⟩
    | _ => rw [hx] at e; cases e.1

/-- C58 (lazy_pool.hpp:371): two threads that call `sync_wait` at the same time race for the pool's random number generator. -/
theorem C58_generator_race : ∃ s : W Prog Nat, Reach two body 2 root s ∧ Step two body 2 root (.caller 1) s .ub := by
  refine ⟨{ W.start two (.start 0) with caller := EventCount.upd (fun _ => .before) 0 .picking }, ?_, ?_⟩
  · refine Reach.step (a := .caller 0) (Reach.start (.start 0)) (fun w _ h => ?_) ?_
    · simp [W.start, St.start, LazyPool.reg] at h
    · exact Step.begin _ 0 (by omega) rfl (fun k _ => by simp [W.start])
  · exact Step.race _ 1 0 (by omega) rfl (by omega) rfl

end Verif.Whole.Example
