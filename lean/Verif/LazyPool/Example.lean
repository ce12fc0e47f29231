import Verif.LazyPool.Exec
import Verif.LazyPool.Props

/-! Executions that meet the hypotheses of the theorems of Verif.LazyPool.Props, and executions that show their limits. -/
namespace Verif.LazyPool.Example
open Verif.EventCount

/-- Two workers in one domain. -/
def two : Cfg := ⟨2, 1, fun _ => 0⟩

theorem two_ok : two.Ok := ⟨by decide +kernel, fun w h => by simp [two]⟩

/-- `n` steps of a worker (thefts fail). -/
def steps (w n : Nat) : List (Actor × Nat) := List.replicate n (.worker w, 0)

/-- Both workers go to sleep. -/
@[irreducible] def lull : List (Actor × Nat) := steps 0 9 ++ steps 1 9

/-- Then job 7 is submitted to worker 0, which takes it, wakes worker 1 and runs it; both go back to sleep. -/
@[irreducible] def life : List (Actor × Nat) := lull ++ List.replicate 3 (.submit 7, 0) ++ steps 0 30 ++ steps 1 30 ++ steps 0 30

/-- Then the pool is destroyed. -/
@[irreducible] def death : List (Actor × Nat) := life ++ List.replicate 4 (.dtor, 0) ++ steps 0 30 ++ steps 1 30 ++ steps 0 2 ++ [(.dtor, 0)]

/-- Job 7 is submitted when worker 0 has just looked at its list, and the pool is destroyed before worker 0 asks whether to stop. -/
@[irreducible] def hasty : List (Actor × Nat) :=
  steps 0 5 ++ List.replicate 3 (.submit 7, 0) ++ List.replicate 4 (.dtor, 0) ++ steps 0 30 ++ steps 1 30 ++ steps 0 2 ++ [(.dtor, 0)]

/-- Job 7 is submitted by another thread, which is delayed between the two halves of `schedule`. -/
@[irreducible] def late : List (Actor × Nat) :=
  [(.submit 7, 0)] ++ steps 0 20 ++ List.replicate 4 (.dtor, 0) ++ steps 0 30 ++ steps 1 30 ++ steps 0 2 ++ [(.dtor, 0)]

def fin (c : Cfg) (l : List (Actor × Nat)) : St := l.foldl (tick c) (St.start c)

/-- The pool sleeps at the end of `life`, and the job has been started. -/
theorem life_end : (fin two life).started = [7] ∧ (fin two life).pc 0 = .asleep ∧ (fin two life).pc 1 = .asleep ∧
    (fin two life).call 7 = .returned ∧ (fin two life).stop = false ∧ (fin two life).dpc = .alive := by decide +kernel

theorem death_end : (fin two death).started = [7] ∧ (fin two death).pc 0 = .fin4 ∧ (fin two death).pc 1 = .fin4 ∧
    (fin two death).call 7 = .returned ∧ (fin two death).dpc = .gone := by decide +kernel

theorem hasty_end : (fin two hasty).started = [] ∧ (fin two hasty).inbox 0 = [7] ∧
    (fin two hasty).call 7 = .returned ∧ (fin two hasty).dpc = .gone := by decide +kernel

theorem late_end : (fin two late).started = [7] ∧ (fin two late).call 7 = .pushed 0 ∧ (fin two late).dpc = .gone := by decide +kernel

theorem short {l : List (Actor × Nat)} (h : decide (l.length < 4294967296) = true) : l.length < P32 := by
  unfold P32; exact of_decide_eq_true h

/-- The schedules. -/
def lifeRun : Run two := Script.run two life (short (by decide +kernel))
def deathRun : Run two := Script.run two death (short (by decide +kernel))
def hastyRun : Run two := Script.run two hasty (short (by decide +kernel))
def lateRun : Run two := Script.run two late (short (by decide +kernel))

theorem fin_reach {c : Cfg} {l : List (Actor × Nat)} (h : l.length < P32) : Reach c (fin c l) := by
  have := (Script.run c l h).reach l.length
  have e : (Script.run c l h).st l.length = fin c l := play_end c l (Nat.le_refl _)
  rw [← e]; exact this

theorem play_reach {c : Cfg} {l : List (Actor × Nat)} (h : l.length < P32) (t : Nat) : Reach c (play c l t) :=
  (Script.run c l h).reach t

theorem two_lt {w : Nat} (h : w < two.N) : w = 0 ∨ w = 1 := by
  have : w < 2 := h
  omega

theorem life_fair : lifeRun.Fair := by
  obtain ⟨h1, h2, h3, h4, h5, h6⟩ := life_end
  refine Script.fair fun a => ?_
  show ¬ Ready two (fin two life) a
  cases a with
  | worker w =>
    intro ⟨hw, ha, _⟩
    rcases two_lt hw with e | e <;> subst e
    · exact ha h2
    · exact ha h3
  | submit j =>
    intro ⟨ha, hb⟩
    by_cases e : j = 7
    · subst e; exact hb h4
    · refine ha ((call_others two life j (fun x hx hj => e ?_) _).trans rfl)
      have : ∀ x ∈ life, ∀ k, x.1 = .submit k → k = 7 := by
        intro x hx k hk
        have hl : (life.all fun x => match x.1 with | .submit k => k == 7 | _ => true) = true := by decide +kernel
        have := List.all_eq_true.1 hl x hx
        rw [hk] at this; simpa using this
      exact this x hx j hj
  | dtor => intro ⟨ha, _⟩; exact ha h6

theorem life_awake (t : Nat) : (lifeRun.st t).stop = false := by
  cases h : (lifeRun.st t).stop with
  | false => rfl
  | true =>
    have key := Run.keep lifeRun (fun s => s.stop = true) h (fun u a _ hs st => stop_mono st hs) (max t life.length) (by omega)
    have e : lifeRun.st (max t life.length) = fin two life := play_end two life (by omega)
    rw [e, life_end.2.2.2.2.1] at key; cases key

/-- C23: the hypotheses of `C23_started` are met by a schedule in which the job is submitted while everyone sleeps. -/
example : ∃ t', 19 ≤ t' ∧ 7 ∈ (lifeRun.st t').started :=
  C23_started two_ok life_fair life_awake (by
    have : (play two life 19).call 7 = .pushed 0 := by decide +kernel
    rw [show (lifeRun.st 19).call 7 = _ from this]; simp)

/-- There the worker is asleep with a job in its list, and `schedule` has not yet returned (`C23_asleep_only_during_schedule`); when
it has, the worker is awake and the job still in its list (`C23_not_asleep`). -/
example : (lifeRun.st 19).pc 0 = .asleep ∧ 7 ∈ (lifeRun.st 19).inbox 0 ∧
    (lifeRun.st 21).call 7 = .returned ∧ 7 ∈ (lifeRun.st 21).inbox 0 := by
  have : (play two life 19).pc 0 = .asleep ∧ 7 ∈ (play two life 19).inbox 0 ∧
    (play two life 21).call 7 = .returned ∧ 7 ∈ (play two life 21).inbox 0 := by decide +kernel
  exact this

theorem death_fair : deathRun.Fair := by
  obtain ⟨h1, h2, h3, h4, h5⟩ := death_end
  refine Script.fair fun a => ?_
  show ¬ Ready two (fin two death) a
  cases a with
  | worker w =>
    intro ⟨hw, _, ha, _⟩
    rcases two_lt hw with e | e <;> subst e
    · exact ha h2
    · exact ha h3
  | submit j =>
    intro ⟨ha, hb⟩
    by_cases e : j = 7
    · subst e; exact hb h4
    · refine ha ((call_others two death j (fun x hx hj => e ?_) _).trans rfl)
      have : ∀ x ∈ death, ∀ k, x.1 = .submit k → k = 7 := by
        intro x hx k hk
        have hl : (death.all fun x => match x.1 with | .submit k => k == 7 | _ => true) = true := by decide +kernel
        have := List.all_eq_true.1 hl x hx
        rw [hk] at this; simpa using this
      exact this x hx j hj
  | dtor => intro ⟨_, ha, _⟩; exact ha h5

theorem death_quiet : Quiet deathRun (life.length + 1) := by
  refine Script.quiet fun e he => ?_
  have hl : ((death.drop (life.length + 1)).all fun x => (match x.1 with | .submit k => false | _ => true) && x.2 != 1) = true := by
    decide +kernel
  have := List.all_eq_true.1 hl e he
  simp only [Bool.and_eq_true, bne_iff_ne, ne_eq] at this
  refine ⟨fun j hj => ?_, this.2⟩
  rw [hj] at this; simp at this

/-- C25: the hypotheses of `C25_destructor_returns`, with both workers asleep when the destructor begins. -/
example : ((deathRun.st (life.length + 1)).pc 0 = .asleep ∧ (deathRun.st (life.length + 1)).pc 1 = .asleep) ∧
    ∃ t', life.length + 1 ≤ t' ∧ (deathRun.st t').dpc = .gone := by
  have h : (play two death (life.length + 1)).pc 0 = .asleep ∧ (play two death (life.length + 1)).pc 1 = .asleep ∧
      (play two death (life.length + 1)).dpc = .notify 0 := by decide +kernel
  refine ⟨⟨h.1, h.2.1⟩, C25_destructor_returns two_ok death_fair death_quiet ?_⟩
  rw [show (deathRun.st _).dpc = _ from h.2.2]; simp

/-- C25: the hypotheses of `C25_joining_awake`, `C25_no_new_sleep` (a worker that is just back from its sleep), `C25_finalise_last`. -/
example : (deathRun.st (life.length + 4)).dpc = .joining ∧ (deathRun.st (life.length + 4)).stop = true ∧
    (deathRun.st (life.length + 6)).pc 0 = .wake ∧ (deathRun.st death.length).pc 0 = .fin4 := by
  have : (play two death (life.length + 4)).dpc = .joining ∧ (play two death (life.length + 4)).stop = true ∧
    (play two death (life.length + 6)).pc 0 = .wake ∧ (play two death death.length).pc 0 = .fin4 := by decide +kernel
  exact this

/-- The limit of C23 (lazy_pool.hpp:285-286): a job whose `schedule` has returned before the destructor is called can be dropped. -/
theorem dropped : ∃ s, Reach two s ∧ s.call 7 = .returned ∧ s.dpc = .gone ∧ s.inbox 0 = [7] ∧ s.started = [] :=
  ⟨fin two hasty, fin_reach (short (by decide +kernel)), hasty_end.2.2.1, hasty_end.2.2.2, hasty_end.2.1, hasty_end.1⟩

/-- In `dropped` the destructor is called after `schedule` has returned. -/
example : (play two hasty 8).call 7 = .returned ∧ (play two hasty 8).dpc = .alive ∧ lastLook ((play two hasty 8).pc 0) = true := by
  decide +kernel

/-- `C23_started_before_exit` applies if the worker is one step earlier. -/
example : (play two death 19).call 7 = .pushed 0 ∧ lastLook ((play two death 19).pc 0) = false := by decide +kernel

/-- The limit of C39: job 7 was submitted from outside, for instance by a worker of another pool that migrates its task
(`resume_on`, core/scheduler.hpp:94-95). The job has been started, every worker has ended, its context is finalised
(`worker_context` is gone) and the destructor has returned, but the call of `schedule` is about to call the worker's notification
function (core/ext/context.hpp:75-77). -/
theorem late_unsafe : ∃ s, Reach two s ∧ s.call 7 = .pushed 0 ∧ s.started = [7] ∧ s.dpc = .gone :=
  ⟨fin two late, fin_reach (short (by decide +kernel)), late_end.2.1, late_end.1, late_end.2.2⟩

/-- In `late_unsafe` the job is started before the destructor is called, as lazy_pool.hpp:285-286 asks. -/
example : (play two late 15).started = [7] ∧ (play two late 15).dpc = .alive := by decide +kernel

/-- The hypotheses of `C39_schedule_from_worker_partial`. -/
example : ∃ t, (play two life t).pc 0 = .work := ⟨33, by decide +kernel⟩

/-! C24: three workers in one domain. -/

def three : Cfg := ⟨3, 1, fun _ => 0⟩

theorem three_ok : three.Ok := ⟨by decide +kernel, fun w h => by simp [three]⟩

/-- All sleep; worker 0 gets a job and wakes worker 1, which searches while worker 0 works and worker 2 sleeps. -/
@[irreducible] def shift : List (Actor × Nat) :=
  steps 0 9 ++ steps 1 9 ++ steps 2 9 ++ List.replicate 3 (.submit 7, 0) ++ steps 2 11 ++ steps 1 11 ++ steps 0 7 ++ steps 1 4 ++ steps 0 3

theorem shift_end : (fin three shift).pc 0 = .work ∧ (fin three shift).pc 1 = .steal ∧ (fin three shift).pc 2 = .asleep ∧
    (fin three shift).stop = false := by decide +kernel

/-- The hypotheses of `C24_at_rest`, with a worker in each of the three states. -/
example : Reach three (fin three shift) ∧ AtRest three (fin three shift) ∧ (fin three shift).pc 0 = .work ∧
    (fin three shift).pc 2 = .asleep ∧ (fin three shift).stop = false := by
  obtain ⟨h0, h1, h2, h3⟩ := shift_end
  refine ⟨fin_reach (short (by decide +kernel)), fun w hw => ?_, h0, h2, h3⟩
  have : w < 3 := hw
  have : w = 0 ∨ w = 1 ∨ w = 2 := by omega
  rcases this with e | e | e <;> subst e
  · exact .inr (.inr h0)
  · exact .inl h1
  · exact .inr (.inl h2)

/-- The hypotheses of `C24_watch` in a domain without a thief: the wake-up is on its way. -/
example : ∃ t, Reach two (play two life t) ∧ (play two life t).active > 0 ∧ (play two life t).thief 0 = 0 ∧
    (play two life t).pc 1 = .look ∧ (play two life t).stop = false :=
  ⟨29, play_reach (short (by decide +kernel)) 29, by decide +kernel, by decide +kernel, by decide +kernel, by decide +kernel⟩

/-- `C24_recovers` applies to `lifeRun`. -/
example : ∃ t', 29 ≤ t' ∧ ((lifeRun.st t').active > 0 → (lifeRun.st t').thief 0 > 0 ∨
    ∀ v, v < two.N → two.dom v = 0 → (lifeRun.st t').pc v ≠ .asleep) :=
  C24_recovers two_ok life_fair life_awake (by decide +kernel) 29

end Verif.LazyPool.Example
