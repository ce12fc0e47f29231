import Verif.Runtime.Example
import Verif.Runtime.TermProps

/-!
The theorems of C45 on the Fibonacci task of README.md.
-/
namespace Verif.Runtime

/-- The serial elision of `fib(n)` terminates for every `n`. -/
theorem fib_ser (n : Nat) : ∃ v, Ser fib (.start n) [] v := by
  induction n using Nat.strongRecOn with
  | _ n ih =>
    by_cases h : n < 2
    · exact ⟨n, .ret (by simp [fib, h])⟩
    · obtain ⟨a, ha⟩ := ih (n - 1) (by omega)
      obtain ⟨b, hb⟩ := ih (n - 2) (by omega)
      exact ⟨[a].sum + b, .fork (c := .start (n - 1)) (k := .forked n) (by simp [fib, h]) ha
        (.call rfl hb (.join (k := fun vs => .joined (vs.sum + b)) rfl (.ret rfl)))⟩

theorem fib_noswitch (N : Nat) : ∀ x d k, fib x = .switch d k → d < N := by
  intro x d k h
  cases x <;> simp only [fib] at h <;> try cases h
  split at h <;> cases h

/-- `fib(n)` on any number of workers: every fair schedule ends with its result. -/
example (n N : Nat) (r : Fair.Run (system fib fibPend N [.start n])) (hfair : r.Fair) :
    ∃ t, ∀ u, t ≤ u → ∀ f c w, Ev.submit f c w ∈ (r.st u).log → ∃ v, Ev.done f v ∈ (r.st u).log ∧ Ser fib c [] v := by
  obtain ⟨t, h⟩ := eventually_done fib_disc fib_small (fib_noswitch N)
    (fun c hc => by rw [List.mem_singleton] at hc; subst hc; exact fib_ser n) r hfair
  exact ⟨t, fun u hu => (h u hu).2⟩

theorem exec_execN {σ V : Type} {body : σ → Act σ V} {pend : σ → Nat} {N k : Nat} {cs : List σ} {l : List (Nat × Choice)}
    {s s' : State σ V} (h : ExecN body pend N cs k s) (hl : ∀ e ∈ l, e.1 < N) (he : exec body l s = .ok s') :
    ExecN body pend N cs (k + l.length) s' := by
  induction l generalizing s k with
  | nil => cases he; exact h
  | cons a l ih =>
    obtain ⟨w, ch⟩ := a
    simp only [exec] at he
    cases hs : step body w ch s with
    | ok s1 =>
      rw [hs] at he
      have := ih (h.step (hl _ (List.mem_cons_self ..)) hs) (fun e hm => hl e (List.mem_cons_of_mem _ hm)) he
      simpa [Nat.add_assoc, Nat.add_comm 1] using this
    | ub => rw [hs] at he; cases he
    | no => rw [hs] at he; cases he

theorem fib2_exec : ExecN fib fibPend 2 [.start 2] 0 fib2 := (ExecN.start _).submit (by decide) rfl

/-- The serial run of `fib(2)` has six actions. -/
theorem fib2_cost : ∃ v, SerC fib (.start 2) [] v 6 :=
  ⟨1, .fork (m := 1) (n := 4) (y := 1) (c := .start 1) (k := .forked 2) rfl (.ret rfl)
    (.call (m := 1) (n := 2) (y := 0) (c := .start 0) (k := .called) rfl (.ret rfl) (.join (k := fun vs => .joined (vs.sum + 0)) rfl (.ret rfl)))⟩

/-- `schedule_bounded` on the two schedules of Verif.Runtime.Example with two workers, of 14 and 15 steps: at most 65 are possible. -/
example : sched1.length = 14 ∧ sched2.length = 15 ∧ ∀ k s, ExecN fib fibPend 2 [.start 2] k s → k ≤ 65 := by
  refine ⟨rfl, rfl, fun k s h => ?_⟩
  have := schedule_bounded fib_disc fib_small (cost := fun _ => 6) h fun c hc => by
    rw [List.mem_singleton] at hc; subst hc; exact fib2_cost
  simpa using this

/-- A fair schedule exists: the second one, with its step of worker 1 that steals, and then nothing. -/
def fib2fire (e : Nat × Choice) (s : State Fib Nat) : Option (State Fib Nat) := if e.1 < 2 then (step fib e.1 e.2 s).get? else none

def fib2run : Fair.Run (system fib fibPend 2 [.start 2]) :=
  Fair.Script.run fib2fire (·.1)
    (by
      intro e s s' h
      simp only [fib2fire] at h
      split at h
      · rename_i hw; exact ⟨hw, e.2, get_ok h⟩
      · cases h) (s0 := fib2) ⟨0, fib2_exec⟩ sched2

theorem fib2run_fair : fib2run.Fair := by
  refine Fair.Script.fair fun w hw => ?_
  have hp : ∀ w, ((sched2.foldl (Fair.tick fib2fire) fib2).pc w = .idle) ∧ (sched2.foldl (Fair.tick fib2fire) fib2).inbox w = [] := by
    intro w
    match w with
    | 0 => exact ⟨rfl, rfl⟩
    | 1 => exact ⟨rfl, rfl⟩
    | w + 2 => exact ⟨rfl, rfl⟩
  rcases hw.2 with h | h
  · exact h (hp w).1
  · exact h (hp w).2

/-- Its last state. -/
example : (fib2run.st 15).log = [.done 0 1, .resume 0 0, .done 1 1, .suspend 0 .join, .resume 0 1, .done 2 0, .resume 2 1,
    .suspend 0 (.call 2), .resume 0 1, .resume 1 0, .suspend 0 (.fork 1), .resume 0 0, .submit 0 (.start 2) 0] := rfl

/-- `stuck_done` applies to it. -/
example : ∃ k s, ExecN fib fibPend 2 [.start 2] k s ∧ s.nf = 3 ∧ ∀ w, w < 2 → ∀ ch s', step fib w ch s ≠ .ok s' := by
  have h : ((exec fib sched1 fib2).get?.map fun s => s.nf) = some 3 := rfl
  rw [Option.map_eq_some_iff] at h
  obtain ⟨s, hs, hn⟩ := h
  refine ⟨_, s, exec_execN fib2_exec (by decide) (get_ok hs), hn, ?_⟩
  have hi : ∀ w, s.pc w = .idle ∧ s.inbox w = [] ∧ s.q w = [] := by
    injection hs with hs
    subst hs
    intro w
    match w with
    | 0 => exact ⟨rfl, rfl, rfl⟩
    | 1 => exact ⟨rfl, rfl, rfl⟩
    | w + 2 => exact ⟨rfl, rfl, rfl⟩
  intro w _ ch s' e
  cases ch with
  | take => simp only [step, (hi w).1, take, (hi w).2.1] at e; cases e
  | steal v => simp only [step, (hi w).1, steal, (hi v).2.2, List.getLast?_nil] at e; cases e

end Verif.Runtime
