import Verif.Runtime.Props

/-!
The Fibonacci task of README.md satisfies the hypotheses of the theorems of Verif.Runtime.Props, with concrete schedules in which
two workers steal from each other.
-/
namespace Verif.Runtime

/-- README.md "fib": the states of the coroutine. -/
inductive Fib where
  | start (n : Nat)
  | forked (n : Nat)
  | called (y : Nat)
  | joined (v : Nat)

/-- README.md: `fork(&a, fib)(n - 1); call(&b, fib)(n - 2); join; co_return a + b`. -/
def fib : Fib → Act Fib Nat
  | .start n => if n < 2 then .ret n else .fork (.start (n - 1)) (.forked n)
  | .forked n => .call (.start (n - 2)) .called
  | .called y => .join fun vs => .joined (vs.sum + y)
  | .joined v => .ret v

def fibPend : Fib → Nat
  | .start _ => 0
  | .forked _ => 1
  | .called _ => 1
  | .joined _ => 0

theorem fib_disc : Disc fib fibPend where
  ret s v h := by cases s <;> simp [fib, fibPend] at h ⊢
  fork s c k h := by
    cases s <;> simp only [fib] at h <;> try cases h
    split at h <;> cases h
    exact ⟨rfl, rfl⟩
  call s c k h := by
    cases s <;> simp only [fib] at h <;> try cases h
    · split at h <;> cases h
    · exact ⟨rfl, fun _ => rfl⟩
  join s k h := by
    cases s <;> simp only [fib] at h <;> try cases h
    · split at h <;> cases h
    · exact fun _ => rfl
  switch s d k h := by
    cases s <;> simp only [fib] at h <;> try cases h
    split at h <;> cases h

theorem fib_small (x : Fib) : fibPend x ≤ 65534 := by cases x <;> simp [fibPend]

/-- A schedule: which worker takes a step, and its choice if it is idle. -/
def exec {σ V : Type} (body : σ → Act σ V) : List (Nat × Choice) → State σ V → Res (State σ V)
  | [], s => .ok s
  | (w, ch) :: l, s =>
    match step body w ch s with
    | .ok s' => exec body l s'
    | .ub => .ub
    | .no => .no

theorem exec_reach {σ V : Type} {body : σ → Act σ V} {pend : σ → Nat} {l : List (Nat × Choice)} {s s' : State σ V}
    (h : ReachAny body pend s) (he : exec body l s = .ok s') : ReachAny body pend s' := by
  induction l generalizing s with
  | nil => cases he; exact h
  | cons a l ih =>
    obtain ⟨w, ch⟩ := a
    simp only [exec] at he
    cases hs : step body w ch s with
    | ok s1 => rw [hs] at he; exact ih (h.step hs) he
    | ub => rw [hs] at he; cases he
    | no => rw [hs] at he; cases he

def Res.get? {α : Type} : Res α → Option α
  | .ok a => some a
  | _ => none

theorem get_ok {α : Type} {r : Res α} {a : α} (h : r.get? = some a) : r = .ok a := by
  cases r <;> simp [Res.get?] at h; rw [h]

/-- `fib(2)` submitted to worker 0. -/
def fib2 : State Fib Nat := submit (State.start (.start 2)) (.start 2) 0

theorem fib2_reach : ReachAny fib fibPend fib2 := (ReachAny.start _).submit 0 rfl

/-- Worker 1 steals the parent and passes the join after worker 0 has finished the child. -/
def sched1 : List (Nat × Choice) :=
  let t := Choice.take
  [(0, t), (0, t), (1, .steal 0), (1, t), (1, t), (0, t), (0, t), (0, t), (0, t), (1, t), (1, t), (1, t), (1, t), (1, t)]

/-- Worker 1 steals the parent and arrives at the join first; the child, on worker 0, resumes it. -/
def sched2 : List (Nat × Choice) :=
  let t := Choice.take
  [(0, t), (0, t), (1, .steal 0), (1, t), (1, t), (1, t), (1, t), (1, t), (1, t), (1, t), (0, t), (0, t), (0, t), (0, t), (0, t)]

theorem sched1_log : (exec fib sched1 fib2).get?.map (·.log) = some
    [.done 0 1, .resume 0 1, .suspend 0 .join, .resume 0 1, .done 2 0, .done 1 1, .resume 2 1, .suspend 0 (.call 2), .resume 0 1,
      .resume 1 0, .suspend 0 (.fork 1), .resume 0 0, .submit 0 (.start 2) 0] := rfl

theorem sched2_log : (exec fib sched2 fib2).get?.map (·.log) = some
    [.done 0 1, .resume 0 0, .done 1 1, .suspend 0 .join, .resume 0 1, .done 2 0, .resume 2 1, .suspend 0 (.call 2), .resume 0 1,
      .resume 1 0, .suspend 0 (.fork 1), .resume 0 0, .submit 0 (.start 2) 0] := rfl

/-- Both schedules meet the hypotheses of the theorems, and run to the end. -/
theorem fib2_run (l : List (Nat × Choice)) {lg : List (Ev Fib Nat)} (h : (exec fib l fib2).get?.map (·.log) = some lg) :
    ∃ s, Reach fib fibPend s ∧ Few s ∧ s.log = lg := by
  rw [Option.map_eq_some_iff] at h
  obtain ⟨s, hs, e⟩ := h
  exact ⟨s, (reach_of_bounded fib_disc fib_small (exec_reach fib2_reach (get_ok hs))).1,
    (reach_of_bounded fib_disc fib_small (exec_reach fib2_reach (get_ok hs))).2, e⟩

/-- `join_after_children` applied to the second schedule: the child had returned when worker 0 resumed the parent. -/
example : ∃ v, Ev.done 1 v ∈ ([.done 1 1, .suspend 0 .join, .resume 0 1, .done 2 0, .resume 2 1, .suspend 0 (.call 2), .resume 0 1,
      .resume 1 0, .suspend 0 (.fork 1), .resume 0 0, .submit 0 (.start 2) 0] : List (Ev Fib Nat)) := by
  obtain ⟨s, hr, _, hl⟩ := fib2_run sched2 sched2_log
  exact join_after_children fib_disc hr (f := 0) (w := 0) (l2 := [.done 0 1]) hl rfl 1 (by decide)

/-- `result_serial` applied to the first schedule. -/
example : Ser fib (.start 2) [] 1 := by
  obtain ⟨s, hr, _, hl⟩ := fib2_run sched1 sched1_log
  exact (result_serial fib_disc hr (f := 0) (w := 0) (by rw [hl]; simp) (by rw [hl]; simp)).1

/-- `call_after_callee` applied to the first schedule. -/
example : ∃ v, Ev.done 2 v ∈ ([.done 2 0, .done 1 1, .resume 2 1, .suspend 0 (.call 2), .resume 0 1,
      .resume 1 0, .suspend 0 (.fork 1), .resume 0 0, .submit 0 (.start 2) 0] : List (Ev Fib Nat)) := by
  obtain ⟨s, hr, _, hl⟩ := fib2_run sched1 sched1_log
  exact call_after_callee fib_disc hr (f := 0) (w := 1) (c := 2) (l2 := [.done 0 1, .resume 0 1, .suspend 0 .join]) hl rfl

/-- `nothing_lost`, `idle_empty` on the final state of the first schedule. -/
example : ∃ s, Reach fib fibPend s ∧ (∀ w, s.pc w = .idle) ∧ (∀ w, s.inbox w = []) ∧ s.nf = 3 := by
  have h : ((exec fib sched1 fib2).get?.map fun s => s.nf) = some 3 := rfl
  rw [Option.map_eq_some_iff] at h
  obtain ⟨s, hs, hn⟩ := h
  refine ⟨s, (reach_of_bounded fib_disc fib_small (exec_reach fib2_reach (get_ok hs))).1, ?_, ?_, hn⟩ <;>
  · intro w
    injection hs with hs
    subst hs
    match w with
    | 0 => rfl
    | 1 => rfl
    | w + 2 => rfl

/-- A task that moves itself to worker 1 (`co_await` of a context switcher) and returns. -/
def hop : Nat → Act Nat Nat
  | 0 => .switch 1 1
  | _ => .ret 7

theorem hop_disc : Disc hop fun _ => 0 where
  ret _ _ _ := rfl
  fork s c k h := by unfold hop at h; split at h <;> cases h
  call s c k h := by unfold hop at h; split at h <;> cases h
  join s k h := by unfold hop at h; split at h <;> cases h
  switch _ _ _ _ := rfl

/-- `switch_dest` on a concrete history. -/
example : ∃ s, Reach hop (fun _ => 0) s ∧
    s.log = [.done 0 7, .resume 0 1, .suspend 0 (.switch 1), .resume 0 0, .submit 0 0 0] := by
  have h : (exec hop [(0, .take), (0, .take), (0, .take), (0, .take), (1, .take), (1, .take)]
      (submit (State.start 0) 0 0)).get?.map (·.log) =
      some [.done 0 7, .resume 0 1, .suspend 0 (.switch 1), .resume 0 0, .submit 0 0 0] := rfl
  rw [Option.map_eq_some_iff] at h
  obtain ⟨s, hs, e⟩ := h
  have hr : ReachAny hop (fun _ => 0) (submit (State.start (V := Nat) 0) 0 0) := (ReachAny.start _).submit 0 rfl
  exact ⟨s, (reach_of_bounded hop_disc (by simp) (exec_reach hr (get_ok hs))).1, e⟩

end Verif.Runtime
