import Verif.Exn.Example
import Verif.Exn.TermProps

/-! The theorems of C59 on the program of Verif.Exn.Example, and why the serial elision has to end also when everything fails. -/
namespace Verif.Exn
open Verif.Runtime (State Res Few Ev)

/-- The program ends within eight actions, whatever fails. -/
theorem prog_ends : Ends prog (fun _ => True) .root [] [] 8 := by
  have leaf : ∀ v rs es, Ends prog (fun _ => True) (.leaf v) rs es 1 := fun v rs es => .ret (v := v) rfl (Nat.le_refl _)
  have bad : ∀ e rs es, Ends prog (fun _ => True) (.bad e) rs es 1 := fun e rs es => .throw (e := e) rfl (Nat.le_refl _)
  have out : ∀ e rs es, Ends prog (fun _ => True) (.out e) rs es 1 := fun e rs es => .throw (e := e) rfl (Nat.le_refl _)
  have r3 : ∀ rs es, Ends prog (fun _ => True) .r3 rs es 2 := fun rs es =>
    .join rfl (fun _ => leaf _ _ _) (fun e _ => leaf _ _ _) (Nat.le_refl _)
  have j1 : ∀ rs es, Ends prog (fun _ => True) .j1 rs es 2 := fun rs es =>
    .join rfl (fun _ => leaf _ _ _) (fun e _ => bad _ _ _) (Nat.le_refl _)
  have r2 : ∀ b c rs es, Ends prog (fun _ => True) (.r2 b c) rs es 4 := fun b c rs es =>
    .call rfl (bad _ _ _) (fun v _ => r3 _ _) (fun e _ => r3 _ _) (fun e _ => r3 _ _) (Nat.le_refl _)
  have r1 : ∀ b rs es, Ends prog (fun _ => True) (.r1 b) rs es 6 := fun b rs es =>
    .fork rfl (leaf _ _ _) (fun b y _ => r2 _ _ _ _) (fun e _ => (j1 _ _).mono (by omega)) (Nat.le_refl _)
  exact .fork rfl (bad _ _ _) (fun b y _ => r1 _ _ _) (fun e _ => (out _ _ _).mono (by omega)) (Nat.le_refl _)

theorem prog_ends' : ∀ c ∈ [P.root], Ends prog (fun _ => True) c [] [] 8 := by
  intro c hc; rw [List.mem_singleton] at hc; subst hc; exact prog_ends

theorem prog_noswitch (N : Nat) : ∀ x d k h, prog x = .switch d k h → d < N := by
  intro x d k h hb; cases x <;> simp only [prog] at hb <;> cases hb

theorem exec_execN {σ V E : Type} {body : σ → Act σ V E} {pend : σ → Nat} {N k : Nat} {cs : List σ} {l : List (Nat × Choice E)}
    {s s' : XS σ V E} (h : ExecN body pend (fun _ => True) N cs k s) (hl : ∀ e ∈ l, e.1 < N) (he : exec body l s = .ok s') :
    ExecN body pend (fun _ => True) N cs (k + l.length) s' := by
  induction l generalizing s k with
  | nil => cases he; exact h
  | cons a l ih =>
    obtain ⟨w, ch⟩ := a
    simp only [exec] at he
    cases hs : step body w ch s with
    | ok s1 =>
      rw [hs] at he
      have := ih (h.step (hl _ (List.mem_cons_self ..)) (by cases ch <;> trivial) hs) (fun e hm => hl e (List.mem_cons_of_mem _ hm)) he
      simpa [Nat.add_assoc, Nat.add_comm 1] using this
    | ub => rw [hs] at he; cases he
    | no => rw [hs] at he; cases he

theorem sub_exec (N : Nat) (hN : 0 < N) : ExecN prog pPend (fun _ => True) N [.root] 0 (sub .root) := (ExecN.start _).submit hN rfl

/-- `C59_bounded` on the schedules of Verif.Exn.Example, of 11, 18 and 7 steps (in the last one a fork fails): no schedule has more than
774. -/
example : alone.length = 11 ∧ stolen.length = 18 ∧ fails.length = 7 ∧
    ∀ N k s, ExecN prog pPend (fun _ => True) N [.root] k s → k ≤ 774 :=
  ⟨rfl, rfl, rfl, fun _ _ _ h => C59_bounded prog_disc prog_small h prog_ends'⟩

/-- A fair schedule: the second one, and then nothing. -/
def pFire (e : Nat × Choice Nat) (s : XS P Nat Nat) : Option (XS P Nat Nat) := if e.1 < 2 then get? (step prog e.1 e.2 s) else none

def pRun : Fair.Run (system prog pPend (fun _ => True) 2 [.root]) :=
  Fair.Script.run pFire (·.1)
    (by
      intro e s s' h
      simp only [pFire] at h
      split at h
      · rename_i hw; exact ⟨hw, e.2, by cases e.2 <;> trivial, get_ok h⟩
      · cases h) (s0 := sub .root) ⟨0, sub_exec 2 (by decide)⟩ stolen

theorem pRun_fair : pRun.Fair := by
  refine Fair.Script.fair fun w hw => ?_
  have hp : ∀ w, ((stolen.foldl (Fair.tick pFire) (sub .root)).c.pc w = .idle) ∧
      (stolen.foldl (Fair.tick pFire) (sub .root)).c.inbox w = [] := by
    intro w
    match w with
    | 0 => exact ⟨rfl, rfl⟩
    | 1 => exact ⟨rfl, rfl⟩
    | w + 2 => exact ⟨rfl, rfl⟩
  rcases hw.2 with h | h
  · exact h (hp w).1
  · exact h (hp w).2

/-- `C59_eventually` on it. -/
example : ∃ t, ∀ u, t ≤ u → ∀ f c w, Ev.submit f c w ∈ (pRun.st u).c.log →
    ∃ v, Ev.done f v ∈ (pRun.st u).c.log ∧ Ser prog (fun _ => True) c [] [] v := by
  obtain ⟨t, h⟩ := C59_eventually prog_disc prog_small (prog_noswitch 2) prog_ends' pRun pRun_fair
  exact ⟨t, fun u hu => (h u hu).2⟩

example : (pRun.st 18).c.log.head? = some (.done 0 (.ok 92)) := rfl

/-- `C59_stuck_done` on its last state. -/
example : ∃ k s, ExecN prog pPend (fun _ => True) 2 [.root] k s ∧ s.c.nf = 4 ∧
    ∀ w, w < 2 → ∀ ch s', Allowed (fun _ => True) ch → step prog w ch s ≠ .ok s' := by
  have h : ((get? (exec prog stolen (sub .root))).map fun s => s.c.nf) = some 4 := rfl
  rw [Option.map_eq_some_iff] at h
  obtain ⟨s, hs, hn⟩ := h
  refine ⟨_, s, exec_execN (sub_exec 2 (by decide)) (by decide) (get_ok hs), hn, ?_⟩
  have hi : ∀ w, s.c.pc w = .idle ∧ s.c.inbox w = [] ∧ s.c.q w = [] := by
    injection hs with hs
    subst hs
    intro w
    match w with
    | 0 => exact ⟨rfl, rfl, rfl⟩
    | 1 => exact ⟨rfl, rfl, rfl⟩
    | w + 2 => exact ⟨rfl, rfl, rfl⟩
  intro w _ ch s' _ e
  cases ch with
  | go c =>
    cases c with
    | take => simp only [step, (hi w).1, plain, Verif.Runtime.take, (hi w).2.1] at e; cases e
    | steal v => simp only [step, (hi w).1, plain, Verif.Runtime.steal, (hi v).2.2, List.getLast?_nil] at e; cases e
  | fail e' l => simp only [step, (hi w).1] at e; cases e
  | ready => simp only [step, (hi w).1] at e; cases e

/-! ### It has to end when everything fails -/

/-- A task that tries to fork until it succeeds. -/
def stubborn : Nat → Act Nat Nat Nat
  | 0 => .fork 3 (fun _ => 1) (fun _ => 0)
  | 1 => .join (fun _ => 3) (fun _ _ => 3)
  | _ => .ret 7

/-- Its serial elision ends if the fork succeeds. -/
example : Ser stubborn (fun _ => True) 0 [] [] (.ok 7) :=
  .fork true rfl (.ret rfl) (.join rfl rfl (.ret rfl))

/-- But it has schedules of any length: `Ends` asks for more. -/
theorem stubborn_long (k : Nat) : ∃ s, ExecN stubborn (fun x => if x = 1 then 1 else 0) (fun _ => True) 1 [0] (k + 1) s ∧ s.c.pc 0 = .run 0 ∧
    (s.c.fr 0).st = 0 := by
  induction k with
  | zero =>
    have h : ((get? (step stubborn 0 g (sub 0))).map fun s => (s.c.pc 0, (s.c.fr 0).st)) = some (.run 0, 0) := rfl
    rw [Option.map_eq_some_iff] at h
    obtain ⟨s, hs, hn⟩ := h
    injection hn with h1 h2
    exact ⟨s, .step (w := 0) (ch := g) ((ExecN.start 0).submit (w := 0) (c := 0) (by decide) rfl) (by decide) trivial (get_ok hs), h1, h2⟩
  | succ k ih =>
    obtain ⟨s, h1, h2, h3⟩ := ih
    refine ⟨{ s with c := goOn s.c 0 0 }, h1.step (w := 0) (ch := .fail 1 false) (by decide) trivial ?_, h2, rfl⟩
    simp only [step, h2, run, h3, stubborn, failed, Bool.false_eq_true, if_false]

theorem stubborn_not_ends (n : Nat) : ¬ Ends stubborn (fun _ => True) 0 [] [] n := by
  induction n using Nat.strongRecOn with
  | _ n ih =>
    intro h
    cases h with
    | fork hb h2 h3 h4 h5 => cases hb; exact ih _ (by omega) (h4 0 trivial)
    | _ => simp_all [stubborn]

end Verif.Exn
