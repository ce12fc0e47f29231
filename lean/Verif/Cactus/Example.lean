import Verif.Cactus.Arena
import Verif.Exn.Example

/-!
An execution of the program of Verif.Exn.Example on segmented stacks that meets the hypotheses of the theorems of Verif.Cactus.Props: a task is stolen while its first child runs; the child
ends, finds the task stolen and gives the stack away; before it has got a new one the task has taken the stack, finished, and its worker has destroyed the stack.
-/
namespace Verif.Cactus.Example
open Verif.Runtime (State Res Ev Few)
open Verif.Exn (P prog pPend prog_disc prog_small Choice g)
open Verif.Space (Needs Within waiting Makes Nested Later Own)
open Verif.Stack (maxSize held GoodMalloc)

/-- The first child does not fit in the stacklet of its parent. -/
def size : P → Nat
  | .root => 3000
  | .leaf _ => 2000
  | .bad _ => 1500
  | _ => 100

theorem size_le (d : P) : size d ≤ maxSize := by
  have : size d ≤ 3000 := by cases d <;> simp [size]
  exact Nat.le_trans this (by decide +kernel)

abbrev any : Nat → Prop := fun _ => True

/-- The schedule; worker 0 executes a task that worker 1 steals. -/
def steps : List (Cmd P Nat) := [.init 0, .init 1, .submit .root 0] ++
  ([(0, g), (0, g), (1, .go (.steal 0)), (1, g), (0, g), (0, g), (0, g), (1, g), (1, g), (1, g), (1, g), (1, g), (1, g), (1, g), (1, g), (1, g)] : List (Nat × Choice Nat)).map
    (fun a => .step a.1 a.2) ++ [.finalize 1, .step 0 g, .finalize 0]

/-- The state after the first `n` commands. -/
def at_ (n : Nat) : CS P Nat Nat := (play prog size 1 (steps.take n) (CS.start .root)).getD (CS.start .root)

theorem cmds_ok : ∀ c ∈ steps, c.Ok pPend any := by
  intro c hc
  simp only [steps, List.map_cons, List.map_nil, List.cons_append, List.nil_append, List.mem_cons, List.not_mem_nil, or_false] at hc
  rcases hc with rfl | rfl | rfl | rfl | rfl | rfl | rfl | rfl | rfl | rfl | rfl | rfl | rfl | rfl | rfl | rfl | rfl | rfl | rfl | rfl | rfl | rfl <;>
    trivial

theorem reach (n : Nat) : Reach prog size 1 pPend any (at_ n) := by
  unfold at_
  cases h : play prog size 1 (steps.take n) (CS.start .root) with
  | none => exact .start _
  | some s => exact play_reach prog_disc prog_small size_le trivial (fun c hc => cmds_ok c (List.mem_of_mem_take hc)) (.start _) (start_tidy _) h

theorem few (n : Nat) : Few (at_ n).x.c := reach_few prog_disc prog_small size_le trivial (reach n)

/-- Which places of the heap are in use. -/
def places (s : CS P Nat Nat) : List Bool := [1048576, 2097152, 3145728, 4194304].map fun a => (s.heap a).isSome

theorem ended : (at_ 22).x.c.nf = 4 ∧ (at_ 22).p.fib 0 = 0 ∧ (at_ 22).p.fib 1 = 0 ∧ (at_ 22).x.c.inbox 0 = [] ∧ (at_ 22).x.c.inbox 1 = [] ∧
    places (at_ 22) = [false, false, false, false] := by decide +kernel

/-- **The zombie window.** Worker 0 has given its stack away and has no new one yet; meanwhile worker 1 took the stack, emptied it and destroyed it, and the stack object of worker 0 still points to it. -/
theorem window : (at_ 20).x.c.pc 0 = .finLose true ∧ (at_ 20).p.fib 0 = 3145728 ∧ (at_ 20).heap 3145728 = none := by decide +kernel

/-- `C71_safe`: also in this state. -/
example : step tidyArena prog size 1 0 g (at_ 20) ≠ .ub := (C71_safe prog_disc size_le trivial (reach 20) tidyArena_good (few 20)).1 0 g trivial

/-- `C71_step`: worker 0 gets a new stack, or the program ends. -/
example : (∃ s, step tidyArena prog size 1 0 g (at_ 20) = .ok s) ∨ step tidyArena prog size 1 0 g (at_ 20) = .die := by
  have := C71_step (m := tidyArena) (w := 0) (ch := g) prog_disc size_le trivial (reach 20) tidyArena_good (few 20) trivial (by rw [window.2.1]; decide)
  split at this
  · rcases this with ⟨p, h, e⟩ | ⟨-, ⟨f, hf, -⟩, -⟩ | ⟨-, -, e⟩
    · exact .inl ⟨_, e⟩
    · rw [window.1] at hf; cases hf
    · exact .inr e
  · rename_i e
    have : (match Exn.step prog 0 g (at_ 20).x with | .no => false | _ => true) = true := by decide +kernel
    rw [e] at this; cases this
  · exact this.elim

/-- `C71_step` when `malloc` refuses: the fork throws in the first state, and the program ends in the second. -/
theorem refuses : (∃ s, step (fun _ _ => none) prog size 1 0 g (at_ 4) = .ok s ∧ s.x.c.nf = 1 ∧ s.x.c.pc 0 = .run 0) ∧ step (fun _ _ => none) prog size 1 0 g (at_ 20) = .die := by
  have h1 : (match step (fun _ _ => none) prog size 1 0 g (at_ 4) with | .ok s => s.x.c.nf = 1 ∧ s.x.c.pc 0 = .run 0 | _ => False) := by
    have : (match step (fun _ _ => none) prog size 1 0 g (at_ 4) with | .ok s => decide (s.x.c.nf = 1 ∧ s.x.c.pc 0 = .run 0) | _ => false) = true := by decide +kernel
    split at this
    · simpa using this
    · cases this
  have h2 : (match step (fun _ _ => none) prog size 1 0 g (at_ 20) with | .die => true | _ => false) = true := by decide +kernel
  constructor
  · split at h1
    · exact ⟨_, by assumption, h1⟩
    · exact h1.elim
  · split at h2
    · assumption
    · cases h2

/-- `C71_submit`: a second task. -/
example : (∃ p h, submit tidyArena size (at_ 11) .root 1 = .ok ⟨Exn.submit (at_ 11).x .root 1, p, h⟩ ∧ p.fib = (at_ 11).p.fib) ∨
    (∃ h, submit tidyArena size (at_ 11) .root 1 = .ok ⟨(at_ 11).x, (at_ 11).p, h⟩ ∧ ∃ h, Refused tidyArena h) :=
  C71_submit prog_disc size_le trivial (reach 11) tidyArena_good (few 11) rfl 1

/-- `C71_compare`: the child has ended, its parent has been stolen and is on this stack; the child was on another stacklet of it. -/
theorem ending : (at_ 8).x.c.pc 0 = .finPop 0 1 ∧ (at_ 8).x.c.q 0 = [] ∧ (at_ 8).p.lab 0 = (at_ 8).p.fib 0 ∧ (at_ 8).p.lab 1 ≠ (at_ 8).p.lab 0 := by decide +kernel

example : (at_ 8).x.c.stk 0 = (at_ 8).x.c.wk 0 :=
  (C71_compare prog_disc size_le trivial (reach 8) (few 8) ending.1 ending.2.1).1 ending.2.2.1

/-- `C71_frames`, `C71_disjoint`: the task and its callee, on the stacks of two workers. -/
theorem both : 0 ∈ (at_ 14).x.c.al ((at_ 14).x.c.stk 0) ∧ 3 ∈ (at_ 14).x.c.al ((at_ 14).x.c.stk 3) ∧ (at_ 14).x.c.stk 0 ≠ (at_ 14).x.c.stk 3 := by decide +kernel

example : InBlock (at_ 14).heap ((at_ 14).p.addr 3) (size ((at_ 14).x.c.init 3)) ∧
    Apart ((at_ 14).p.addr 0) (size ((at_ 14).x.c.init 0)) ((at_ 14).p.addr 3) (size ((at_ 14).x.c.init 3)) :=
  ⟨(C71_frames prog_disc size_le trivial (reach 14) both.2.1).2, C71_disjoint prog_disc size_le trivial (reach 14) both.1 both.2.1 (by decide)⟩

theorem others (w : Nat) : (at_ 22).p.fib (w + 2) = 0 ∧ (at_ 22).x.c.inbox (w + 2) = [] := by
  constructor <;> with_unfolding_all rfl

/-- `C71_clean`. -/
example : ∀ a, (at_ 22).heap a = none :=
  C71_clean prog_disc size_le trivial (reach 22) (fun w => match w with | 0 => ended.2.1 | 1 => ended.2.2.1 | w + 2 => (others w).1)
    (fun w => match w with | 0 => ended.2.2.2.1 | 1 => ended.2.2.2.2.1 | w + 2 => (others w).2)

theorem later_end {c y : P} (hc : (∃ v, c = .leaf v) ∨ ∃ v, c = .bad v) (h : Later prog c y) : y = c := by
  induction h with
  | refl => rfl
  | next _ ho ih => rw [ih] at ho; rcases hc with ⟨v, rfl⟩ | ⟨v, rfl⟩ <;> cases ho <;> rename_i e <;> cases e

theorem makes_end {c d : P} (h : Makes prog c d) : ((∃ v, d = .leaf v) ∨ ∃ v, d = .bad v) ∧ ¬ ((∃ v, c = .leaf v) ∨ ∃ v, c = .bad v) := by
  obtain ⟨y, hl, hy⟩ := h
  refine ⟨?_, fun hc => ?_⟩
  · rcases hy with ⟨k, x, e⟩ | ⟨k, x, e⟩ <;> cases y <;> cases e
    · exact .inr ⟨_, rfl⟩
    · exact .inl ⟨_, rfl⟩
    · exact .inr ⟨_, rfl⟩
  · rw [later_end hc hl] at hy
    rcases hc with ⟨v, rfl⟩ | ⟨v, rfl⟩ <;> rcases hy with ⟨k, x, e⟩ | ⟨k, x, e⟩ <;> cases e

theorem nested_root {l : List P} (h : Nested prog .root l) : l = [.root] ∨ (∃ v, l = [.root, .leaf v]) ∨ ∃ v, l = [.root, .bad v] := by
  cases h with
  | one => exact .inl rfl
  | more hm hn =>
    right
    cases hn with
    | one => rcases (makes_end hm).1 with ⟨v, rfl⟩ | ⟨v, rfl⟩
             · exact .inl ⟨v, rfl⟩
             · exact .inr ⟨v, rfl⟩
    | more hm' _ => exact absurd (makes_end hm).1 (makes_end hm').2

theorem needs : Needs prog (fun d => (size d + 15) / 16 * 16) 5008 .root ∧ Needs prog (fun _ => 1) 2 .root := by
  constructor <;> intro l hl <;> rcases nested_root hl with rfl | ⟨v, rfl⟩ | ⟨v, rfl⟩ <;> simp [size]

theorem within (w : Nat) : (at_ 14).x.c.pc (w + 2) = .idle ∧ (at_ 14).x.c.inbox (w + 2) = [] ∧ (at_ 14).p.fib (w + 2) = 0 := by
  refine ⟨?_, ?_, ?_⟩ <;> with_unfolding_all rfl

theorem inside : waiting (at_ 14).x.c 2 = 0 ∧ held (at_ 14).heap [1048576, 2097152, 3145728] = 16240 ∧ places (at_ 14) = [true, true, true, false] := by decide +kernel

/-- `C71_memory`: three blocks, of 16240 bytes, are in use in that state. -/
example : held (at_ 14).heap [1048576, 2097152, 3145728] ≤ 81 * ((2 + 0) * 5008) + 36096 * (2 + (2 + 0) * 2) := by
  have hs : ∀ f c w, Ev.submit f c w ∈ (at_ 14).x.c.log → c = .root := by
    intro f c w hf
    have : ((at_ 14).x.c.log.all fun e => match e with | .submit _ .root _ => true | .submit _ _ _ => false | _ => true) = true := by decide +kernel
    have := List.all_eq_true.1 this _ hf
    cases c <;> simp_all
  have := C71_memory prog_disc size_le trivial (reach 14) (N := 2) (S := 5008) (D := 2)
    (fun w hw => by obtain ⟨k, rfl⟩ := Nat.exists_eq_add_of_le' hw; exact ⟨(within k).1, (within k).2.1⟩)
    (fun w hw => by obtain ⟨k, rfl⟩ := Nat.exists_eq_add_of_le' hw; exact (within k).2.2)
    (fun f c w hf => by rw [hs f c w hf]; exact needs.1) (fun f c w hf => by rw [hs f c w hf]; exact needs.2)
    (L := [1048576, 2097152, 3145728]) (by decide) (fun a ha => by
      have h1 := inside.2.2
      simp only [places, List.map_cons, List.map_nil, List.cons.injEq] at h1
      simp only [List.mem_cons, List.not_mem_nil, or_false] at ha
      rcases ha with rfl | rfl | rfl
      · intro e; rw [e] at h1; exact absurd h1.1 (by simp)
      · intro e; rw [e] at h1; exact absurd h1.2.1 (by simp)
      · intro e; rw [e] at h1; exact absurd h1.2.2.1 (by simp))
  rw [inside.1] at this
  exact this

end Verif.Cactus.Example
