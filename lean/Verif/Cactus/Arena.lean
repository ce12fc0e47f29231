import Verif.Cactus.Props

/-!
A `malloc` that can be evaluated, for examples: it answers with multiples of 2^20. Executions with it are executions with one that meets
`GoodMalloc`, since all heaps on the way are tidy.
-/
namespace Verif.Cactus
open Verif.Runtime (State Res Few upd)
open Verif.Exn (XS Act Choice Allowed Disc)
open Verif.Stack (M Malloc Heap GoodMalloc maxSize Blk)

/-- Every block is at a multiple of 2^20, and not larger. -/
def Tidy (h : Heap) : Prop := ∀ q b, h q = some b → 1048576 ∣ q ∧ b.size ≤ 1048576

/-- The first free one of the first eight places. -/
def arena : Malloc := fun h r =>
  if r ≤ 1048576 then [1048576, 2097152, 3145728, 4194304, 5242880, 6291456, 7340032, 8388608].find? fun a => (h a).isNone else none

open Classical in
/-- The same, in tidy heaps. -/
noncomputable def tidyArena : Malloc := fun h r => if Tidy h then arena h r else none

theorem arena_some {h : Heap} {r a : Nat} (e : arena h r = some a) : r ≤ 1048576 ∧ a ≠ 0 ∧ 1048576 ∣ a ∧ a ≤ 8388608 ∧ h a = none := by
  unfold arena at e
  split at e
  · rename_i hr
    have h1 := List.mem_of_find?_eq_some e
    have h2 := List.find?_some e
    simp only [Option.isNone_iff_eq_none] at h2
    refine ⟨hr, ?_, ?_, ?_, h2⟩
    all_goals simp only [List.mem_cons, List.not_mem_nil, or_false] at h1
    all_goals omega
  · cases e

theorem tidyArena_good : GoodMalloc tidyArena := by
  intro h r a e
  unfold tidyArena at e
  split at e
  · rename_i ht
    obtain ⟨h1, h2, h3, h4, h5⟩ := arena_some e
    refine ⟨h2, ?_, by unfold Stack.maxAddr; omega, fun b x hb => ?_⟩
    · exact Nat.dvd_trans (by decide) h3
    · have h6 := ht b x hb
      have : b ≠ a := fun e => by rw [e, h5] at hb; cases hb
      omega
  · cases e

/-- The two programs do the same in tidy heaps, and leave them tidy. -/
def Same {α : Type} (Q : α → Prop) (x x' : M α) : Prop :=
  ∀ h, Tidy h → x h = x' h ∧ match x' h with | .ok a h' => Q a ∧ Tidy h' | .badAlloc h' => Tidy h' | .ub => True

namespace Same
variable {α β : Type} {Q : α → Prop} {R : β → Prop}

theorem bind {x x' : M α} {f f' : α → M β} (hx : Same Q x x') (hf : ∀ a, Q a → Same R (f a) (f' a)) : Same R (x >>= f) (x' >>= f') := by
  intro h ht
  obtain ⟨e, k⟩ := hx h ht
  rw [Stack.bind_apply, Stack.bind_apply, e]
  cases hr : x' h with
  | ok a h' => rw [hr] at k; exact hf a k.1 h' k.2
  | badAlloc h' => rw [hr] at k; exact ⟨rfl, k⟩
  | ub => exact ⟨rfl, trivial⟩

theorem pure {a : α} (h : Q a) : Same Q (pure a) (pure a) := fun _ ht => ⟨rfl, h, ht⟩

theorem weak {Q' : α → Prop} {x x' : M α} (hx : Same Q x x') (h : ∀ a, Q a → Q' a) : Same Q' x x' := by
  intro h' ht
  obtain ⟨e, k⟩ := hx h' ht
  refine ⟨e, ?_⟩
  cases hr : x' h' with
  | ok a h' => rw [hr] at k; exact ⟨h _ k.1, k.2⟩
  | badAlloc h' => rw [hr] at k; exact k
  | ub => trivial

theorem ite {c : Prop} [Decidable c] {x x' y y' : M α} (hx : Same Q x x') (hy : Same Q y y') : Same Q (if c then x else y) (if c then x' else y') := by
  split
  · exact hx
  · exact hy

theorem get (p : Nat) : Same (fun b => b.size ≤ 1048576) (Stack.get p) (Stack.get p) := by
  intro h ht
  refine ⟨rfl, ?_⟩
  unfold Stack.get
  cases hb : h p with
  | none => trivial
  | some b => exact ⟨(ht p b hb).2, ht⟩

theorem put {p : Nat} {b : Blk} (hb : b.size ≤ 1048576) : Same (fun _ => True) (Stack.put p b) (Stack.put p b) := by
  intro h ht
  refine ⟨rfl, ?_⟩
  unfold Stack.put
  cases hp : h p with
  | none => trivial
  | some b0 =>
    refine ⟨trivial, fun q c hc => ?_⟩
    simp only at hc
    split at hc
    · rename_i e; cases hc; rw [e]; exact ⟨(ht p b0 hp).1, hb⟩
    · exact ht q c hc

theorem assert (c : Bool) : Same (fun _ => True) (Stack.assert c) (Stack.assert c) := by
  intro h ht
  refine ⟨rfl, ?_⟩
  unfold Stack.assert
  cases c with
  | true => exact ⟨trivial, ht⟩
  | false => trivial

theorem free (p : Nat) : Same (fun _ => True) (Stack.free p) (Stack.free p) := by
  intro h ht
  refine ⟨rfl, ?_⟩
  unfold Stack.free
  by_cases h0 : p = 0
  · rw [if_pos h0]; exact ⟨trivial, ht⟩
  · rw [if_neg h0]
    cases hp : h p with
    | none => trivial
    | some b0 =>
      refine ⟨trivial, fun q c hc => ?_⟩
      simp only at hc
      split at hc
      · cases hc
      · exact ht q c hc

theorem malloc (r : Nat) : Same (fun _ => r ≤ 1048576) (Stack.malloc tidyArena r) (Stack.malloc arena r) := by
  intro h ht
  have e : tidyArena h r = arena h r := by unfold tidyArena; rw [if_pos ht]
  unfold Stack.malloc
  rw [e]
  refine ⟨rfl, ?_⟩
  cases ha : arena h r with
  | none => exact ht
  | some a =>
    obtain ⟨h1, h2, h3, h4, h5⟩ := arena_some ha
    refine ⟨h1, fun q c hc => ?_⟩
    simp only at hc
    split at hc
    · rename_i e; cases hc; rw [e]; exact ⟨h3, h1⟩
    · exact ht q c hc

abbrev T {α : Type} : α → Prop := fun _ => True

theorem isTop (p : Nat) : Same T (Stack.isTop p) (Stack.isTop p) :=
  bind (get p) fun _ _ => ite (bind (get _) fun _ _ => pure trivial) (pure trivial)

theorem setNext (p n : Nat) : Same T (Stack.setNext p n) (Stack.setNext p n) :=
  bind (isTop p) fun t _ => bind (assert t) fun _ _ => bind (get p) fun _ hb => bind (put hb) fun _ _ => free _

theorem round (n : Nat) : Same T (Stack.roundUpToPageSize n) (Stack.roundUpToPageSize n) :=
  bind (assert _) fun _ _ => bind (assert _) fun _ _ => bind (assert _) fun _ _ => pure trivial

theorem next (n p : Nat) : Same T (Stack.nextStacklet tidyArena n p) (Stack.nextStacklet arena n p) :=
  bind (Q := T) (ite (bind (isTop p) fun t _ => assert t) (pure trivial)) fun _ _ => bind (round _) fun _ _ => bind (assert _) fun _ _ => bind (malloc _) fun _ hr =>
    bind (Q := T) (ite (setNext _ _) (pure trivial)) fun _ _ => bind (put hr) fun _ _ => pure trivial

theorem new : Same T (Stack.new tidyArena) (Stack.new arena) := next _ _

theorem adopt (p : Nat) : Same T (Stack.adopt p) (Stack.adopt p) :=
  bind (assert _) fun _ _ => bind (isTop p) fun t _ => bind (assert t) fun _ _ => pure trivial

theorem destroy (p : Nat) : Same T (Stack.destroy p) (Stack.destroy p) :=
  bind (assert _) fun _ _ => bind (get p) fun _ _ => bind (assert _) fun _ _ => bind (setNext _ _) fun _ _ => free _

theorem empty (p : Nat) : Same T (Stack.empty p) (Stack.empty p) :=
  bind (assert _) fun _ _ => bind (isTop p) fun t _ => bind (assert t) fun _ _ => bind (get p) fun _ _ => pure trivial

theorem release (p : Nat) : Same T (Stack.release tidyArena p) (Stack.release arena p) :=
  bind (assert _) fun _ _ => bind (next _ _) fun _ _ => pure trivial

theorem capacity (b : Blk) : Same T (Stack.capacity b) (Stack.capacity b) := bind (assert _) fun _ _ => pure trivial

theorem unused (b : Blk) : Same T (Stack.unused b) (Stack.unused b) := bind (assert _) fun _ _ => pure trivial

theorem cached (b : Blk) (n : Nat) : Same T (Stack.cachedFits b n) (Stack.cachedFits b n) :=
  ite (bind (get _) fun _ _ => bind (capacity _) fun _ _ => pure trivial) (pure trivial)

theorem pick (p : Nat) (b : Blk) (u n : Nat) : Same T (Stack.pickTop tidyArena p b u n) (Stack.pickTop arena p b u n) :=
  ite (bind (cached _ _) fun _ _ => ite (pure trivial) (bind (capacity _) fun _ _ => next _ _)) (pure trivial)

theorem allocate (p n : Nat) : Same T (Stack.allocate tidyArena p n) (Stack.allocate arena p n) :=
  bind (assert _) fun _ _ => bind (isTop p) fun t _ => bind (assert t) fun _ _ => bind (get p) fun _ _ => bind (unused _) fun _ _ => bind (pick _ _ _ _) fun _ _ =>
    bind (isTop _) fun t' _ => bind (assert t') fun _ _ => bind (get _) fun _ hb => bind (put hb) fun _ _ => pure trivial

theorem leave (p : Nat) (b : Blk) : Same T (Stack.leave p b) (Stack.leave p b) := ite (bind (setNext _ _) fun _ _ => pure trivial) (pure trivial)

theorem trim (p : Nat) : Same T (Stack.trim p) (Stack.trim p) :=
  bind (get p) fun _ _ => ite (bind (get _) fun _ _ => bind (capacity _) fun _ _ => bind (capacity _) fun _ _ => ite (setNext _ _) (pure trivial)) (pure trivial)

theorem shrink (p : Nat) : Same T (Stack.shrink p) (Stack.shrink p) :=
  bind (get p) fun _ _ => ite (bind (leave _ _) fun _ _ => bind (assert _) fun _ _ => bind (trim _) fun _ _ => pure trivial) (pure trivial)

theorem deallocate (p a : Nat) : Same T (Stack.deallocate p a) (Stack.deallocate p a) :=
  bind (assert _) fun _ _ => bind (isTop p) fun t _ => bind (assert t) fun _ _ => bind (get p) fun _ hb => bind (put hb) fun _ _ => bind (shrink _) fun _ _ =>
    bind (isTop _) fun t' _ => bind (assert t') fun _ _ => pure trivial

theorem orElse {x x' y y' : M α} (hx : Same Q x x') (hy : Same Q y y') : Same Q (Cactus.orElse x y) (Cactus.orElse x' y') := by
  intro h ht
  obtain ⟨e, k⟩ := hx h ht
  unfold Cactus.orElse
  rw [e]
  cases hr : x' h with
  | ok a h' => rw [hr] at k; exact ⟨rfl, k⟩
  | badAlloc h' => rw [hr] at k; exact hy h' k
  | ub => exact ⟨rfl, trivial⟩

theorem noAlloc (p : Nat) : Same T (Cactus.noAlloc p) (Cactus.noAlloc p) := bind (empty p) fun _ _ => assert _
theorem pop (p l a : Nat) : Same T (Cactus.pop p l a) (Cactus.pop p l a) := bind (assert _) fun _ _ => deallocate _ _
theorem takeStack (p l : Nat) : Same T (Cactus.takeStack p l) (Cactus.takeStack p l) := bind (adopt l) fun _ _ => bind (destroy p) fun _ _ => pure trivial
theorem renew (p : Nat) : Same T (Cactus.renew tidyArena p) (Cactus.renew arena p) := bind (release p) fun _ _ => pure trivial

theorem schedule (n : Nat) : Same T (Cactus.schedule tidyArena n) (Cactus.schedule arena n) :=
  orElse (bind new fun _ _ => orElse (bind (allocate _ _) fun _ _ => orElse (bind (renew _) fun _ _ => bind (destroy _) fun _ _ => pure trivial)
    (bind (pop _ _ _) fun _ _ => bind (destroy _) fun _ _ => pure trivial)) (bind (destroy _) fun _ _ => pure trivial)) (pure trivial)

theorem doPush (w n f : Nat) (p : Ptrs) : Same T (Cactus.doPush tidyArena w n f p) (Cactus.doPush arena w n f p) := bind (allocate _ _) fun _ _ => pure trivial
theorem doPushPop (w n : Nat) (p : Ptrs) : Same T (Cactus.doPushPop tidyArena w n p) (Cactus.doPushPop arena w n p) :=
  bind (allocate _ _) fun _ _ => bind (pop _ _ _) fun _ _ => pure trivial
theorem doPop (w f : Nat) (b : Bool) (p : Ptrs) : Same T (Cactus.doPop w f b p) (Cactus.doPop w f b p) :=
  bind (pop _ _ _) fun _ _ => by
    cases b
    · exact bind (Q := T) (pure trivial) fun _ _ => pure trivial
    · exact bind (noAlloc _) fun _ _ => pure trivial
theorem doTake (w f : Nat) (p : Ptrs) : Same T (Cactus.doTake w f p) (Cactus.doTake w f p) := bind (noAlloc _) fun _ _ => bind (takeStack _ _) fun _ _ => pure trivial
theorem doTakeTop (w f : Nat) (p : Ptrs) : Same T (Cactus.doTakeTop w f p) (Cactus.doTakeTop w f p) := bind (doTake _ _ _) fun _ _ => bind (assert _) fun _ _ => pure trivial
theorem doGive (w : Nat) (b : Bool) (p : Ptrs) : Same T (Cactus.doGive tidyArena w b p) (Cactus.doGive arena w b p) := by
  cases b
  · exact bind (noAlloc _) fun _ _ => pure trivial
  · exact bind (renew _) fun _ _ => bind (noAlloc _) fun _ _ => pure trivial
theorem check (c : Bool) (p : Ptrs) : Same T (Cactus.check c p) (Cactus.check c p) := bind (assert _) fun _ _ => pure trivial
theorem doEmpty (w : Nat) (p : Ptrs) : Same T (Cactus.doEmpty w p) (Cactus.doEmpty w p) := bind (noAlloc _) fun _ _ => pure trivial

variable {σ V E : Type} (body : σ → Act σ V E) (size : σ → Nat)

theorem runOps (w f : Nat) (ch : Choice E) (c : State σ (Except E V)) (p : Ptrs) :
    Same T (Cactus.runOps tidyArena body size w f ch c p) (Cactus.runOps arena body size w f ch c p) := by
  unfold Cactus.runOps
  split
  · exact doPop _ _ _ _
  · exact doPop _ _ _ _
  · exact doPush _ _ _ _
  · exact doPush _ _ _ _
  · exact doPushPop _ _ _
  · exact doPushPop _ _ _
  · exact ite (check _ _) (pure trivial)
  · exact check _ _
  · exact pure trivial

theorem ops (w : Nat) (ch : Choice E) (c : State σ (Except E V)) (p : Ptrs) : Same T (Cactus.ops tidyArena body size w ch c p) (Cactus.ops arena body size w ch c p) := by
  unfold Cactus.ops
  split
  · split
    · exact ite (doTake _ _ _) (doEmpty _ _)
    · exact doEmpty _ _
  · exact runOps _ _ _ _ _ _ _
  · exact doTakeTop _ _ _
  · exact check _ _
  · exact doTakeTop _ _ _
  · exact doGive _ _ _
  · exact doGive _ _ _
  · exact ite (doEmpty _ _) (pure trivial)
  all_goals exact pure trivial

end Same

/-- A command of an example. -/
inductive Cmd (σ E : Type) where
  | init (w : Nat)
  | submit (d : σ) (w : Nat)
  | step (w : Nat) (ch : Choice E)
  | finalize (w : Nat)

variable {σ V E : Type} {body : σ → Act σ V E} {size : σ → Nat} {oom : E} {pend : σ → Nat} {dirty : σ → Prop} {may : E → Prop}

def Cmd.run (m : Malloc) (body : σ → Act σ V E) (size : σ → Nat) (oom : E) (s : CS σ V E) : Cmd σ E → Out (CS σ V E)
  | .init w => Cactus.init m w s
  | .submit d w => Cactus.submit m size s d w
  | .step w ch => Cactus.step m body size oom w ch s
  | .finalize w => Cactus.finalize w s

/-- The state after all commands. -/
def play (body : σ → Act σ V E) (size : σ → Nat) (oom : E) : List (Cmd σ E) → CS σ V E → Option (CS σ V E)
  | [], s => some s
  | c :: l, s => match c.run arena body size oom s with | .ok s' => play body size oom l s' | _ => none

theorem run_tidy (c : Cmd σ E) {s : CS σ V E} (ht : Tidy s.heap) : c.run tidyArena body size oom s = c.run arena body size oom s ∧
    ∀ s', c.run arena body size oom s = .ok s' → Tidy s'.heap := by
  cases c with
  | init w =>
    obtain ⟨e, k⟩ := Same.new s.heap ht
    simp only [Cmd.run, init, e]
    refine ⟨trivial, fun s' h => ?_⟩
    split at h
    · cases hr : Stack.new arena s.heap <;> rw [hr] at h k <;> cases h
      · exact k.2
      · exact k
    · cases h
  | submit d w =>
    obtain ⟨e, k⟩ := Same.schedule (size d) s.heap ht
    simp only [Cmd.run, submit, e]
    refine ⟨trivial, fun s' h => ?_⟩
    cases hr : schedule arena (size d) s.heap with
    | ok o h' => rw [hr] at h k; cases o <;> cases h <;> exact k.2
    | badAlloc h' => rw [hr] at h; cases h
    | ub => rw [hr] at h; cases h
  | step w ch =>
    obtain ⟨e, k⟩ := Same.ops body size w ch s.x.c s.p s.heap ht
    simp only [Cmd.run, step, e]
    refine ⟨trivial, fun s' h => ?_⟩
    split at h
    · cases h
    · split at h
      · cases hr : ops arena body size w ch s.x.c s.p s.heap with
        | ok o h' => rw [hr] at h k; cases h; exact k.2
        | badAlloc h' =>
          rw [hr] at h k
          simp only at h
          split at h
          · unfold after at h
            split at h <;> cases h
            exact k
          · cases h
        | ub => rw [hr] at h; cases h
      · cases h
      · cases h
  | finalize w =>
    obtain ⟨-, k⟩ := Same.destroy (s.p.fib w) s.heap ht
    refine ⟨rfl, fun s' h => ?_⟩
    simp only [Cmd.run, finalize] at h
    split at h
    · cases hr : Stack.destroy (s.p.fib w) s.heap with
      | ok o h' => rw [hr] at h k; cases h; exact k.2
      | badAlloc h' => rw [hr] at h; cases h
      | ub => rw [hr] at h; cases h
    · cases h

theorem reachAny_of {s : XS σ V E} (h : Exn.Reach body pend may s) : Exn.ReachAny body pend may s := by
  induction h with
  | start x => exact .start x
  | submit w _ _ hc ih => exact ih.submit w hc
  | step _ _ ha e ih => exact ih.step ha e

/-- C71: a program whose scopes fork at most 65534 children meets the bound of `Reach` in every schedule. -/
theorem reach_few (hd : Disc body pend dirty) (hp : ∀ x, pend x ≤ 65534) (hsz : ∀ d, size d ≤ maxSize) (ho : may oom) {s : CS σ V E}
    (h : Reach body size oom pend may s) : Few s.x.c := (Exn.reach_of_bounded hd hp (reachAny_of (C71_refines hd hsz ho h))).2

/-- What a command needs. -/
def Cmd.Ok (pend : σ → Nat) (may : E → Prop) : Cmd σ E → Prop
  | .submit d _ => pend d = 0
  | .step _ ch => Allowed may ch
  | _ => True

theorem play_reach (hd : Disc body pend dirty) (hp : ∀ x, pend x ≤ 65534) (hsz : ∀ d, size d ≤ maxSize) (ho : may oom) {l : List (Cmd σ E)} (hl : ∀ c ∈ l, c.Ok pend may)
    {s s' : CS σ V E} (h : Reach body size oom pend may s) (ht : Tidy s.heap) (e : play body size oom l s = some s') : Reach body size oom pend may s' := by
  induction l generalizing s with
  | nil => cases e; exact h
  | cons c l ih =>
    have hf := reach_few hd hp hsz ho h
    obtain ⟨e1, k⟩ := run_tidy (body := body) (size := size) (oom := oom) c ht
    have hc := hl c List.mem_cons_self
    simp only [play] at e
    split at e
    · rename_i s1 e2
      refine ih (fun c' hc' => hl c' (List.mem_cons_of_mem _ hc')) ?_ (k s1 e2) e
      rw [← e1] at e2
      cases c with
      | init w => exact .init h tidyArena_good e2
      | submit d w => exact .submit h tidyArena_good hf hc e2
      | step w ch => exact .step h tidyArena_good hf hc e2
      | finalize w => exact .finalize h e2
    · cases e

theorem start_tidy (x : σ) : Tidy (CS.start x : CS σ V E).heap := fun _ _ h => by cases h

end Verif.Cactus
