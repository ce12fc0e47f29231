import Verif.Cactus.Model
import Verif.Exn.Spec
import Verif.Stack.Rep

/-!
Executions of the runtime on the segmented stacks, and what their memory is to be like.
-/
namespace Verif.Cactus
open Verif.Runtime (State Res Few)
open Verif.Exn (XS Act Choice Allowed)
open Verif.Stack (Malloc Heap GoodMalloc)

variable {σ V E : Type}

/-- The states reached by any number of threads that become and cease to be workers, submit root tasks and take steps in any order, as long
as no task is stolen more than 65534 times between two joins (C10). Every call of `malloc` may be answered with any free block or refused.
`size d` is the size of the frame of a task that starts as `d`, and `oom` what is thrown when there is no memory for one. -/
inductive Reach (body : σ → Act σ V E) (size : σ → Nat) (oom : E) (pend : σ → Nat) (may : E → Prop) : CS σ V E → Prop
  | start (x : σ) : Reach body size oom pend may (CS.start x)
  | init {s s' : CS σ V E} {m : Malloc} {w : Nat} : Reach body size oom pend may s → GoodMalloc m → init m w s = .ok s' →
      Reach body size oom pend may s'
  | finalize {s s' : CS σ V E} {w : Nat} : Reach body size oom pend may s → finalize w s = .ok s' → Reach body size oom pend may s'
  | submit {s s' : CS σ V E} {m : Malloc} {d : σ} {w : Nat} : Reach body size oom pend may s → GoodMalloc m → Few s.x.c → pend d = 0 →
      submit m size s d w = .ok s' → Reach body size oom pend may s'
  | step {s s' : CS σ V E} {m : Malloc} {w : Nat} {ch : Choice E} : Reach body size oom pend may s → GoodMalloc m → Few s.x.c → Allowed may ch →
      step m body size oom w ch s = .ok s' → Reach body size oom pend may s'

/-- The task of worker `w` forks or calls. -/
def Spawns (body : σ → Act σ V E) (x : XS σ V E) (w : Nat) : Prop :=
  ∃ f, x.c.pc w = .run f ∧ ((∃ d k y, body (x.c.fr f).st = .fork d k y) ∨ ∃ d k y, body (x.c.fr f).st = .call d k y)

/-- Memory is refused. -/
def Refused (m : Malloc) (h : Heap) : Prop := ∃ n, m h n = none

/-- Task `f` has been made and is not destroyed. -/
def Exists (s : CS σ V E) (f : Nat) : Prop := f ∈ s.x.c.al (s.x.c.stk f)

/-- The memory of a frame is in a block of the heap and not in its header. -/
def InBlock (h : Heap) (a n : Nat) : Prop := ∃ b blk, h b = some blk ∧ b + Stack.hdr ≤ a ∧ a + n ≤ b + blk.size

/-- Two pieces of memory do not overlap. -/
def Apart (a n a' n' : Nat) : Prop := a + n ≤ a' ∨ a' + n' ≤ a

end Verif.Cactus
