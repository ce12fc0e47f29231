import Verif.Stack.Model
import Verif.Stack.CoNewSpec

/-
Model of `lf::co_new` (include/libfork/core/co_alloc.hpp:33-150 and include/libfork/core/impl/awaitables.hpp:181-225) in a
coroutine whose frame, and whose callees' frames, are on the same segmented stack.

A coroutine body is a program: it may own a `stack_allocated` array for the length of a block, call another coroutine, throw,
catch, and suspend (a join or an explicit switch after which it is resumed by a worker that takes the stack over from
`frame::stacklet()`). Every read of `frame::stacklet()` and every LF_ASSERT about it is in the model; a false assertion is
`ub`. Between any two operations on this stack the other workers do anything to their stacks (`Oracle.env`) and every call of
`malloc` may be answered in any way (`Oracle.m`).
-/
namespace Verif.Stack.CoNew

/-- What a coroutine body does with the stack. co_alloc.hpp:67-150, awaitables.hpp:187-230, and the frames of called coroutines (promise.hpp:156-161). -/
inductive Prog where
  | skip
  | throw
  | seq (p q : Prog)
  /-- `try { p } catch (...) { q }` -/
  | tryCatch (p q : Prog)
  /-- `{ auto [a] = co_await lf::co_new<T>(count); body }` with `sizeof(T)` = `sz`; `fails = some k`: the default constructor
  of `T` throws at element `k`. -/
  | coNew (count sz : Nat) (fails : Option Nat) (body : Prog)
  /-- `co_await lf::call(f)(...)`: a child coroutine with a frame of `size` bytes. -/
  | call (size : Nat) (body : Prog)
  /-- Suspend, and be resumed on a worker that takes the stack over. -/
  | migrate

/-- What the rest of the world does: the answer of `malloc` to the `n`-th operation, and what the other threads did before. No code: the environment. -/
structure Oracle where
  m : Nat → Malloc
  env : Nat → List (Malloc × Op)

/-- stack.hpp:76-200. -/
structure St where
  w : World
  /-- frame.hpp:166 `frame::stacklet()` of the coroutine that runs. -/
  slet : Nat
  log : List Ev
  tick : Nat

/-- No code: the outcome. -/
inductive Out where
  | ok (s : St)
  | thrown (s : St)
  | ub

/-- The other threads. No code: the environment. -/
def envRun : List (Malloc × Op) → World → Option World
  | [], w => some w
  | (m, op) :: l, w =>
    match exec m op w with
    | .ok w' => envRun l w'
    | .badAlloc w' => envRun l w'
    | .misuse => envRun l w
    | .ub => none

/-- stack.hpp:342 `top()` of stack `i`. -/
def top (i : Nat) (w : World) : Nat := match w.obj i with | some o => o.fib | none => 0

/-- The pointer that the last allocation on stack `i` returned. stack.hpp:308-318: what `deallocate` expects. -/
def lastPtr (i : Nat) (w : World) : Nat := match w.obj i with | some ⟨_, _, (p, _) :: _⟩ => p | _ => 0

/-- `tls::stack()->allocate(size)`: continue with the pointer; a `std::bad_alloc` leaves the expression. stack.hpp:281-300. -/
def alloc (O : Oracle) (i size : Nat) (s : St) (k : Nat → St → Out) : Out :=
  match envRun (O.env s.tick) s.w with
  | none => .ub
  | some w =>
    match exec (O.m s.tick) (.alloc i size) w with
    | .ok w' => k (lastPtr i w') { s with w := w', tick := s.tick + 1 }
    | .badAlloc w' => .thrown { s with w := w', tick := s.tick + 1 }
    | _ => .ub

/-- `tls::stack()->deallocate(p)`: it must be the last allocation of the stack (the stack's contract). stack.hpp:308-336. -/
def dealloc (O : Oracle) (i p : Nat) (s : St) (k : St → Out) : Out :=
  match envRun (O.env s.tick) s.w with
  | none => .ub
  | some w =>
    if lastPtr i w = p then
      match exec (O.m s.tick) (.dealloc i) w with
      | .ok w' => k { s with w := w', tick := s.tick + 1 }
      | _ => .ub
    else .ub

/-- How many elements are constructed: awaitables.hpp:203-205 `uninitialized_default_construct_n`. -/
def madeOf (count : Nat) : Option Nat → Nat
  | none => count
  | some k => min k count

/-- co_alloc.hpp:95-101 `~stack_allocated`; `r` says how the block was left. -/
def freeArray (O : Oracle) (i p count sz : Nat) (s : St) (r : St → Out) : Out :=
  -- co_alloc.hpp:96 LF_ASSERT
  if s.slet = top i s.w then
    -- co_alloc.hpp:97 std::ranges::destroy
    dealloc O i p { s with log := s.log ++ dtors p sz count } fun s' =>
      -- co_alloc.hpp:100 reset_stacklet
      r { s' with slet := top i s'.w }
  else .ub

/-- promise.hpp:161-166 `~promise_base` and `operator delete`, for a coroutine that ended; `up` is the caller's
`frame::stacklet()`. -/
def freeFrame (O : Oracle) (i p size up : Nat) (s : St) (r : St → Out) : Out :=
  -- promise.hpp:166 LF_ASSERT
  if s.slet = top i s.w then
    dealloc O i p { s with log := s.log ++ [.dtor p size] } fun s' => r { s' with slet := up }
  else .ub

/-- awaitables.hpp:416, resume.hpp:48 `*tls::stack() = stack{self->stacklet()}`: the worker that resumes the coroutine makes
a stack from the stacklet that the frame remembers. The stack keeps its number `i`, whichever thread holds it. -/
def takeStack (i : Nat) (s : St) : Out :=
  match adopt s.slet s.w.heap with
  | .ok f h =>
    match s.w.obj i with
    | some o => .ok { s with w := setObj s.w i (some ⟨f, true, o.live⟩) h }
    | none => .ub
  | _ => .ub

/-- A coroutine body. co_alloc.hpp:95-101, awaitables.hpp:187-230. -/
def eval (O : Oracle) (i : Nat) : Prog → St → Out
  | .skip, s => .ok s
  | .throw, s => .thrown s
  | .seq p q, s =>
    match eval O i p s with
    | .ok s' => eval O i q s'
    | r => r
  | .tryCatch p q, s =>
    match eval O i p s with
    | .thrown s' => eval O i q s'
    | r => r
  | .coNew count sz fails body, s =>
    -- awaitables.hpp:195 LF_ASSERT
    if s.slet = top i s.w then
      -- awaitables.hpp:197
      alloc O i ((count * sz) % W) s fun p s1 =>
        let k := madeOf count fails
        -- awaitables.hpp:203-205
        let s2 := { s1 with log := s1.log ++ ctors p sz k }
        if k < count then
          -- the algorithm destroys what it constructed; awaitables.hpp:206-207
          dealloc O i p { s2 with log := s2.log ++ dtors p sz k } .thrown
        else
          -- awaitables.hpp:212
          match eval O i body { s2 with slet := top i s2.w } with
          | .ok s3 => freeArray O i p count sz s3 .ok
          | .thrown s3 => freeArray O i p count sz s3 .thrown
          | .ub => .ub
    else .ub
  | .call size body, s =>
    -- promise.hpp:156 `operator new`; frame.hpp: the frame remembers `tls::stack()->top()`
    alloc O i size s fun p s1 =>
      match eval O i body { s1 with log := s1.log ++ [.ctor p size], slet := top i s1.w } with
      | .ok s2 => freeFrame O i p size s.slet s2 .ok
      | .thrown s2 => freeFrame O i p size s.slet s2 .thrown
      | .ub => .ub
  | .migrate, s => takeStack i s

/-- Programs whose sizes are those of C++ objects, and whose requests do not wrap (see C08 for those that do). No code: an assumption on programs. -/
def Wf : Prog → Prop
  | .seq p q => Wf p ∧ Wf q
  | .tryCatch p q => Wf p ∧ Wf q
  | .coNew count sz _ body => 0 < sz ∧ count * sz ≤ W - 4192 ∧ Wf body
  | .call size body => 0 < size ∧ size ≤ W - 4192 ∧ Wf body
  | _ => True

/-- The other threads keep to their own stacks. No code: an assumption on the environment. -/
def Foreign (i : Nat) (op : Op) : Prop :=
  (∀ n, op ≠ .alloc i n) ∧ op ≠ .dealloc i ∧ op ≠ .destroy i ∧ (∀ j, op ≠ .release i j) ∧ ∀ j, op ≠ .swap i j ∧ op ≠ .swap j i

end Verif.Stack.CoNew
