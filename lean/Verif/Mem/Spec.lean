import Verif.Mem.Model

/-!
What programs of tasks with shared memory mean, without workers, queues, stacks and counters: the fork/join machine. A new task gets
any name that is not in use; any task that can go on may take the next step.
-/
namespace Verif.Mem
open Verif.Runtime (Ev status)
open Verif.Exn (errs oks)

/-- What a task waits for. -/
inductive Mode (V E : Type) where
  /-- There is no such task yet. -/
  | none
  /-- Nothing. -/
  | run
  /-- It has forked task `c` and has not been told the answer (which only sync forks look at). -/
  | forked (c : Nat)
  /-- It has called task `c`. -/
  | called (c : Nat)
  /-- It has returned or thrown. -/
  | ended (r : Except E V)

structure FJ (σ V E L : Type) where
  st : Nat → σ
  mode : Nat → Mode V E
  /-- The children a task has forked since its last join, oldest first. -/
  kids : Nat → List Nat
  /-- What its callees have thrown since then. -/
  threw : Nat → List E
  /-- The tasks that were submitted, newest first, and where they started. -/
  roots : List (Nat × σ)
  m : L → E
  hist : List (Acc E L)

def set {α : Type} (f : Nat → α) (i : Nat) (a : α) : Nat → α := fun j => if j = i then a else f j

variable {σ V E L : Type}

/-- The tasks `ks` have ended, with the results `rs`. -/
inductive Ended (mode : Nat → Mode V E) : List Nat → List (Except E V) → Prop
  | nil : Ended mode [] []
  | cons {c r ks rs} : mode c = .ended r → Ended mode ks rs → Ended mode (c :: ks) (r :: rs)

/-- A new task `n`, which starts in the state `c`. -/
def FJ.new (a : FJ σ V E L) (n : Nat) (c : σ) : FJ σ V E L :=
  { a with st := set a.st n c, mode := set a.mode n .run, kids := set a.kids n [], threw := set a.threw n [] }

/-- Task `f` goes on in the state `k`. -/
def FJ.on (a : FJ σ V E L) (f : Nat) (k : σ) : FJ σ V E L := { a with st := set a.st f k, mode := set a.mode f .run }

/-- A callee has thrown (or not). -/
def also (l : List E) : Except E V → List E
  | .ok _ => l
  | .error e => e :: l

/-- A step of task `f`. -/
inductive FJ.Step [DecidableEq L] (body : σ → Act σ V E L) (may : E → Prop) (f : Nat) : FJ σ V E L → FJ σ V E L → Prop
  | ret (a : FJ σ V E L) (v : V) : a.mode f = .run → body (a.st f) = .ret v → Step body may f a { a with mode := set a.mode f (.ended (.ok v)) }
  | throw (a : FJ σ V E L) (e : E) : a.mode f = .run → body (a.st f) = .throw e →
      Step body may f a { a with mode := set a.mode f (.ended (.error e)) }
  /-- The child runs from now on, and so can its parent (`resume`). -/
  | fork (a : FJ σ V E L) (n : Nat) (c : σ) (k) (x) : a.mode f = .run → body (a.st f) = .fork c k x → a.mode n = .none →
      Step body may f a { a.new n c with mode := set (a.new n c).mode f (.forked n), kids := set (a.new n c).kids f (a.kids f ++ [n]) }
  /-- A sync fork answers `true` only if the child has ended. -/
  | resume (a : FJ σ V E L) (n : Nat) (c : σ) (k) (x) (b : Bool) : a.mode f = .forked n → body (a.st f) = .fork c k x →
      (b = true → ∃ r, a.mode n = .ended r) → Step body may f a (a.on f (k b))
  | call (a : FJ σ V E L) (n : Nat) (c : σ) (k) (x) : a.mode f = .run → body (a.st f) = .call c k x → a.mode n = .none →
      Step body may f a { a.new n c with mode := set (a.new n c).mode f (.called n) }
  /-- A call goes on when the callee has ended, with its result; if it threw, the next join will throw. -/
  | back (a : FJ σ V E L) (n : Nat) (r : Except E V) (c : σ) (k) (x) : a.mode f = .called n → a.mode n = .ended r → body (a.st f) = .call c k x →
      Step body may f a { a.on f (k r.toOption) with threw := set a.threw f (also (a.threw f) r) }
  /-- A join waits for all the children forked since the last one. -/
  | join (a : FJ σ V E L) (rs : List (Except E V)) (k) (x) : a.mode f = .run → body (a.st f) = .join k x → Ended a.mode (a.kids f) rs →
      errs rs = [] → a.threw f = [] → Step body may f a { a.on f (k (oks rs)) with kids := set a.kids f [] }
  /-- It throws if one of them or of the callees has thrown, one of these exceptions. -/
  | rethrow (a : FJ σ V E L) (rs : List (Except E V)) (e : E) (k) (x) : a.mode f = .run → body (a.st f) = .join k x → Ended a.mode (a.kids f) rs →
      e ∈ errs rs ++ a.threw f →
      Step body may f a { a.on f (x e (rs.map Except.toOption)) with kids := set a.kids f [], threw := set a.threw f [] }
  | switch (a : FJ σ V E L) (d : Nat) (k : σ) (x) : a.mode f = .run → body (a.st f) = .switch d k x → Step body may f a (a.on f k)
  | forkFails (a : FJ σ V E L) (e : E) (c : σ) (k) (x) : a.mode f = .run → body (a.st f) = .fork c k x → may e → Step body may f a (a.on f (x e))
  | callFails (a : FJ σ V E L) (e : E) (c : σ) (k) (x) : a.mode f = .run → body (a.st f) = .call c k x → may e → Step body may f a (a.on f (x e))
  | switchFails (a : FJ σ V E L) (e : E) (d : Nat) (k : σ) (x) : a.mode f = .run → body (a.st f) = .switch d k x → may e → Step body may f a (a.on f (x e))
  | load (a : FJ σ V E L) (l : L) (k) : a.mode f = .run → body (a.st f) = .load l k →
      Step body may f a { a.on f (k (a.m l)) with hist := .load f l (a.m l) :: a.hist }
  | store (a : FJ σ V E L) (l : L) (d : E) (k : σ) : a.mode f = .run → body (a.st f) = .store l d k →
      Step body may f a { a.on f k with m := put a.m l d, hist := .store f l d :: a.hist }

/-- The submitted tasks that have not ended. -/
def FJ.open (a : FJ σ V E L) (c : σ) : Prop := ∃ f, (f, c) ∈ a.roots ∧ ∀ r, a.mode f ≠ .ended r

/-- A task is submitted. -/
def FJ.submit (a : FJ σ V E L) (n : Nat) (c : σ) : FJ σ V E L := { a.new n c with roots := (n, c) :: a.roots }

/-- No task yet. -/
def FJ.start (y : σ) (m : L → E) : FJ σ V E L := ⟨fun _ => y, fun _ => .none, fun _ => [], fun _ => [], [], m, []⟩

/-- The executions of the fork/join machine: tasks take steps, and tasks are submitted, as `ok` allows it given those that were submitted and
have not ended. -/
inductive FJ.Reach [DecidableEq L] (body : σ → Act σ V E L) (may : E → Prop) (ok : (σ → Prop) → σ → Prop) (m : L → E) : FJ σ V E L → Prop
  | start (y : σ) : Reach body may ok m (FJ.start y m)
  | submit {a : FJ σ V E L} (n : Nat) (c : σ) : Reach body may ok m a → ok a.open c → a.mode n = .none → Reach body may ok m (a.submit n c)
  | step {a a' : FJ σ V E L} (f : Nat) : Reach body may ok m a → FJ.Step body may f a a' → Reach body may ok m a'

/-- The tasks a history says were submitted, newest first. -/
def subs : List (Ev σ (Except E V)) → List (Nat × σ)
  | [] => []
  | .submit f c _ :: l => (f, c) :: subs l
  | .resume _ _ :: l => subs l
  | .suspend _ _ :: l => subs l
  | .done _ _ :: l => subs l

/-- The submitted tasks of the runtime that have not ended. -/
def MS.open (s : MS σ V E L) (c : σ) : Prop := ∃ f w, Ev.submit f c w ∈ s.x.c.log ∧ status f s.x.c.log ≠ .done

/-- Exceptions of forks, calls and switches are in `may`. -/
abbrev Allowed (may : E → Prop) (ch : Exn.Choice E) : Prop := Exn.Allowed may ch

/-- The rules for a task, as Verif.Exn.Disc: accesses to memory can be anywhere. -/
structure Disc (body : σ → Act σ V E L) (pend : σ → Nat) (dirty : σ → Prop) : Prop where
  ret : ∀ s v, body s = .ret v → pend s = 0 ∧ ¬ dirty s
  throw : ∀ s e, body s = .throw e → pend s = 0 ∧ ¬ dirty s
  fork : ∀ s c k x, body s = .fork c k x → pend c = 0 ∧
    (∀ b, pend (k b) = pend s + 1 ∧ (dirty s → dirty (k b))) ∧ ∀ e, pend (x e) = pend s ∧ (dirty s → dirty (x e))
  call : ∀ s c k x, body s = .call c k x → pend c = 0 ∧
    (∀ r, pend (k r) = pend s ∧ (r = none ∨ dirty s → dirty (k r))) ∧ ∀ e, pend (x e) = pend s ∧ (dirty s → dirty (x e))
  join : ∀ s k x, body s = .join k x → (∀ l, pend (k l) = 0) ∧ ∀ e l, pend (x e l) = 0
  switch : ∀ s d k x, body s = .switch d k x → pend k = pend s ∧ (dirty s → dirty k) ∧
    ∀ e, pend (x e) = pend s ∧ (dirty s → dirty (x e))
  load : ∀ s l k, body s = .load l k → ∀ d, pend (k d) = pend s ∧ (dirty s → dirty (k d))
  store : ∀ s l d k, body s = .store l d k → pend k = pend s ∧ (dirty s → dirty k)

/-- The states the runtime reaches in any schedule, started with memory `m`, as long as no task is stolen more than 65534 times between
two joins (C10). -/
inductive Reach [Inhabited E] [DecidableEq L] (body : σ → Act σ V E L) (pend : σ → Nat) (may : E → Prop) (ok : (σ → Prop) → σ → Prop) (m : L → E) :
    MS σ V E L → Prop
  | start (y : σ) : Reach body pend may ok m (MS.start y m)
  | submit {s : MS σ V E L} {c : σ} (w : Nat) : Reach body pend may ok m s → Runtime.Few s.x.c → pend c = 0 → ok s.open c →
      Reach body pend may ok m (submit s c w)
  | step {s s' : MS σ V E L} {w : Nat} {ch : Exn.Choice E} : Reach body pend may ok m s → Runtime.Few s.x.c → Allowed may ch → step body w ch s = .ok s' →
      Reach body pend may ok m s'

end Verif.Mem
