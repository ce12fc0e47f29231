import Verif.Runtime.Model
import Verif.Deque.Model
import Verif.Weak.Spec

/-!
The runtime of Verif.Runtime.Model with every queue operation replaced by a call to a work-stealing queue that takes any number
of steps of its own, interleaved with the steps of all other workers: `push` (awaitables.hpp:253, context.hpp:136), `pop` (promise.hpp:53,
awaitables.hpp:57, context.hpp:141) and `steal` (context.hpp:90). The queue is a parameter: the implementation of deque.hpp step by step
(Verif.Deque.Model) or its specification.

The code of the runtime is that of Verif.Runtime.Model, unchanged: a step of a worker runs `Runtime.step` on a state in which the
worker's queue shows what the call to the queue has returned (or, for the assertions `context()->empty()`, whether the queue is
empty). The field `q` of the runtime state is overwritten before every step and holds no information between steps.

Simplifications: those of the two models; a `push` whose growth of the buffer throws does not return (Verif.Deque covers that it
leaves the deque as it was; the fork that sees the exception is not modelled here).
-/
namespace Verif.Compose
open Verif.Runtime (State Act Pc Res Choice upd doFork step submit)
open Verif.Deque (Ev OOp ORet SRet AState AStep)

/-- A work-stealing queue of frames (numbers), with worker `i` as thief `i`. The interface of core/ext/deque.hpp:264-340. -/
structure QObj where
  D : Type
  init : D → Prop
  step : D → Option (Ev Nat Nat) → D → Prop
  /-- deque.hpp:375-379 `empty()`, called by the owner. -/
  empty : D → Bool

/-- The deque of deque.hpp with initial capacity `cap` (context.hpp:108: the default capacity). -/
abbrev implObj (maxCap cap : Nat) : QObj where
  D := Verif.Deque.St Nat Nat
  init d := ∃ b : Nat → Verif.Deque.Buf Nat, (b 0).cap = cap ∧ d = .init b
  step d e d' := Verif.Deque.Step maxCap d e d'
  empty d := decide (d.bottom ≤ d.top)

/-- Its specification: a list whose operations take effect in an instant. No code: the specification of core/ext/deque.hpp. -/
abbrev specObj : QObj where
  D := AState Nat Nat
  init d := d = .init
  step d e d' := Verif.Weak.WStep d e d'
  empty d := d.q.isEmpty

/-- The call to a queue a worker is in. core/ext/deque.hpp:382-462. -/
inductive Call where
  | none
  | push
  | pop
  /-- of the queue of worker `v` -/
  | steal (v : Nat)
  deriving DecidableEq

/-- The runtime (core/impl/awaitables.hpp, core/impl/promise.hpp) and a queue per worker (core/ext/context.hpp:108). -/
structure CS (σ V D : Type) where
  c : State σ V
  dq : Nat → D
  call : Nat → Call

variable {σ V : Type}

/-- The runtime with the queue of `w` showing `l`. No code. -/
def see (c : State σ V) (w : Nat) (l : List Nat) : State σ V := { c with q := upd (fun _ => []) w (l.map (·, 0)) }

/-- ... and in addition the queue of `v` showing `p`. No code. -/
def see2 (c : State σ V) (w : Nat) (l : List Nat) (v p : Nat) : State σ V :=
  { see c w l with q := upd (see c w l).q v [(p, 0)] }

/-- What the assertions on the worker's own queue see. core/ext/context.hpp:150. -/
def QObj.own (M : QObj) (d : M.D) : List Nat := if M.empty d then [] else [0]

/-- The next step of `w` calls no queue operation (other than `empty`).
All steps of Verif.Runtime.step (core/impl/awaitables.hpp, core/impl/promise.hpp) except the following. -/
def Local (body : σ → Act σ V) (c : State σ V) (w : Nat) (ch : Choice) : Prop :=
  match c.pc w with
  | .finPop _ _ | .selfSteal => False
  | .idle => ch = .take
  | .run f => ∀ a k, body (c.fr f).st ≠ .fork a k
  | _ => True

/-- The next step of `w` pops from its own queue. core/impl/promise.hpp:53, core/impl/awaitables.hpp:55-63. -/
def Pops (c : State σ V) (w : Nat) : Prop := c.pc w = .selfSteal ∨ ∃ p k, c.pc w = .finPop p k

/-- What `pop` returns, as the runtime sees its queue. core/ext/context.hpp:141-147. -/
def popSeen : ORet Nat → Option (List Nat)
  | .got v => some [v]
  | .none => some []
  | _ => none

/-- No code. -/
def Res.map {α β : Type} (f : α → β) : Res α → Res β
  | .ok a => .ok (f a)
  | .ub => .ub
  | .no => .no

/-- One step of the system: of a worker, or inside a queue (of its owner or of a thief).
core/ext/context.hpp:90,136-150 and what calls them (core/impl/awaitables.hpp, core/impl/promise.hpp, core/ext/resume.hpp). -/
inductive Step (body : σ → Act σ V) (M : QObj) : CS σ V M.D → Res (CS σ V M.D) → Prop where
  /-- code between two queue operations -/
  | loc {x : CS σ V M.D} (w : Nat) (ch : Choice) : x.call w = .none → Local body x.c w ch →
      Step body M x (Res.map (fun c' => { x with c := c' }) (step body w ch (see x.c w (M.own (x.dq w)))))
  /-- a step inside the queue of `v` -/
  | tau {x : CS σ V M.D} (v : Nat) {d' : M.D} : M.step (x.dq v) none d' → Step body M x (.ok { x with dq := upd x.dq v d' })
  /-- awaitables.hpp:239-253: the child's frame has been made, `push` of the parent is called. -/
  | fork {x : CS σ V M.D} (w f : Nat) (a k : σ) {d' : M.D} : x.call w = .none → x.c.pc w = .run f → body (x.c.fr f).st = .fork a k →
      M.step (x.dq w) (some (.oinv (.push f))) d' →
      Step body M x (.ok ⟨doFork x.c w f a k, upd x.dq w d', upd x.call w .push⟩)
  | pushed {x : CS σ V M.D} (w : Nat) {d' : M.D} : x.call w = .push → M.step (x.dq w) (some (.ores .pushed)) d' →
      Step body M x (.ok { x with dq := upd x.dq w d', call := upd x.call w .none })
  | pop {x : CS σ V M.D} (w : Nat) {d' : M.D} : x.call w = .none → Pops x.c w → M.step (x.dq w) (some (.oinv .pop)) d' →
      Step body M x (.ok { x with dq := upd x.dq w d', call := upd x.call w .pop })
  /-- `pop` returns and the code after it runs. -/
  | popped {x : CS σ V M.D} (w : Nat) (ch : Choice) (r : ORet Nat) (l : List Nat) {d' : M.D} : x.call w = .pop →
      M.step (x.dq w) (some (.ores r)) d' → popSeen r = some l →
      Step body M x (Res.map (fun c' => ⟨c', upd x.dq w d', upd x.call w .none⟩) (step body w ch (see x.c w l)))
  | steal {x : CS σ V M.D} (w v : Nat) {d' : M.D} : x.call w = .none → x.c.pc w = .idle → v ≠ w →
      M.step (x.dq v) (some (.sinv w)) d' →
      Step body M x (.ok { x with dq := upd x.dq v d', call := upd x.call w (.steal v) })
  /-- `steal` returns a task and it is resumed (resume.hpp:65). -/
  | stolen {x : CS σ V M.D} (w v p : Nat) {d' : M.D} : x.call w = .steal v → M.step (x.dq v) (some (.sres w (.got p))) d' →
      Step body M x (Res.map (fun c' => ⟨c', upd x.dq v d', upd x.call w .none⟩)
        (step body w (.steal v) (see2 x.c w (M.own (x.dq w)) v p)))
  /-- `steal` returns nothing. -/
  | missed {x : CS σ V M.D} (w v : Nat) (r : SRet Nat) {d' : M.D} : x.call w = .steal v → (r = .lost ∨ r = .empty) →
      M.step (x.dq v) (some (.sres w r)) d' →
      Step body M x (.ok { x with dq := upd x.dq v d', call := upd x.call w .none })

/-- The states reached by any number of workers under any schedule while root tasks are submitted at any time. No code: reachability. -/
inductive Reach (body : σ → Act σ V) (pend : σ → Nat) (M : QObj) : CS σ V M.D → Prop where
  | start (x : σ) (d : Nat → M.D) : (∀ w, M.init (d w)) → Reach body pend M ⟨State.start x, d, fun _ => .none⟩
  | submit {x : CS σ V M.D} {c : σ} (w : Nat) : Reach body pend M x → pend c = 0 → Reach body pend M { x with c := submit x.c c w }
  | step {x x' : CS σ V M.D} : Reach body pend M x → Step body M x (.ok x') → Reach body pend M x'

end Verif.Compose
