import Verif.Sync.Model
import Verif.Mem.Foot

/-! The rules for tasks that fork `sync_outside`, and the executions. -/
namespace Verif.Sync
open Verif.Exn (Choice)
open Verif.Mem (MS)

variable {σ V E L : Type}

/-- The children a task has to join: none when it was told that the only one has completed. (`answer` stands for the moment before
the task has read the return object.) -/
def pendS (pend : σ → Nat) : St σ → Nat
  | .here y => pend y
  | .answer _ => 1
  | .bad => 0

def dirtyS (dirty : σ → Prop) : St σ → Prop
  | .here y => dirty y
  | .answer _ => False
  | .bad => False

/-- Before a `sync_outside` fork nothing may be pending. If the child has completed nothing is pending after it; else one child. -/
structure OutRule (body : σ → Act σ V E L) (pend : σ → Nat) (dirty : σ → Prop) : Prop where
  before : ∀ y c k x, body y = .out c k x → pend y = 0 ∧ ¬ dirty y ∧ pend c = 0
  yes : ∀ y c k x v, body y = .out c k x → pend (k (some v)) = 0
  no : ∀ y c k x, body y = .out c k x → pend (k none) = 1
  fails : ∀ y c k x e, body y = .out c k x → pend (x e) = 0

/-- The rules of C61 for one state. -/
structure PlainRule (pend : σ → Nat) (dirty : σ → Prop) (y : σ) (a : Mem.Act σ V E L) : Prop where
  ret : ∀ v, a = .ret v → pend y = 0 ∧ ¬ dirty y
  throw : ∀ e, a = .throw e → pend y = 0 ∧ ¬ dirty y
  fork : ∀ c k x, a = .fork c k x → pend c = 0 ∧
    (∀ b, pend (k b) = pend y + 1 ∧ (dirty y → dirty (k b))) ∧ ∀ e, pend (x e) = pend y ∧ (dirty y → dirty (x e))
  call : ∀ c k x, a = .call c k x → pend c = 0 ∧
    (∀ r, pend (k r) = pend y ∧ (r = none ∨ dirty y → dirty (k r))) ∧ ∀ e, pend (x e) = pend y ∧ (dirty y → dirty (x e))
  join : ∀ k x, a = .join k x → (∀ l, pend (k l) = 0) ∧ ∀ e l, pend (x e l) = 0
  switch : ∀ d k x, a = .switch d k x → pend k = pend y ∧ (dirty y → dirty k) ∧ ∀ e, pend (x e) = pend y ∧ (dirty y → dirty (x e))
  load : ∀ l k, a = .load l k → ∀ d, pend (k d) = pend y ∧ (dirty y → dirty (k d))
  store : ∀ l d k, a = .store l d k → pend k = pend y ∧ (dirty y → dirty k)

/-- The rules for a task: those of C61 (Verif.Mem.Disc), and those for `sync_outside`. -/
structure Disc (body : σ → Act σ V E L) (pend : σ → Nat) (dirty : σ → Prop) : Prop where
  plain : ∀ y a, body y = .plain a → PlainRule pend dirty y a
  out : OutRule body pend dirty

/-- One result for each of the children, each as expected. -/
inductive Match : List (V → Prop) → List V → Prop
  | nil : Match [] []
  | cons {Q Qs v vs} : Q v → Match Qs vs → Match (Q :: Qs) (v :: vs)

/-- Tasks that do not throw. `J Qs Q y`: a task in the state `y`, whose pending children will return values as in `Qs`, returns a value in
`Q`. `J` may be any family that is closed under what tasks do. -/
structure Calm (body : σ → Act σ V E L) (may : E → Prop) (J : List (V → Prop) → (V → Prop) → σ → Prop) : Prop where
  ret : ∀ {Qs Q y v}, J Qs Q y → body y = .plain (.ret v) → Q v
  throw : ∀ {Qs Q y e}, J Qs Q y → body y ≠ .plain (.throw e)
  fork : ∀ {Qs Q y c k x}, J Qs Q y → body y = .plain (.fork c k x) →
    (∃ Q', J [] Q' c ∧ ∀ b, J (Qs ++ [Q']) Q (k b)) ∧ ∀ e, may e → J Qs Q (x e)
  call : ∀ {Qs Q y c k x}, J Qs Q y → body y = .plain (.call c k x) →
    (∃ Q', J [] Q' c ∧ ∀ v, Q' v → J Qs Q (k (some v))) ∧ ∀ e, may e → J Qs Q (x e)
  join : ∀ {Qs Q y k x}, J Qs Q y → body y = .plain (.join k x) → ∀ vs, Match Qs vs → J [] Q (k vs)
  switch : ∀ {Qs Q y d k x}, J Qs Q y → body y = .plain (.switch d k x) → J Qs Q k ∧ ∀ e, may e → J Qs Q (x e)
  load : ∀ {Qs Q y l k}, J Qs Q y → body y = .plain (.load l k) → ∀ d, J Qs Q (k d)
  store : ∀ {Qs Q y l d k}, J Qs Q y → body y = .plain (.store l d k) → J Qs Q k
  out : ∀ {Q y c k x}, J [] Q y → body y = .out c k x →
    (∃ Q', J [] Q' c ∧ (∀ v, Q' v → J [] Q (k (some v))) ∧ J [Q'] Q (k none)) ∧ ∀ e, may e → J [] Q (x e)

/-- Tasks that may throw, but whose `sync_outside` forks have children that do not: any set `G` of states that is closed under what tasks
do. -/
structure Free (body : σ → Act σ V E L) (may : E → Prop) (J : List (V → Prop) → (V → Prop) → σ → Prop) (G : σ → Prop) : Prop where
  fork : ∀ {y c k x}, G y → body y = .plain (.fork c k x) → G c ∧ (∀ b, G (k b)) ∧ ∀ e, may e → G (x e)
  call : ∀ {y c k x}, G y → body y = .plain (.call c k x) → G c ∧ (∀ r, G (k r)) ∧ ∀ e, may e → G (x e)
  join : ∀ {y k x}, G y → body y = .plain (.join k x) → (∀ l, G (k l)) ∧ ∀ e l, G (x e l)
  switch : ∀ {y d k x}, G y → body y = .plain (.switch d k x) → G k ∧ ∀ e, may e → G (x e)
  load : ∀ {y l k}, G y → body y = .plain (.load l k) → ∀ d, G (k d)
  store : ∀ {y l d k}, G y → body y = .plain (.store l d k) → G k
  out : ∀ {y c k x}, G y → body y = .out c k x → (∃ Q, J [] Q c) ∧ (∀ o, G (k o)) ∧ ∀ e, may e → G (x e)

/-- Programs in which the children of `sync_outside` forks do not throw. Other tasks may. -/
structure Safe (body : σ → Act σ V E L) (may : E → Prop) (ok : (σ → Prop) → σ → Prop) (J : List (V → Prop) → (V → Prop) → σ → Prop) : Prop where
  calm : Calm body may J
  roots : ∃ G, Free body may J G ∧ ∀ O y, ok O y → G y ∨ ∃ Q, J [] Q y

/-- Such is a program all of whose `sync_outside` forks have children that do not throw. -/
theorem Safe.of {body : σ → Act σ V E L} {may : E → Prop} {ok : (σ → Prop) → σ → Prop} {J : List (V → Prop) → (V → Prop) → σ → Prop} (h : Calm body may J)
    (ho : ∀ {y c k x}, body y = .out c k x → ∃ Q, J [] Q c) : Safe body may ok J :=
  ⟨h, fun _ => True, ⟨fun _ _ => ⟨trivial, fun _ => trivial, fun _ _ => trivial⟩, fun _ _ => ⟨trivial, fun _ => trivial, fun _ _ => trivial⟩,
    fun _ _ => ⟨fun _ => trivial, fun _ _ => trivial⟩, fun _ _ => ⟨trivial, fun _ _ => trivial⟩, fun _ _ _ => trivial, fun _ _ => trivial,
    fun _ h => ⟨ho h, fun _ => trivial, fun _ _ => trivial⟩⟩, fun _ _ _ => .inl trivial⟩

/-- What may be submitted, said about tasks in their first state. -/
def okS (pend : σ → Nat) (ok : (σ → Prop) → σ → Prop) (O : St σ → Prop) (c : St σ) : Prop :=
  ∃ y, c = .here y ∧ pend y = 0 ∧ ok (fun y => O (.here y)) y ∧ ∀ c', O c' → ∃ y', c' = .here y'

/-- The states the runtime reaches in any schedule, started with memory `m`, as long as no task is stolen more than 65534 times between
two joins (C10). -/
inductive Reach [Inhabited E] [DecidableEq L] (body : σ → Act σ V E L) (pend : σ → Nat) (may : E → Prop) (ok : (σ → Prop) → σ → Prop)
    (m : L → E) : MS (St σ) V E L → Prop
  | start (y : σ) : Reach body pend may ok m (MS.start (.here y) m)
  | submit {s : MS (St σ) V E L} {c : σ} (w : Nat) : Reach body pend may ok m s → Runtime.Few s.x.c → pend c = 0 →
      ok (fun y => s.open (.here y)) c → Reach body pend may ok m (Mem.submit s (.here c) w)
  | step {s s' : MS (St σ) V E L} {w : Nat} {ch : Choice E} : Reach body pend may ok m s → Runtime.Few s.x.c → Mem.Allowed may ch →
      step body w ch s = .ok s' → Reach body pend may ok m s'

end Verif.Sync
