/-
Specification of the work-stealing deque, independent of its implementation: what the owner and the thieves observe.

A history is a list of invocations and responses. The abstract machine below holds a plain list; between its invocation
and its response every call takes effect in one instant (`lin…` steps). A history is linearizable if the abstract
machine can produce it.
-/
namespace Verif.Deque

/-- Calls of the owner: `push(v)`, `pop()`, `size()`. -/
inductive OOp (V : Type) where
  | push (v : V) | pop | size

/-- Answers to the owner: push returned, `push(v)` threw (allocation failure), `pop` returned a value, `pop` found the deque
empty, `size` returned a number. -/
inductive ORet (V : Type) where
  | pushed | threw (v : V) | got (v : V) | none | size (n : Nat)

/-- Answers of `steal()`: `err::none` with a value, `err::lost`, `err::empty`. -/
inductive SRet (V : Type) where
  | got (v : V) | lost | empty

/-- What an observer sees: invocations and responses. -/
inductive Ev (ι V : Type) where
  | oinv (op : OOp V)
  | ores (r : ORet V)
  | sinv (i : ι)
  | sres (i : ι) (r : SRet V)

/-- The owner as seen by the specification: not in a call, in a call that has not taken effect yet, in a call that has
taken effect. -/
inductive AO (V : Type) where
  | idle | pend (op : OOp V) | done (r : ORet V)

/-- A thief; `disturbed` records that a successful `pop` or `steal` of somebody else overlapped with this call. -/
inductive AT (V : Type) where
  | idle | pend (disturbed : Bool) | done (r : SRet V)

structure AState (ι V : Type) where
  q : List V
  owner : AO V
  thief : ι → AT V

variable {ι V : Type} [DecidableEq ι]

/-- Set one thief. -/
def setT {α : Type} (f : ι → α) (i : ι) (x : α) : ι → α := fun j => if j = i then x else f j

/-- Steps of the abstract machine, `none` for the instants at which calls take effect. -/
inductive AStep : AState ι V → Option (Ev ι V) → AState ι V → Prop where
  | oinv {a op} : a.owner = .idle → AStep a (some (.oinv op)) { a with owner := .pend op }
  | ores {a r} : a.owner = .done r → AStep a (some (.ores r)) { a with owner := .idle }
  | sinv {a} {i : ι} : a.thief i = .idle → AStep a (some (.sinv i)) { a with thief := setT a.thief i (.pend false) }
  | sres {a} {i : ι} {r} : a.thief i = .done r → AStep a (some (.sres i r)) { a with thief := setT a.thief i .idle }
  | linPush {a v} : a.owner = .pend (.push v) → AStep a none { a with q := a.q ++ [v], owner := .done .pushed }
  | linThrow {a v} : a.owner = .pend (.push v) → AStep a none { a with owner := .done (.threw v) }
  | linPop {a q v} : a.owner = .pend .pop → a.q = q ++ [v] → AStep a none { a with q := q, owner := .done (.got v) }
  | linPopEmpty {a} : a.owner = .pend .pop → a.q = [] → AStep a none { a with owner := .done .none }
  | linSize {a} : a.owner = .pend .size → AStep a none { a with owner := .done (.size a.q.length) }
  | linSteal {a q v} {i : ι} {d} : a.thief i = .pend d → a.q = v :: q →
      AStep a none { a with q := q, thief := setT a.thief i (.done (.got v)) }
  | linStealEmpty {a} {i : ι} {d} : a.thief i = .pend d → a.q = [] →
      AStep a none { a with thief := setT a.thief i (.done .empty) }
  | linStealLost {a} {i : ι} : a.thief i = .pend true → AStep a none { a with thief := setT a.thief i (.done .lost) }
  /-- Pending thieves may note that the owner has just taken an item and has not returned yet. -/
  | noteO {a v} (S : ι → Bool) : a.owner = .done (.got v) → (∀ i, S i = true → ∃ d, a.thief i = .pend d) →
      AStep a none { a with thief := fun i => if S i = true then .pend true else a.thief i }
  /-- Pending thieves may note that another thief has just taken an item and has not returned yet. -/
  | noteT {a v} (S : ι → Bool) (w : ι) : a.thief w = .done (.got v) → (∀ i, S i = true → ∃ d, a.thief i = .pend d) →
      AStep a none { a with thief := fun i => if S i = true then .pend true else a.thief i }

/-- The empty deque, nobody in a call. -/
def AState.init : AState ι V := { q := [], owner := .idle, thief := fun _ => .idle }

/-- `AHist h a`: the abstract machine can produce the history `h` and be in state `a`. -/
inductive AHist : List (Ev ι V) → AState ι V → Prop where
  | init : AHist [] .init
  | tau {h a a'} : AHist h a → AStep a none a' → AHist h a'
  | vis {h a e a'} : AHist h a → AStep a (some e) a' → AHist (h ++ [e]) a'

/-- The history can be explained by calls that take effect one at a time, each between its invocation and its
response. -/
def Linearizable (h : List (Ev ι V)) : Prop := ∃ a : AState ι V, AHist h a

/-! Counting in histories. -/

/-- Number of `push(v)` calls invoked in `h`, for values satisfying `p`. -/
def pushesInvoked (p : V → Bool) (h : List (Ev ι V)) : Nat :=
  h.countP (fun e => match e with | .oinv (.push v) => p v | _ => false)

/-- Number of values satisfying `p` handed out by `pop` or `steal` in `h`. -/
def handedOut (p : V → Bool) (h : List (Ev ι V)) : Nat :=
  h.countP (fun e => match e with | .ores (.got v) => p v | .sres _ (.got v) => p v | _ => false)

/-- Number of `push(v)` calls that threw in `h`, for values satisfying `p`. -/
def pushesThrew (p : V → Bool) (h : List (Ev ι V)) : Nat :=
  h.countP (fun e => match e with | .ores (.threw v) => p v | _ => false)

/-- Number of calls of the owner that have been invoked / have returned. -/
def ownerInvs (h : List (Ev ι V)) : Nat := h.countP (fun e => match e with | .oinv _ => true | _ => false)
def ownerRets (h : List (Ev ι V)) : Nat := h.countP (fun e => match e with | .ores _ => true | _ => false)

/-- Number of calls of thief `i` that have been invoked / have returned. -/
def thiefInvs (i : ι) (h : List (Ev ι V)) : Nat := h.countP (fun e => match e with | .sinv j => decide (j = i) | _ => false)
def thiefRets (i : ι) (h : List (Ev ι V)) : Nat := h.countP (fun e => match e with | .sres j _ => decide (j = i) | _ => false)

/-- Nobody is inside a call at the end of `h`. -/
def Quiescent (h : List (Ev ι V)) : Prop := ownerInvs h = ownerRets h ∧ ∀ i : ι, thiefInvs i h = thiefRets i h

/-- Everything pushed has been handed out (pushes that threw did not push anything). -/
def AllHandedOut (h : List (Ev ι V)) : Prop :=
  pushesInvoked (fun _ => true) h = handedOut (fun _ => true) h + pushesThrew (fun _ => true) h

end Verif.Deque
