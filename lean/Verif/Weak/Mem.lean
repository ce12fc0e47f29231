/-!
A view machine for C++20 atomics, independent of any program.

Every location has a history of messages in modification order; position 0 is the initial value. A view says, for every
location, the oldest message that may still be read. A message carries the view that an acquiring reader obtains.

* a load reads any message at or after the thread's current view; if it is an acquire load, the view of the message is
  added to the current view at once, otherwise only at the next acquire fence (`acq`);
* a store appends a message; a release store attaches the current view, a relaxed store the view of the last release
  fence (`rel`);
* a successful read-modify-write reads the last message and appends a message that also carries the view of the message
  read (release sequences, C++20 [intro.races]);
* a sequentially consistent fence is an acquire and a release fence and additionally exchanges its view with a global
  view, so that of two such fences the later one (in the total order S) sees everything the earlier one has seen.

This is the usual operational presentation of RC11 (Lahav et al., PLDI 2017; Kang et al., POPL 2017 without promises;
Dang et al., POPL 2020). Limits:

* stores only append at the end of the modification order. That is exact for locations with one writer thread and for
  locations changed only by read-modify-writes; all locations used in this project's models are of one of these kinds.
* no load buffering (a load never reads from a store that comes later in the execution), as in RC11.
* a seq_cst read-modify-write is treated as acquire-release only, which allows more behaviours than C++ does. Theorems
  about all executions are therefore sound; executions shown as counterexamples do not depend on it unless said so.
-/
namespace Verif.Weak

/-- For every location, a position in its history. -/
abbrev View (L : Type) := L → Nat

/-- Pointwise maximum. -/
def join {L : Type} (a b : View L) : View L := fun l => max (a l) (b l)

/-- The view that only knows position `i` of location `l`. -/
def single {L : Type} [DecidableEq L] (l : L) (i : Nat) : View L := fun x => if x = l then i else 0

/-- The shared memory. `len l` messages of `l` exist; `val l i` and `view l i` are the value and the view of message `i`.
`sc` is the global view of the sequentially consistent fences. -/
structure Mem (L : Type) where
  len : L → Nat
  val : L → Nat → Int
  view : L → Nat → View L
  sc : View L

/-- The views of a thread. -/
structure TV (L : Type) where
  cur : View L
  acq : View L
  rel : View L

variable {L : Type} [DecidableEq L]

/-- Memory in which every location has only its initial value. -/
def Mem.init (v : L → Int) : Mem L :=
  { len := fun _ => 1, val := fun l _ => v l, view := fun _ _ _ => 0, sc := fun _ => 0 }

def TV.init : TV L := { cur := fun _ => 0, acq := fun _ => 0, rel := fun _ => 0 }

/-- Message `i` of `l` may be read. -/
def CanRead (m : Mem L) (tv : TV L) (l : L) (i : Nat) : Prop := tv.cur l ≤ i ∧ i < m.len l

/-- The thread after reading message `i` of `l`. -/
def TV.read (tv : TV L) (m : Mem L) (l : L) (i : Nat) (acquire : Bool) : TV L :=
  { cur := fun x => max (max (tv.cur x) (single l i x)) (if acquire then m.view l i x else 0)
    acq := fun x => max (max (tv.acq x) (single l i x)) (m.view l i x)
    rel := tv.rel }

/-- The position at which the next store to `l` goes. -/
def TV.bump (tv : TV L) (m : Mem L) (l : L) : TV L :=
  { cur := fun x => if x = l then m.len l else tv.cur x
    acq := fun x => if x = l then m.len l else tv.acq x
    rel := tv.rel }

/-- Append a message. -/
def Mem.append (m : Mem L) (l : L) (v : Int) (w : View L) : Mem L :=
  { len := fun x => if x = l then m.len l + 1 else m.len x
    val := fun x i => if x = l ∧ i = m.len l then v else m.val x i
    view := fun x i => if x = l ∧ i = m.len l then w else m.view x i
    sc := m.sc }

/-- The view attached to a store of the thread at position `n` of `l`. -/
def TV.msg (tv : TV L) (l : L) (n : Nat) (release : Bool) : View L :=
  fun x => if x = l then n else if release then tv.cur x else tv.rel x

/-- A store. -/
def Mem.store (m : Mem L) (tv : TV L) (l : L) (v : Int) (release : Bool) : Mem L :=
  m.append l v (tv.msg l (m.len l) release)

/-- The last message of `l`. -/
def Mem.last (m : Mem L) (l : L) : Nat := m.len l - 1

/-- The thread after an acquire-release read-modify-write of `l`. -/
def TV.rmw (tv : TV L) (m : Mem L) (l : L) : TV L := (tv.read m l (m.last l) true).bump m l

/-- The memory after an acquire-release read-modify-write of `l` that writes `v`. -/
def Mem.rmw (m : Mem L) (tv : TV L) (l : L) (v : Int) : Mem L :=
  m.append l v ((tv.read m l (m.last l) true).msg l (m.len l) true)

/-- The thread after a release read-modify-write of `l`: it does not acquire. -/
def TV.rmwRel (tv : TV L) (m : Mem L) (l : L) : TV L := (tv.read m l (m.last l) false).bump m l

/-- The memory after a release read-modify-write of `l` that writes `v`: the message carries the view of the thread and the
view of the message read (release sequence). -/
def Mem.rmwRel (m : Mem L) (tv : TV L) (l : L) (v : Int) : Mem L :=
  m.append l v (join (tv.msg l (m.len l) true) (m.view l (m.last l)))

/-- `atomic_thread_fence(acquire)`. -/
def TV.fenceAcq (tv : TV L) : TV L := { tv with cur := join tv.cur tv.acq }

/-- `atomic_thread_fence(release)`. -/
def TV.fenceRel (tv : TV L) : TV L := { tv with rel := tv.cur }

/-- `atomic_thread_fence(seq_cst)`: the view afterwards, of the thread and of the global view. -/
def scView (m : Mem L) (tv : TV L) : View L := join (join tv.cur tv.acq) m.sc

def TV.fenceSC (tv : TV L) (m : Mem L) : TV L := { cur := scView m tv, acq := scView m tv, rel := scView m tv }

def Mem.fenceSC (m : Mem L) (tv : TV L) : Mem L := { m with sc := scView m tv }

/-- A view that refers to existing messages only. -/
def Mem.Valid (m : Mem L) (w : View L) : Prop := ∀ l, w l < m.len l

end Verif.Weak
