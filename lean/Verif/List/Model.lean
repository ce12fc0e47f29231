/-
Model of include/libfork/core/ext/list.hpp: `lf::intrusive_list`, the multi-producer single-consumer list through which
tasks are submitted to a worker.

Memory is the `m_next` field of every node address (0 is the null pointer) and the `m_head` pointer; the steps are the
shared-memory accesses of the pushers and of the one consumer, interleaved arbitrarily (sequentially consistent memory:
the release/consume orders of list.hpp:85-90, 104 are the subject of Weak/ListModel.lean), except that the relaxed load of `m_head` and
the load by a failed compare-exchange may return anything: in particular an outdated head. Nodes may be destroyed by the function given to
`for_each_elem` and their address used again by a new node, as happens to the frames of resumed tasks. `data` is `m_data`.
The lists `pushed` and `handed` record the history: the data of the pushes in the order in which they took effect (their
successful compare-exchange) and the data given to the consumer's function.
-/
namespace Verif.IList

/-- Where a node's address is in its life: raw memory; constructed (list.hpp:45); in `push` after the load of the head or a
failed compare-exchange (list.hpp:85, 90); in `push` after the write of `m_next` (list.hpp:88); linked; taken by the
consumer; handed to the consumer's function. -/
inductive NodePc where
  | raw
  | fresh
  | loaded (stale : Nat)
  | linked (stale : Nat)
  | inList
  | taken
  | given
  deriving DecidableEq

/-- The consumer: outside; in `try_pop_all`'s loop (list.hpp:107-112); in `for_each_elem` at the loop head
(list.hpp:59); in `for_each_elem` having read `next` (list.hpp:63). -/
inductive ConsPc where
  | idle
  | rev (last first : Nat)
  | walk (root : Nat)
  | call (root next : Nat)

/-- list.hpp:35-118: the head, and the state of each node and thread. -/
structure St where
  next : Nat → Nat
  data : Nat → Nat
  head : Nat
  pc : Nat → NodePc
  cons : ConsPc
  pushed : List Nat
  handed : List Nat

/-- No code: function update. -/
def upd {α : Type} (f : Nat → α) (k : Nat) (v : α) : Nat → α := fun j => if j = k then v else f j

/-- list.hpp:81-116. -/
inductive Step : St → St → Prop
  /-- list.hpp:45, 73: construct a node on unused memory; `m_next` starts null. -/
  | construct (s : St) (n d : Nat) : n ≠ 0 → s.pc n = .raw →
      Step s { s with pc := upd s.pc n .fresh, next := upd s.next n 0, data := upd s.data n d }
  /-- list.hpp:85: `push` loads the head. -/
  | load (s : St) (n h : Nat) : s.pc n = .fresh → Step s { s with pc := upd s.pc n (.loaded h) }
  /-- list.hpp:88: `push` writes `m_next`. -/
  | link (s : St) (n h : Nat) : s.pc n = .loaded h →
      Step s { s with next := upd s.next n h, pc := upd s.pc n (.linked h) }
  /-- list.hpp:90-92: the compare-exchange succeeds. -/
  | casOk (s : St) (n h : Nat) : s.pc n = .linked h → s.head = h →
      Step s { s with head := n, pc := upd s.pc n .inList, pushed := s.pushed ++ [s.data n] }
  /-- list.hpp:90: it fails (perhaps spuriously, being the weak one) and loads the head. -/
  | casFail (s : St) (n h h' : Nat) : s.pc n = .linked h →
      Step s { s with pc := upd s.pc n (.loaded h') }
  /-- list.hpp:104-105: `try_pop_all` exchanges the head. All the nodes linked then belong to the consumer (the program
  counters of the nodes are ghost state from here on). -/
  | exchange (s : St) : s.cons = .idle →
      Step s { s with head := 0, cons := .rev s.head 0, pc := fun j => if s.pc j = .inList then .taken else s.pc j }
  /-- list.hpp:107-112: one turn of the loop. -/
  | revStep (s : St) (l f : Nat) : s.cons = .rev l f → l ≠ 0 →
      Step s { s with cons := .rev (s.next l) l, next := upd s.next l f }
  /-- list.hpp:114: return; the result is given to `for_each_elem`. -/
  | revDone (s : St) (f : Nat) : s.cons = .rev 0 f → Step s { s with cons := .walk f }
  /-- list.hpp:59-63: read `next` before the call. -/
  | readNext (s : St) (r : Nat) : s.cons = .walk r → r ≠ 0 → Step s { s with cons := .call r (s.next r) }
  /-- list.hpp:64-65: call the function, then `root = next`. -/
  | invoke (s : St) (r nx : Nat) : s.cons = .call r nx →
      Step s { s with cons := .walk nx, pc := upd s.pc r .given, handed := s.handed ++ [s.data r] }
  /-- list.hpp:59: the end of the list. -/
  | walkDone (s : St) : s.cons = .walk 0 → Step s { s with cons := .idle }
  /-- A node that was handed over is destroyed, at any later time: its memory may contain anything. -/
  | destroy (s : St) (n v d : Nat) : s.pc n = .given →
      Step s { s with pc := upd s.pc n .raw, next := upd s.next n v, data := upd s.data n d }

/-- No code: reachability. -/
inductive Reach : St → Prop
  /-- list.hpp:118: an empty list, no nodes; memory may contain anything. -/
  | init (next data : Nat → Nat) : Reach ⟨next, data, 0, fun _ => .raw, .idle, [], []⟩
  | step {s t : St} : Reach s → Step s t → Reach t

end Verif.IList
