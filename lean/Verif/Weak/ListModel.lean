import Verif.Weak.Mem
import Verif.List.Model

/-!
C47: the submission list under the C++ memory model. Model of include/libfork/core/ext/list.hpp on the view machine of
`Weak/Mem.lean`: any number of threads push nodes, thread 0 consumes (and may push as well).

`m_head` is changed by read-modify-writes only: the compare-exchange of `push` (line 90: release if it succeeds, relaxed if it
fails) and the exchange of `try_pop_all` (line 104: consume, which every compiler implements as acquire). `m_next` and `m_data` are
plain: an access by a thread that does not know the last write is a data race, the outcome `ub`. For a node that is destroyed and whose
address is used again also the consumer's *reads* have to happen before; they are represented by a write to the ghost location
`fin`.

`cell k` is the memory of the client. Threads may also learn of messages by any other synchronisation (`learn`).

Simplification: one thread may have several nodes in `push` at the same time, which only adds executions.
-/
namespace Verif.Weak.WList

/-- list.hpp:118 `m_head`, 73 `m_next`, 72 `m_data`; client memory; ghost. -/
inductive Loc where
  | head | next (n : Nat) | data (n : Nat) | cell (k : Nat) | fin (n : Nat)
  deriving DecidableEq

/-- Where a node's address is in its life, as in Verif.IList, with the thread that pushes. list.hpp:81-116. -/
inductive NodePc where
  | raw
  | fresh (t : Nat)
  | loaded (t stale : Nat)
  | linked (t stale : Nat)
  | inList
  | taken
  | given
  deriving DecidableEq

/-- list.hpp:35-118, memory, and where each node and thread is. -/
structure St where
  mem : Mem Loc
  tv : Nat → TV Loc
  pc : Nat → NodePc
  cons : IList.ConsPc
  /-- A data race has happened. -/
  ub : Bool
  /-- Ghost: the history, as in Verif.IList. -/
  pushed : List Nat
  handed : List Nat
  /-- Ghost: what the pusher of a node knew when its compare-exchange succeeded. -/
  pv : Nat → View Loc

/-- No code: function update. -/
def upd {α : Type} (f : Nat → α) (k : Nat) (v : α) : Nat → α := fun j => if j = k then v else f j

/-- The value of the last message of a location. No code: the memory model. -/
def St.val (s : St) (l : Loc) : Nat := (s.mem.val l (s.mem.last l)).toNat

/-- Thread `t` knows the last message of `l`. No code: the memory model. -/
def St.knows (s : St) (t : Nat) (l : Loc) : Prop := (s.tv t).cur l = s.mem.last l

/-- Thread `t` performs a plain (or relaxed) store. No code: the memory model. -/
def St.write (s : St) (t : Nat) (l : Loc) (v : Nat) : St :=
  { s with mem := s.mem.store (s.tv t) l v false, tv := upd s.tv t ((s.tv t).bump s.mem l) }

/-- Thread `t` reads message `i` of `m_head` with a relaxed load. list.hpp:85,104. -/
def St.peek (s : St) (t i : Nat) : St := { s with tv := upd s.tv t ((s.tv t).read s.mem .head i false) }

/-- list.hpp:90, success: release read-modify-write. -/
def St.cas (s : St) (t n : Nat) : St :=
  { s with mem := s.mem.rmwRel (s.tv t) .head n, tv := upd s.tv t ((s.tv t).rmwRel s.mem .head) }

/-- list.hpp:104: acquire read-modify-write. The message carries the view of the message read (release sequence). -/
def St.xchg (s : St) : St :=
  { s with
    mem := s.mem.append .head 0 (Weak.join ((s.tv 0).msg .head (s.mem.len .head) false) (s.mem.view .head (s.mem.last .head)))
    tv := upd s.tv 0 ((s.tv 0).rmw s.mem .head) }

/-- The node has a data race. No code. -/
def St.race (s : St) : St := { s with ub := true }

/-- list.hpp:40-116. -/
inductive Step : St → St → Prop
  -- client
  | learn (s : St) (t : Nat) (w : View Loc) : s.mem.Valid w →
      Step s { s with tv := upd s.tv t { s.tv t with cur := Weak.join (s.tv t).cur w, acq := Weak.join (s.tv t).acq w } }
  | cell (s : St) (t k v : Nat) : s.knows t (.cell k) → Step s (s.write t (.cell k) v)
  /-- list.hpp:45, 72-73: construct a node on unused memory, by a thread that knows what happened there before. -/
  | construct (s : St) (t n d : Nat) : n ≠ 0 → s.pc n = .raw → s.knows t (.next n) → s.knows t (.data n) →
      Step s { (s.write t (.next n) 0).write t (.data n) d with pc := upd s.pc n (.fresh t) }
  /-- list.hpp:85: `push` loads the head: any message that the thread does not know to be overwritten. -/
  | load (s : St) (t n i : Nat) : s.pc n = .fresh t → CanRead s.mem (s.tv t) .head i →
      Step s { s.peek t i with pc := upd s.pc n (.loaded t (s.mem.val .head i).toNat) }
  /-- list.hpp:88: `push` writes `m_next`. -/
  | link (s : St) (t n h : Nat) : s.pc n = .loaded t h → s.knows t (.next n) →
      Step s { s.write t (.next n) h with pc := upd s.pc n (.linked t h) }
  | linkRace (s : St) (t n h : Nat) : s.pc n = .loaded t h → ¬ s.knows t (.next n) → Step s s.race
  /-- list.hpp:90-92: the compare-exchange succeeds: it reads the last message. -/
  | casOk (s : St) (t n h : Nat) : s.pc n = .linked t h → s.val .head = h →
      Step s { s.cas t n with
        pc := upd s.pc n .inList, pushed := s.pushed ++ [s.val (.data n)], pv := upd s.pv n (s.tv t).cur }
  /-- list.hpp:90: it fails (perhaps spuriously) and loads the head. -/
  | casFail (s : St) (t n h i : Nat) : s.pc n = .linked t h → CanRead s.mem (s.tv t) .head i →
      Step s { s.peek t i with pc := upd s.pc n (.loaded t (s.mem.val .head i).toNat) }
  /-- list.hpp:104-105. -/
  | exchange (s : St) : s.cons = .idle →
      Step s { s.xchg with cons := .rev (s.val .head) 0, pc := fun j => if s.pc j = .inList then .taken else s.pc j }
  /-- list.hpp:107-112: one turn of the loop: read and write of `last->m_next`. -/
  | revStep (s : St) (l f : Nat) : s.cons = .rev l f → l ≠ 0 → s.knows 0 (.next l) →
      Step s { s.write 0 (.next l) f with cons := .rev (s.val (.next l)) l }
  | revRace (s : St) (l f : Nat) : s.cons = .rev l f → l ≠ 0 → ¬ s.knows 0 (.next l) → Step s s.race
  /-- list.hpp:114. -/
  | revDone (s : St) (f : Nat) : s.cons = .rev 0 f → Step s { s with cons := .walk f }
  /-- list.hpp:63. -/
  | readNext (s : St) (r : Nat) : s.cons = .walk r → r ≠ 0 → s.knows 0 (.next r) →
      Step s { s with cons := .call r (s.val (.next r)) }
  | readRace (s : St) (r : Nat) : s.cons = .walk r → r ≠ 0 → ¬ s.knows 0 (.next r) → Step s s.race
  /-- list.hpp:64-65: call the function, which reads `m_data`. -/
  | invoke (s : St) (r nx : Nat) : s.cons = .call r nx → s.knows 0 (.data r) →
      Step s { s.write 0 (.fin r) 0 with
        cons := .walk nx, pc := upd s.pc r .given, handed := s.handed ++ [s.val (.data r)] }
  | invokeRace (s : St) (r nx : Nat) : s.cons = .call r nx → ¬ s.knows 0 (.data r) → Step s s.race
  /-- list.hpp:59. -/
  | walkDone (s : St) : s.cons = .walk 0 → Step s { s with cons := .idle }
  /-- A node that was handed over is destroyed by a thread that knows so: its memory may contain anything. -/
  | destroy (s : St) (t n v d : Nat) : s.pc n = .given → s.knows t (.fin n) → s.knows t (.next n) → s.knows t (.data n) →
      Step s { (s.write t (.next n) v).write t (.data n) d with pc := upd s.pc n .raw }

/-- No code: reachability. -/
inductive Reach : St → Prop
  /-- list.hpp:118: an empty list, no nodes; memory may contain anything. -/
  | init (next data cell : Nat → Nat) :
      Reach { mem := .init fun l => match l with
                | .head => 0 | .next n => next n | .data n => data n | .cell k => cell k | .fin _ => 0
              tv := fun _ => .init, pc := fun _ => .raw, cons := .idle, ub := false, pushed := [], handed := []
              pv := fun _ _ => 0 }
  | step {s t : St} : Reach s → Step s t → Reach t

end Verif.Weak.WList
