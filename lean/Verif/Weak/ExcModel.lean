import Verif.Weak.JoinModel

/-!
C49: exceptions of concurrent children under the C++ memory model. Model of `capture_exception`, `unsafe_rethrow_if_exception` and
`rethrow` (include/libfork/core/impl/frame.hpp:90-112, 222-267) on top of the join of `Weak/JoinModel.lean`: `m_except` is cell 0 and
`m_eptr` is cell 1 of the memory of the program.

* `capture_exception` is called by a child that ends with an exception (promise.hpp:327), and by the task itself: through
  `stash_exception` (first_arg.hpp:177) or by children whose parent was not stolen. Its exchange of `m_except` (frame.hpp:225,
  acq_rel) is taken as relaxed, which only adds executions: the thread learns of the message it reads and of nothing else. If the flag was
  not set, the thread constructs `m_eptr` (frame.hpp:231), a plain write: if it does not know the last write that is a data race.
* `unsafe_rethrow_if_exception` is called when a join resumes (awaitables.hpp:497): a plain read of `m_except` (frame.hpp:260), and if it
  is set a read of `m_eptr`, its destruction and the plain store of `false` (frame.hpp:97-106). All of these need to know the last write,
  otherwise there is a data race.

Exceptions are integers.
-/
namespace Verif.Weak.Exc
open Verif.Weak.Join

/-- frame.hpp:84-88 `m_except`. -/
def exc : Loc := .data 0

/-- frame.hpp:45 `m_eptr`. -/
def eptr : Loc := .data 1

/-- frame.hpp:45-86: the exception of a frame, and where its children are. -/
structure XSt where
  j : St
  /-- The exception with which a child, the task, is about to construct `m_eptr` (frame.hpp:230-232). -/
  cpx : Nat → Option Int
  ppx : Option Int
  /-- The task has completed a join and is about to call `unsafe_rethrow_if_exception`. -/
  rethrow : Bool
  /-- A data race has happened. -/
  ub : Bool
  /-- Ghost: the exceptions captured since the last join, in the order of the exchanges. -/
  cap : List Int
  /-- Ghost: for every completed join the exceptions captured in its scope and what it threw. -/
  joins : List (List Int × Option Int)

/-- A fresh frame: `m_except` is false (frame.hpp:84-88), `m_eptr` is raw memory. -/
def XSt.init (v : Nat → Int) : XSt :=
  { j := .init fun n => if n = 0 then 0 else v n
    cpx := fun _ => none, ppx := none, rethrow := false, ub := false, cap := [], joins := [] }

/-- The current value of a location. No code: the memory model. -/
def valOf (s : St) (l : Loc) : Int := s.mem.val l (s.mem.last l)

/-- A thread knows the last message of a location. No code: the memory model. -/
def knows (s : St) (tv : TV Loc) (l : Loc) : Prop := tv.cur l = s.mem.last l

/-- Child `i` stores `v`, without release. frame.hpp:222-236. -/
def cstore (s : St) (i : Nat) (l : Loc) (v : Int) : St :=
  { s with mem := s.mem.store (s.ctv i) l v false, ctv := upd s.ctv i ((s.ctv i).bump s.mem l) }

/-- The task stores `v`. frame.hpp:259-270. -/
def pstore (s : St) (l : Loc) (v : Int) : St :=
  { s with mem := s.mem.store s.ptv l v false, ptv := s.ptv.bump s.mem l }

/-- frame.hpp:225 by child `i`: relaxed exchange of `m_except`. -/
def cexch (s : St) (i : Nat) : St :=
  cstore { s with ctv := upd s.ctv i (learn (s.ctv i) (single exc (s.mem.last exc))) } i exc 1

/-- frame.hpp:225 by the task. -/
def pexch (s : St) : St := pstore { s with ptv := learn s.ptv (single exc (s.mem.last exc)) } exc 1

/-- frame.hpp:222-285, awaitables.hpp:425-508, promise.hpp:73-130. -/
inductive XStep : XSt → XSt → Prop where
  /-- A step of the join protocol or of the program. It does not write to `m_except` and `m_eptr`; threads that are inside
  `capture_exception` or `unsafe_rethrow_if_exception` are not concerned. After a join comes the check. -/
  | prog {s : XSt} {j' : St} : Step s.j j' →
      j'.mem.len exc = s.j.mem.len exc → j'.mem.len eptr = s.j.mem.len eptr →
      (∀ i, s.cpx i ≠ none → j'.cpc i = s.j.cpc i ∧ j'.ctv i = s.j.ctv i) →
      (s.ppx ≠ none ∨ s.rethrow = true → j'.ppc = s.j.ppc ∧ j'.ptv = s.j.ptv ∧ j'.steals = s.j.steals) →
      XStep s { s with j := j', rethrow := s.rethrow || (s.j.ppc == .ready && j'.ppc == .body) }
  /-- frame.hpp:225-230 in a child. -/
  | ccap {s} (i : Nat) (e : Int) : s.j.cpc i = .run → s.cpx i = none →
      XStep s { s with
        j := cexch s.j i, cpx := upd s.cpx i (if valOf s.j exc = 0 then some e else none), cap := s.cap ++ [e] }
  /-- frame.hpp:231. -/
  | ccons {s} (i : Nat) (e : Int) : s.cpx i = some e → knows s.j (s.j.ctv i) eptr →
      XStep s { s with j := cstore s.j i eptr e, cpx := upd s.cpx i none }
  | cconsRace {s} (i : Nat) (e : Int) : s.cpx i = some e → ¬ knows s.j (s.j.ctv i) eptr → XStep s { s with ub := true }
  /-- frame.hpp:225-230 in the task. -/
  | pcap {s} (e : Int) : s.j.ppc = .body → s.rethrow = false → s.ppx = none →
      XStep s { s with j := pexch s.j, ppx := if valOf s.j exc = 0 then some e else none, cap := s.cap ++ [e] }
  | pcons {s} (e : Int) : s.ppx = some e → knows s.j s.j.ptv eptr →
      XStep s { s with j := pstore s.j eptr e, ppx := none }
  | pconsRace {s} (e : Int) : s.ppx = some e → ¬ knows s.j s.j.ptv eptr → XStep s { s with ub := true }
  /-- frame.hpp:258-267: nothing to throw. -/
  | quiet {s} : s.rethrow = true → knows s.j s.j.ptv exc → valOf s.j exc = 0 →
      XStep s { s with rethrow := false, cap := [], joins := s.joins ++ [(s.cap, none)] }
  /-- frame.hpp:93-109: `m_eptr` is moved from and destroyed, the flag is cleared. -/
  | throw {s} : s.rethrow = true → knows s.j s.j.ptv exc → valOf s.j exc ≠ 0 → knows s.j s.j.ptv eptr →
      XStep s { s with
        j := pstore (pstore s.j eptr 0) exc 0
        rethrow := false, cap := [], joins := s.joins ++ [(s.cap, some (valOf s.j eptr))] }
  | flagRace {s} : s.rethrow = true → ¬ knows s.j s.j.ptv exc → XStep s { s with ub := true }
  | eptrRace {s} : s.rethrow = true → valOf s.j exc ≠ 0 → ¬ knows s.j s.j.ptv eptr → XStep s { s with ub := true }

/-- No code: reachability. -/
inductive XReach : XSt → Prop where
  | init (v : Nat → Int) : XReach (.init v)
  | step {s s'} : XReach s → XStep s s' → XReach s'

end Verif.Weak.Exc
