/-
A small language in which the parallel algorithms of include/libfork/algorithm/*.hpp are written, with an
interleaving small-step semantics and the serial (run the forked child first, to completion) big-step semantics.

* `atom w k rs f` is a piece of sequential user code: read the `k` locations `rs`, apply `f` (which may throw), write
  the result to `w`.  The reads and the write happen in one step; because the theorem below only applies to programs
  whose parallel branches touch disjoint locations, a finer interleaving of the accesses could not be observed.
* `par p q` is the idiom used by all the algorithms (for example algorithm/for_each.hpp:67-79)
  `co_await fork(p); try { co_await call(q); } catch (...) { self.stash_exception(); } co_await join;`
  both branches run to completion, in any interleaving; `join` rethrows one of the stashed exceptions.
* `seq p q` is sequencing; an exception leaves the sequence.
* `halt .ub` is the outcome of a failed LF_ASSERT.
-/
namespace Verif.Algo

/-- How a piece of code ends: normally, with an exception, or with undefined behaviour (failed LF_ASSERT).
No code: an exception is how a coroutine ends in promise.hpp:318-330, undefined is a failed LF_ASSERT (core/macro.hpp). -/
inductive Out (E : Type) where
  | ok
  | exn (e : E)
  | ub
deriving DecidableEq, Repr

/-- The control structure of the algorithms: an application of a user function (map.hpp:60-62), `co_await` fork, call and join (map.hpp:66-81). -/
inductive Cmd (L V E : Type) where
  | halt (o : Out E)
  | atom (w : L) (k : Nat) (rs : Fin k → L) (f : (Fin k → V) → Except E V)
  | seq (p q : Cmd L V E)
  | par (p q : Cmd L V E)

/-- `*w = f(*a)`. map.hpp:60-62. -/
abbrev Cmd.atom1 {L V E : Type} (w a : L) (f : V → Except E V) : Cmd L V E :=
  .atom w 1 (fun _ => a) (fun v => f (v 0))

/-- `*w = f(*a, *b)`. fold.hpp:64-104. -/
abbrev Cmd.atom2 {L V E : Type} (w a b : L) (f : V → V → Except E V) : Cmd L V E :=
  .atom w 2 (fun i => if i = 0 then a else b) (fun v => f (v 0) (v 1))

/-- What `join` does with the outcomes of the two branches (frame.hpp:150-214: the first captured exception wins, the
order of the captures depends on the schedule, so either exception can be the one rethrown). -/
inductive JoinOut {E : Type} : Out E → Out E → Out E → Prop where
  | ok : JoinOut .ok .ok .ok
  | left (e) : JoinOut (.exn e) .ok (.exn e)
  | right (e) : JoinOut .ok (.exn e) (.exn e)
  | both1 (e1 e2) : JoinOut (.exn e1) (.exn e2) (.exn e1)
  | both2 (e1 e2) : JoinOut (.exn e1) (.exn e2) (.exn e2)
  | ubL (o) : JoinOut .ub o .ub
  | ubR (o) : JoinOut o .ub .ub

section
variable {L V E : Type} [DecidableEq L]

/-- No code: memory. -/
abbrev Mem (L V : Type) := L → V

/-- Store `v` at `w`. No code. -/
def upd (m : Mem L V) (w : L) (v : V) : Mem L V := fun l => if l = w then v else m l

/-- Interleaving semantics. Fork, call and join: core/impl/awaitables.hpp:235-508, abstractly; what they do exactly is Verif.Par (C63). -/
inductive Step : Cmd L V E → Mem L V → Cmd L V E → Mem L V → Prop where
  | atomOk {w k rs f m v} : f (fun i => m (rs i)) = .ok v → Step (.atom w k rs f) m (.halt .ok) (upd m w v)
  | atomErr {w k rs f m e} : f (fun i => m (rs i)) = .error e → Step (.atom w k rs f) m (.halt (.exn e)) m
  | seqStep {p q m p' m'} : Step p m p' m' → Step (.seq p q) m (.seq p' q) m'
  | seqOk {q m} : Step (.seq (.halt .ok) q) m q m
  | seqAbort {o q m} : o ≠ .ok → Step (.seq (.halt o) q) m (.halt o) m
  | parL {p q m p' m'} : Step p m p' m' → Step (.par p q) m (.par p' q) m'
  | parR {p q m q' m'} : Step q m q' m' → Step (.par p q) m (.par p q') m'
  | parJoin {o1 o2 o m} : JoinOut o1 o2 o → Step (.par (.halt o1) (.halt o2)) m (.halt o) m

/-- Finitely many steps. No code. -/
inductive Steps : Cmd L V E → Mem L V → Cmd L V E → Mem L V → Prop where
  | refl {p m} : Steps p m p m
  | head {p m p' m' p'' m''} : Step p m p' m' → Steps p' m' p'' m'' → Steps p m p'' m''

/-- Serial semantics: the forked branch runs to completion before the continuation. No code: the specification. -/
inductive Run : Cmd L V E → Mem L V → Out E → Mem L V → Prop where
  | halt {o m} : Run (.halt o) m o m
  | atomOk {w k rs f m v} : f (fun i => m (rs i)) = .ok v → Run (.atom w k rs f) m .ok (upd m w v)
  | atomErr {w k rs f m e} : f (fun i => m (rs i)) = .error e → Run (.atom w k rs f) m (.exn e) m
  | seqOk {p q m m1 o m2} : Run p m .ok m1 → Run q m1 o m2 → Run (.seq p q) m o m2
  | seqAbort {p q m o m1} : Run p m o m1 → o ≠ .ok → Run (.seq p q) m o m1
  | par {p q m o1 m1 o2 m2 o} : Run p m o1 m1 → Run q m1 o2 m2 → JoinOut o1 o2 o → Run (.par p q) m o m2

/-- Locations a command may read. No code: the specification. -/
def Reads : Cmd L V E → L → Prop
  | .halt _, _ => False
  | .atom _ _ rs _, l => ∃ i, rs i = l
  | .seq p q, l => Reads p l ∨ Reads q l
  | .par p q, l => Reads p l ∨ Reads q l

/-- Locations a command may write. No code: the specification. -/
def Writes : Cmd L V E → L → Prop
  | .halt _, _ => False
  | .atom w _ _ _, l => l = w
  | .seq p q, l => Writes p l ∨ Writes q l
  | .par p q, l => Writes p l ∨ Writes q l

/-- No location written by `p` is read or written by `q`, and conversely. No code: the specification. -/
def NoConflict (p q : Cmd L V E) : Prop :=
  (∀ l, Writes p l → ¬ Reads q l ∧ ¬ Writes q l) ∧ (∀ l, Writes q l → ¬ Reads p l)

/-- Every pair of parallel branches is free of conflicts: the program has no data race. No code: the specification. -/
def RaceFree : Cmd L V E → Prop
  | .halt _ => True
  | .atom _ _ _ _ => True
  | .seq p q => RaceFree p ∧ RaceFree q
  | .par p q => NoConflict p q ∧ RaceFree p ∧ RaceFree q

/-- `Sub q p`: `q` is a sub-term of `p`. No code: the specification. -/
inductive Sub : Cmd L V E → Cmd L V E → Prop where
  | refl {p} : Sub p p
  | seqL {r p q} : Sub r p → Sub r (.seq p q)
  | seqR {r p q} : Sub r q → Sub r (.seq p q)
  | parL {r p q} : Sub r p → Sub r (.par p q)
  | parR {r p q} : Sub r q → Sub r (.par p q)

end
end Verif.Algo
