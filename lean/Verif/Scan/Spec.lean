import Verif.Scan.Tree
import Verif.Scan.Ser
import Verif.Algo.Props

/-! What is said about `scan` on the runtime. -/
namespace Verif.Scan
open Verif.Algo (Loc)
open Verif.Mem (Apart)

/-- A call `scan(beg, beg + len, out, n, bop, proj)`: of elements at `src`, to `dst`; `path` names the call. -/
structure Job (V : Type) where
  pr : V → V
  op : V → V → V
  n : Nat
  path : List Bool
  src : Nat
  dst : Nat
  len : Nat

variable {V : Type}

/-- The preconditions (scan.hpp:514-655): `bop` is associative, chunks are not empty, and the output is either the input range or does not overlap it. -/
structure Job.Fit (j : Job V) : Prop where
  assoc : ∀ a b c, j.op (j.op a b) c = j.op a (j.op b c)
  chunk : 0 < j.n
  range : Algo.SameOrApart j.src j.dst j.len

/-- The output of the one does not overlap the input or output of the other. (And the calls have different names, neither an extension of the other's.) -/
structure Job.Free (j k : Job V) : Prop where
  out : ∀ a, j.dst ≤ a → a < j.dst + j.len → ¬ (k.src ≤ a ∧ a < k.src + k.len) ∧ ¬ (k.dst ≤ a ∧ a < k.dst + k.len)
  inp : ∀ a, k.dst ≤ a → a < k.dst + k.len → ¬ (j.src ≤ a ∧ a < j.src + j.len)
  name : ¬ j.path <:+ k.path ∧ ¬ k.path <:+ j.path

/-- The result in memory: output `i` is the left fold of the first `i + 1` projected inputs, nothing else has changed. -/
def Job.Did (j : Job V) (m m' : Loc → V) : Prop :=
  (∀ i < j.len, m' (.cell (j.dst + i)) = ((Algo.cells m (j.src + 1) i).map j.pr).foldl j.op (j.pr (m (.cell j.src)))) ∧
  ∀ a, ¬ (j.dst ≤ a ∧ a < j.dst + j.len) → m' (.cell a) = m (.cell a)

/-- The coroutine that does it. -/
def Job.code (j : Job V) : C Loc V := scan j.pr j.op j.n j.path j.src j.dst j.len

/-- What may be submitted: a coroutine that fails no assertion (`Ty`), whose children do not conflict with it, and that does not conflict with those
that have been submitted and have not completed. -/
def ok [Inhabited V] (O : T Loc V → Prop) (y : T Loc V) : Prop :=
  ∃ c, y = .go false c ∧ (∃ Q, Ty c [] Q) ∧ NoRace c ∧ ∀ y', O y' → ∃ c', y' = .go false c' ∧ Apart (Acc c) (Wr c) (Acc c') (Wr c')

/-- Only calls of `scan`. -/
def okJob (O : T Loc V → Prop) (y : T Loc V) : Prop :=
  ∃ j : Job V, y = .go false j.code ∧ j.Fit ∧ ∀ y', O y' → ∃ k : Job V, y' = .go false k.code ∧ k.Fit ∧ j.Free k

/-- Coroutines run one after another by one thread. -/
inductive Runs : (Loc → V) → List (C Loc V × Nat) → (Loc → V) → Prop
  | nil {m} : Runs m [] m
  | cons {m m1 m2 c v l} : Ex c [] m v m1 → Runs m1 l m2 → Runs m ((c, v) :: l) m2

/-- Scans one after another. -/
inductive Scans : (Loc → V) → List (Job V) → (Loc → V) → Prop
  | nil {m} : Scans m [] m
  | cons {m m1 m2 j l} : j.Did m m1 → Scans m1 l m2 → Scans m (j :: l) m2

end Verif.Scan
