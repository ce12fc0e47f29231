/-
Model of include/libfork/schedule/ext/numa.hpp (`distance_matrix`, `distribute`, the numa numbering of `split`) and of
include/libfork/schedule/impl/numa_context.hpp (`init_worker_and_bind`'s victim tables, `try_steal`).

Not modelled: hwloc itself (its answers are parameters: the depth of the object covering each handle, the depth of the common
ancestor of two of them, the object index with memory), binding, the weights of the discrete distribution (only that
it draws an index smaller than the number of weights, for which std::discrete_distribution asks that some weight be
positive).
-/
namespace Verif.Numa

/-- numa.hpp:403-429, one entry of the distance matrix: `depth k` is the depth of the object covering handle `k`,
`anc i j` the depth of the common ancestor. -/
def distance (depth : Nat → Int) (anc : Nat → Nat → Int) (i j : Nat) : Int :=
  max (depth i - anc i j) (depth j - anc i j)

/-- `std::set<int>::insert` on the ascending sequence of the elements. numa.hpp:465-469. -/
def setInsert (d : Int) : List Int → List Int
  | [] => [d]
  | x :: xs => if d < x then d :: x :: xs else if d = x then x :: xs else x :: setInsert d xs

/-- `std::distance(set.begin(), set.find(d))`: the position of `d`, the size if absent. numa.hpp:477. -/
def setPos (d : Int) : List Int → Nat
  | [] => 0
  | x :: xs => if x = d then 0 else setPos d xs + 1

/-- `vec[k].push_back(a)`; out of range is undefined in C++ and leaves the table unchanged here, which
`distribute_complete` would expose. numa.hpp:475-479. -/
def pushAt {α : Type} (k : Nat) (a : α) (t : List (List α)) : List (List α) :=
  t.modify k (· ++ [a])

/-- numa.hpp:463-469: the set of distances from `i` to the others, in a pool of `n`. -/
def uniques (dist : Nat → Nat → Int) (n i : Nat) : List Int :=
  (List.range n).foldl (fun u j => if i ≠ j then setInsert (dist i j) u else u) []

/-- numa.hpp:471-481: the neighbour lists of node `i`. -/
def neighbors {α : Type} (dist : Nat → Nat → Int) (data : Array α) (i : Nat) : List (List α) :=
  let u := uniques dist data.size i
  (List.range data.size).foldl (fun t j =>
    match data[j]? with
    | none => t
    | some x => if i = j then pushAt 0 x t else pushAt (1 + setPos (dist i j) u) x t)
    (List.replicate (1 + u.length) [])

/-- numa.hpp:445-485 `distribute` (hwloc): the neighbour lists of every node. -/
def distribute {α : Type} (dist : Nat → Nat → Int) (data : Array α) : List (List (List α)) :=
  (List.range data.size).map (neighbors dist data)

/-- numa.hpp:504-533 `distribute` without hwloc; `neigh != data[i]` compares pointers. -/
def distributeFlat {α : Type} [DecidableEq α] (data : List α) : List (List (List α)) :=
  data.map fun d =>
    if data.length > 1 then [[d], data.filter (· ≠ d)] else [[d]]

/-- numa.hpp:340-362: the numa numbers given to the handles; `gp` is the sequence of hwloc's object indices. The map is kept
as the list of keys in order of insertion, the value of a key being its position: numa.hpp:354 assigns the size the map
had before the insertion (C++17 evaluates the right operand first). -/
def numaNumbers (gp : List Nat) : List Nat :=
  (gp.foldl (fun (st : List Nat × List Nat) g =>
    let keys := if g ∈ st.1 then st.1 else st.1 ++ [g]
    (keys, st.2 ++ [keys.idxOf g])) ([], [])).2

/-- numa_context.hpp:124-128: first-order neighbours. -/
def close {α : Type} (nb : List (List α)) : List α := nb.getD 1 []

/-- numa_context.hpp:131-141: all neighbours, skipping the first list. -/
def neigh {α : Type} (nb : List (List α)) : List α := (nb.drop 1).flatten

/-- numa_context.hpp:46, 50. -/
def kMinStealAttempts : Nat := 1024
/-- numa_context.hpp:50. -/
def kStealAttemptsPerTarget : Nat := 32

/-- A chain of steal attempts: `steal k v` is the outcome of the `k`-th attempt of this call, on victim `v` (`none` for
`err::lost` and `err::empty`). Returns the victims tried, in order, and the task (numa_context.hpp:187-206). -/
def attempt {α τ : Type} (steal : Nat → α → Option τ) (k : Nat) : List α → List α × Option τ
  | [] => ([], none)
  | v :: vs =>
    match steal k v with
    | some t => ([v], some t)
    | none => let r := attempt steal (k + 1) vs; (v :: r.1, r.2)

/-- numa_context.hpp:133-140: the weights of the distribution victims are drawn from, as exact rationals instead of
doubles; one entry per element of `m_neigh`. -/
def weights {α : Type} (nb : List (List α)) : List Rat :=
  ((nb.drop 1).zipIdx 1).flatMap fun g => g.1.map fun _ => 1 / ((g.1.length : Rat) * g.2 * g.2)

/-- numa_context.hpp:179-227 `try_steal`: `shuffle` is the outcome of `std::ranges::shuffle`, `pick i` the `i`-th number drawn
from `m_dist`. -/
def trySteal {α τ : Type} (nb : List (List α)) (shuffle : List α → List α) (pick : Nat → Nat)
    (steal : Nat → α → Option τ) : List α × Option τ :=
  if (neigh nb).isEmpty then ([], none)
  else
    let attempts := kMinStealAttempts + kStealAttemptsPerTarget * (neigh nb).length
    attempt steal 0 (shuffle (close nb) ++ (List.range attempts).filterMap fun i => (neigh nb)[pick i]?)

end Verif.Numa
