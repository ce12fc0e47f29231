import Verif.Algo.Lang
import Verif.Mem.Serial

/-!
The parallel algorithms (Verif.Algo.Model: include/libfork/algorithm/{map,for_each,fold}.hpp) as tasks of the runtime (Verif.Mem.Model): each
call of the recursive coroutine is a task that reads and writes memory, forks the task for one half of the range, calls the one for
the other half and joins. A program of Verif.Algo.Lang says what the body of such a coroutine does; here its statements are executed
one access to memory at a time.
-/
namespace Verif.Par
open Verif.Algo (Cmd Out)

/-- What is in memory or thrown: a value, an exception of the user's functions (or of the runtime: a failed allocation), or the mark of a failed
LF_ASSERT, which is thrown like an exception (the theorems say that it never is). No code: the values of map.hpp, for_each.hpp and fold.hpp. -/
inductive Dat (V E : Type) where
  | val (v : V)
  | exn (e : E)
  | ub

/-- A piece of sequential user code that reads and then has a value or throws (fold.hpp:68-74: `bop(lhs, proj(*head))`, map.hpp:61, for_each.hpp:60). -/
inductive Rd (L V E : Type) where
  | done (x : Except E V)
  | ask (l : L) (g : V → Rd L V E)

variable {L V E : Type}

/-- The first of `n + 1` values, and the others. No code. -/
def cons {n : Nat} (v : V) (vs : Fin n → V) : Fin (n + 1) → V := Fin.cases v vs

/-- The code of Verif.Algo.Cmd.atom (map.hpp:61, for_each.hpp:60, fold.hpp:64-74, 101): reads the locations in order. -/
def rdOf : (n : Nat) → (Fin n → L) → ((Fin n → V) → Except E V) → Rd L V E
  | 0, _, f => .done (f (Fin.elim0 ·))
  | n + 1, rs, f => .ask (rs 0) fun v => rdOf n (fun i => rs i.succ) fun vs => f (cons v vs)

/-- The states of a coroutine of an algorithm at its next access or suspension point. `k`: what is to be done afterwards. map.hpp:46-122, fold.hpp:53-152. -/
inductive T (L V E : Type) where
  /-- About to return (the end of map.hpp:45-82 etc.). -/
  | ret
  /-- An exception leaves the body. -/
  | fail (e : Dat V E)
  /-- About to read `l`, later to write what was computed to `w`. -/
  | read (w l : L) (g : V → Rd L V E) (k : List (Cmd L V E))
  /-- About to write `w`. -/
  | write (w : L) (v : V) (k : List (Cmd L V E))
  /-- map.hpp:71, for_each.hpp:69, fold.hpp:89: about to fork. -/
  | par (p q : Cmd L V E) (k : List (Cmd L V E))
  /-- map.hpp:74, for_each.hpp:72, fold.hpp:92: about to call. -/
  | forked (q : Cmd L V E) (k : List (Cmd L V E))
  /-- map.hpp:81, for_each.hpp:79, fold.hpp:99: about to join. -/
  | atJoin (k : List (Cmd L V E))
  /-- map.hpp:76, for_each.hpp:74, fold.hpp:94: the call itself threw `e` (it could not allocate), which was stashed; about to join. -/
  | stash (e : Dat V E)

/-- The state after the reads of `r`, to be written to `w`: the next read, the write, or an exception (map.hpp:61, for_each.hpp:60, fold.hpp:64-74). -/
def rd (w : L) (r : Rd L V E) (k : List (Cmd L V E)) : T L V E :=
  match r with
  | .ask l g => .read w l g k
  | .done (.ok v) => .write w v k
  | .done (.error e) => .fail (.exn e)

/-- Control flow between accesses and suspension points (map.hpp:51-81, for_each.hpp:48-80, fold.hpp:55-105): `co_return`, a failed assertion,
sequencing. `x`: the state in which `k` begins. -/
def go : Cmd L V E → List (Cmd L V E) → T L V E → T L V E
  | .halt .ok, _, x => x
  | .halt (.exn e), _, _ => .fail (.exn e)
  | .halt .ub, _, _ => .fail .ub
  | .atom w n rs f, k, _ => rd w (rdOf n rs f) k
  | .seq p q, k, x => go p (q :: k) (go q k x)
  | .par p q, k, _ => .par p q k

/-- The state in which the statements `k` begin (map.hpp:51-81, for_each.hpp:48-80, fold.hpp:55-105). -/
def next : List (Cmd L V E) → T L V E
  | [] => .ret
  | p :: k => go p k (next k)

/-- A task that runs `p`: `co_await lf::fork(map)(head, mid, ...)` and so on creates it (map.hpp:71-74). -/
def task (p : Cmd L V E) : T L V E := next [p]

/-- What the coroutine does next. The tasks return nothing: what a fold returns is written to the return object (fold.hpp:76, 101;
promise.hpp:340-363), a location. Simplification: if the call itself throws, the exception is stashed, and join throws it or that of the
forked child, whichever was first (frame.hpp:219-234); here it throws the child's if there is one. -/
def body : T L V E → Mem.Act (T L V E) Unit (Dat V E) L
  | .ret => .ret ()
  | .fail e => .throw e
  | .read w l g k => .load l fun
    | .val v => rd w (g v) k
    | _ => .fail .ub
  | .write w v k => .store w (.val v) (next k)
  | .par p q k => .fork (task p) (fun _ => .forked q k) .fail
  | .forked q k => .call (task q) (fun _ => .atJoin k) .stash
  | .atJoin k => .join (fun _ => next k) fun e _ => .fail e
  | .stash e => .join (fun _ => .fail e) fun e' _ => .fail e'

/-- Memory that holds only values. No code. -/
def vals (m : L → V) : L → Dat V E := fun l => .val (m l)

instance : Inhabited (Dat V E) := ⟨.ub⟩

end Verif.Par
