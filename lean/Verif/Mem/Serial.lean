import Verif.Mem.Spec

/-! Data races, and what a program computes when it is run by one thread. -/
namespace Verif.Mem
open Verif.Exn (errs oks)

variable {σ V E L : Type}

/-- The serial elision with memory, as Verif.Exn.Ser: every fork is a call, a join does nothing but rethrow. `SerM body may x rs es m r m'`: a
task in the state `x`, whose children since its last join ended with `rs` and since when callees threw `es`, started with memory `m`,
ends with the result `r` and leaves memory `m'`. -/
inductive SerM [DecidableEq L] (body : σ → Act σ V E L) (may : E → Prop) : σ → List (Except E V) → List E → (L → E) → Except E V → (L → E) → Prop
  | ret {x rs es m v} : body x = .ret v → SerM body may x rs es m (.ok v) m
  | throw {x rs es m e} : body x = .throw e → SerM body may x rs es m (.error e) m
  | fork {x c k h rs es m m1 m2 y r} (b : Bool) : body x = .fork c k h → SerM body may c [] [] m y m1 → SerM body may (k b) (rs ++ [y]) es m1 r m2 →
      SerM body may x rs es m r m2
  | call {x c k h rs es m m1 m2 v r} : body x = .call c k h → SerM body may c [] [] m (.ok v) m1 → SerM body may (k (some v)) rs es m1 r m2 →
      SerM body may x rs es m r m2
  | callThrew {x c k h rs es m m1 m2 e r} : body x = .call c k h → SerM body may c [] [] m (.error e) m1 → SerM body may (k none) rs (e :: es) m1 r m2 →
      SerM body may x rs es m r m2
  | join {x k h rs m r m'} : body x = .join k h → errs rs = [] → SerM body may (k (oks rs)) [] [] m r m' → SerM body may x rs [] m r m'
  | rethrow {x k h rs es m e r m'} : body x = .join k h → e ∈ errs rs ++ es →
      SerM body may (h e (rs.map Except.toOption)) [] [] m r m' → SerM body may x rs es m r m'
  | switch {x d k h rs es m r m'} : body x = .switch d k h → SerM body may k rs es m r m' → SerM body may x rs es m r m'
  | forkFails {x c k h rs es m r m'} (e : E) : may e → body x = .fork c k h → SerM body may (h e) rs es m r m' → SerM body may x rs es m r m'
  | callFails {x c k h rs es m r m'} (e : E) : may e → body x = .call c k h → SerM body may (h e) rs es m r m' → SerM body may x rs es m r m'
  | switchFails {x d k h rs es m r m'} (e : E) : may e → body x = .switch d k h → SerM body may (h e) rs es m r m' → SerM body may x rs es m r m'
  | load {x l k rs es m r m'} : body x = .load l k → SerM body may (k (m l)) rs es m r m' → SerM body may x rs es m r m'
  | store {x l d k rs es m r m'} : body x = .store l d k → SerM body may k rs es (put m l d) r m' → SerM body may x rs es m r m'

/-- Tasks run one after another, with these results. -/
inductive Runs [DecidableEq L] (body : σ → Act σ V E L) (may : E → Prop) : (L → E) → List (σ × Except E V) → (L → E) → Prop
  | nil {m} : Runs body may m [] m
  | cons {m m1 m2 c r l} : SerM body may c [] [] m r m1 → Runs body may m1 l m2 → Runs body may m ((c, r) :: l) m2

/-- A task in the state `y` is about to read or write `l`, -/
def Uses (body : σ → Act σ V E L) (y : σ) (l : L) : Prop := (∃ k, body y = .load l k) ∨ ∃ d k, body y = .store l d k

/-- to write it. -/
def Writes (body : σ → Act σ V E L) (y : σ) (l : L) : Prop := ∃ d k, body y = .store l d k

/-- Two tasks are about to access the same location, and one of them to write it. -/
def FJ.Race (body : σ → Act σ V E L) (a : FJ σ V E L) : Prop :=
  ∃ f g l, f ≠ g ∧ a.mode f = .run ∧ a.mode g = .run ∧ Writes body (a.st f) l ∧ Uses body (a.st g) l

/-- Two workers are. -/
def MS.Race (body : σ → Act σ V E L) (s : MS σ V E L) : Prop :=
  ∃ w v f g l, w ≠ v ∧ s.x.c.pc w = .run f ∧ s.x.c.pc v = .run g ∧ Writes body (s.x.c.fr f).st l ∧ Uses body (s.x.c.fr g).st l

/-- No execution of the fork/join machine has a race. -/
def RaceFree [DecidableEq L] (body : σ → Act σ V E L) (may : E → Prop) (ok : (σ → Prop) → σ → Prop) (m : L → E) : Prop :=
  ∀ a, FJ.Reach body may ok m a → ¬ a.Race body

/-- The submitted tasks, oldest first, and their results. -/
def Results (a : FJ σ V E L) (l : List (σ × Except E V)) : Prop :=
  l.map Prod.fst = a.roots.reverse.map Prod.snd ∧ Ended a.mode (a.roots.reverse.map Prod.fst) (l.map Prod.snd)

end Verif.Mem
