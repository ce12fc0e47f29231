import Verif.Runtime.InvSt

/-!
Invariants, fourth part: the entries of a worker's queue are the ancestors of what the worker runs, each forked from the next.
-/
namespace Verif.Runtime
variable {σ V : Type}

def QAdj (base : Nat → Nat) : List (Nat × Nat) → Prop
  | [] => True
  | x :: Q => (∀ y, Q.head? = some y → y.2 = base x.1) ∧ QAdj base Q

def QHead (b : Nat) (Q : List (Nat × Nat)) : Prop := ∀ y, Q.head? = some y → y.2 = b

theorem qadj_nil (base : Nat → Nat) : QAdj base [] := trivial
theorem qhead_nil (b : Nat) : QHead b [] := by intro y h; cases h

theorem qadj_tail {base : Nat → Nat} {x : Nat × Nat} {Q : List (Nat × Nat)} (h : QAdj base (x :: Q)) : QAdj base Q := h.2

theorem qhead_tail {base : Nat → Nat} {p c : Nat} {Q : List (Nat × Nat)} (h : QAdj base ((p, c) :: Q)) : QHead (base p) Q := h.1

theorem qadj_cons {base : Nat → Nat} {p c : Nat} {Q : List (Nat × Nat)} (h : QAdj base Q) (h2 : QHead (base p) Q) :
    QAdj base ((p, c) :: Q) := ⟨h2, h⟩

theorem qhead_cons (p c : Nat) (Q : List (Nat × Nat)) : QHead c ((p, c) :: Q) := by
  intro y h; cases h; rfl

theorem qadj_front {base : Nat → Nat} {x : Nat × Nat} {Q : List (Nat × Nat)} (h : QAdj base (Q ++ [x])) : QAdj base Q := by
  induction Q with
  | nil => trivial
  | cons a Q ih =>
    refine ⟨fun y hy => h.1 y ?_, ih h.2⟩
    cases Q with
    | nil => cases hy
    | cons b Q => simpa using hy

theorem qhead_front {b : Nat} {x : Nat × Nat} {Q : List (Nat × Nat)} (h : QHead b (Q ++ [x])) : QHead b Q := by
  cases Q with
  | nil => exact qhead_nil b
  | cons a Q => intro y hy; exact h y (by simpa using hy)

theorem qadj_congr {base base' : Nat → Nat} {Q : List (Nat × Nat)} (hb : ∀ x ∈ Q, base' x.1 = base x.1) (h : QAdj base Q) :
    QAdj base' Q := by
  induction Q with
  | nil => trivial
  | cons a Q ih =>
    refine ⟨fun y hy => ?_, ih (fun x hx => hb x (List.mem_cons_of_mem _ hx)) h.2⟩
    rw [hb a (List.mem_cons_self ..)]; exact h.1 y hy

structure InvQ (s : State σ V) : Prop where
  bf : ∀ c p, c < s.nf → forkPar (s.link c) = some p → s.base c = c
  br : ∀ c, c < s.nf → s.link c = .root → s.base c = c
  bc : ∀ c p, c < s.nf → s.link c = .call p → s.base c = s.base p
  adj : ∀ w, QAdj s.base (s.q w)
  run : ∀ w g, s.pc w = .run g → QHead (s.base g) (s.q w)
  jl : ∀ w g, s.pc w = .joinLoad g → QHead (s.base g) (s.q w)
  js : ∀ w g, s.pc w = .joinSub g → QHead (s.base g) (s.q w)
  jt : ∀ w g, s.pc w = .joinTake g → QHead (s.base g) (s.q w)
  sto : ∀ w g, s.pc w = .stole g → QHead (s.base g) (s.q w)
  fp : ∀ w p c, s.pc w = .finPop p c → QHead c (s.q w)
  idl : ∀ w, s.pc w = .idle → s.q w = []
  fd : ∀ w p c b, s.pc w = .finDec p c b → s.q w = []
  fw : ∀ w p b, s.pc w = .finWin p b → s.q w = []
  fl : ∀ w b, s.pc w = .finLose b → s.q w = []

end Verif.Runtime
