/-
Model of include/libfork/core/eventually.hpp: `basic_eventually<T, Exception>`, for all five kinds of class the template
generates (T void / reference / object, with and without exception storage; void without is ill-formed).

`Out` is the outcome of a member function: a failed LF_ASSERT and an access to an inactive union member are outcomes of
their own. Values have an abstract type `V`; for a reference type they stand for the identity of the referee.
Not modelled: constness and value category of the accessors other than "moves from" / "does not move from".
-/
namespace Verif.Core.Eventually

/-- eventually.hpp:91-93. -/
inductive Kind where
  | void | ref | val
deriving DecidableEq

/-- The template parameters: what `T` is and whether `Exception` is true. eventually.hpp:78-80. -/
structure Cfg where
  kind : Kind
  exc : Bool

/-- eventually.hpp:78-79 `requires impl::non_void<T> || Exception`. -/
def Cfg.wf (c : Cfg) : Prop := c.kind ≠ .void ∨ c.exc = true

/-- eventually.hpp:98 `implicit_state`. -/
def Cfg.implicit (c : Cfg) : Bool := (c.kind == .ref && !c.exc) || (c.kind == .void && c.exc)

/-- eventually.hpp:100-113 `enum class state`. -/
inductive Flag where
  | empty | value | exception
deriving DecidableEq

/-- eventually.hpp:115-119, the union: its active member. -/
inductive Cell (V E : Type) where
  | none                    -- m_empty
  | obj (v : V)             -- m_value, an object
  | ptr (p : Option V)      -- m_value, a pointer (reference types)
  | eptr (e : Option E)     -- m_exception

/-- eventually.hpp:80-130: the members. -/
structure Obj (V E : Type) where
  cell : Cell V E
  flag : Flag               -- m_flag; not present (and never looked at) if `implicit`
  ctor : Nat                -- constructor calls of T (ghost)
  dtor : Nat                -- destructor calls of T (ghost)
  leak : Bool               -- an object was overwritten without being destroyed (ghost)

/-- No code: the outcome of a call. -/
inductive Out (α : Type) where
  | ok (a : α)
  | assertFailed
  | ub

/-- What a call returns. eventually.hpp:130-463. -/
inductive Obs (V E : Type) where
  | unit | bool (b : Bool) | val (v : V) | exc (e : Option E) | threw

/-- The member functions. `assign v throws`: `operator=(U&&)`, where the construction of `T` may throw. `takeValue` and
`takeExc` are the rvalue-qualified accessors, followed by the move their callers perform. eventually.hpp:130-463. -/
inductive Op (V E : Type) where
  | isEmpty | hasValue | hasExc
  | assign (v : V) (throws : Bool)
  | stash (e : E)
  | read | takeValue | readExc | takeExc

variable {V E : Type}

/-- The `requires` clauses (eventually.hpp:133, 232, 245, 267, 283, 302, 344-366, 378-434). References do not throw when
bound (line 284 `noexcept`). -/
def Op.avail (c : Cfg) : Op V E → Prop
  | .isEmpty => True
  | .hasValue | .read | .takeValue => c.kind ≠ .void
  | .assign _ t => c.kind = .val ∨ (c.kind = .ref ∧ t = false)
  | .hasExc | .stash _ | .readExc | .takeExc => c.exc = true

/-- eventually.hpp:157-174 the three default constructors. -/
def Obj.new (c : Cfg) : Obj V E :=
  { cell := if c.implicit then (if c.exc then .eptr none else .ptr none) else .none
    flag := .empty, ctor := 0, dtor := 0, leak := false }

/-- eventually.hpp:216-226 `empty()`. -/
def Obj.empty (c : Cfg) (o : Obj V E) : Out Bool :=
  if c.implicit then
    match o.cell, c.exc with
    | .eptr e, true => .ok e.isNone
    | .ptr p, false => .ok p.isNone
    | _, _ => .ub
  else .ok (o.flag == .empty)

/-- eventually.hpp:231-239 `has_value()`. -/
def Obj.hasValue (c : Cfg) (o : Obj V E) : Out Bool :=
  if c.implicit then
    match o.cell with
    | .ptr p => .ok p.isSome
    | _ => .ub
  else .ok (o.flag == .value)

/-- eventually.hpp:244-258 `has_exception()` (exceptions enabled). -/
def Obj.hasExc (c : Cfg) (o : Obj V E) : Out Bool :=
  if c.implicit then
    match o.cell with
    | .eptr e => .ok e.isSome
    | _ => .ub
  else .ok (o.flag == .exception)

/-- Does overwriting this member lose an object that needed destruction?. No code: a leak. -/
def Cell.live : Cell V E → Bool
  | .obj _ => true
  | .eptr (some _) => true
  | _ => false

/-- `LF_ASSERT(b)` before the rest of the function. core/macro.hpp. -/
def guardOut {α : Type} (b : Out Bool) (k : Out α) : Out α :=
  match b with
  | .ok true => k
  | .ok false => .assertFailed
  | .assertFailed => .assertFailed
  | .ub => .ub

/-- One member function call. eventually.hpp:130-463. -/
def step (moved : V → V) (c : Cfg) (o : Obj V E) : Op V E → Out (Obj V E × Obs V E)
  | .isEmpty => match o.empty c with | .ok b => .ok (o, .bool b) | .assertFailed => .assertFailed | .ub => .ub
  | .hasValue => match o.hasValue c with | .ok b => .ok (o, .bool b) | .assertFailed => .assertFailed | .ub => .ub
  | .hasExc => match o.hasExc c with | .ok b => .ok (o, .bool b) | .assertFailed => .assertFailed | .ub => .ub
  -- eventually.hpp:266-273 (objects) and 282-294 (references)
  | .assign v throws =>
    guardOut (o.empty c) <|
      if c.kind = .ref then
        .ok ({ o with cell := .ptr (some v), flag := if c.implicit then o.flag else .value }, .unit)
      else if throws then .ok (o, .threw)
      else .ok ({ o with cell := .obj v, flag := .value, ctor := o.ctor + 1, leak := o.leak || o.cell.live }, .unit)
  -- eventually.hpp:132-143
  | .stash e =>
    guardOut (o.empty c) <|
      .ok ({ o with cell := .eptr (some e), flag := if c.implicit then o.flag else .exception,
                    leak := o.leak || o.cell.live }, .unit)
  -- eventually.hpp:343-446
  | .read =>
    guardOut (o.hasValue c) <|
      match o.cell with
      | .obj v => if c.kind = .val then .ok (o, .val v) else .ub
      | .ptr (some v) => if c.kind = .ref then .ok (o, .val v) else .ub
      | _ => .ub
  | .takeValue =>
    guardOut (o.hasValue c) <|
      match o.cell with
      | .obj v => if c.kind = .val then .ok ({ o with cell := .obj (moved v) }, .val v) else .ub
      | .ptr (some v) => if c.kind = .ref then .ok (o, .val v) else .ub
      | _ => .ub
  -- eventually.hpp:301-336
  | .readExc =>
    guardOut (o.hasExc c) <|
      match o.cell with
      | .eptr e => .ok (o, .exc e)
      | _ => .ub
  | .takeExc =>
    guardOut (o.hasExc c) <|
      match o.cell with
      | .eptr e => .ok ({ o with cell := .eptr none }, .exc e)
      | _ => .ub

/-- eventually.hpp:181-211 the destructor. -/
def destroy (c : Cfg) (o : Obj V E) : Out (Obj V E) :=
  if c.implicit then
    if c.exc then
      match o.cell with
      | .eptr _ => .ok { o with cell := .none }
      | _ => .ub
    else .ok o
  else
    match o.flag with
    | .empty => .ok o
    | .value =>
      match c.kind, o.cell with
      | .val, .obj _ => .ok { o with cell := .none, dtor := o.dtor + 1 }
      | .ref, .ptr _ => .ok { o with cell := .none }
      | _, _ => .ub
    | .exception =>
      match c.exc, o.cell with
      | true, .eptr _ => .ok { o with cell := .none }
      | _, _ => .ub

/-- A sequence of member function calls on a fresh object, and what they return. No code. -/
def run (moved : V → V) (c : Cfg) : Obj V E → List (Op V E) → Out (Obj V E × List (Obs V E))
  | o, [] => .ok (o, [])
  | o, op :: ops =>
    match step moved c o op with
    | .assertFailed => .assertFailed
    | .ub => .ub
    | .ok (o', r) =>
      match run moved c o' ops with
      | .assertFailed => .assertFailed
      | .ub => .ub
      | .ok (o'', rs) => .ok (o'', r :: rs)

/-! ### The specification: exactly one of empty, a value, an exception. -/

/-- No code: the specification. -/
inductive Abs (V E : Type) where
  | empty
  | value (v : V)
  | exc (e : E)
  | excMoved              -- the exception has been moved out by the user

/-- The documented precondition of each call. No code: the specification. -/
def Abs.pre : Abs V E → Op V E → Prop
  | _, .isEmpty | _, .hasValue | _, .hasExc => True
  | a, .assign _ _ | a, .stash _ => a = .empty
  | a, .read | a, .takeValue => ∃ v, a = .value v
  | a, .readExc | a, .takeExc => (∃ e, a = .exc e) ∨ a = .excMoved

/-- The effect of each call. An `excMoved` object of type `void` is empty (line 98: the state is the pointer itself). No code: the specification. -/
def Abs.next (moved : V → V) (c : Cfg) : Abs V E → Op V E → Abs V E
  | _, .assign v false => .value v
  | _, .stash e => .exc e
  | .value v, .takeValue => if c.kind = .val then .value (moved v) else .value v
  | _, .takeExc => if c.kind = .void then .empty else .excMoved
  | a, _ => a

/-- The answer of each call. No code: the specification. -/
def Abs.ans : Abs V E → Op V E → Obs V E
  | .empty, .isEmpty => .bool true
  | _, .isEmpty => .bool false
  | .value _, .hasValue => .bool true
  | _, .hasValue => .bool false
  | .exc _, .hasExc => .bool true
  | .excMoved, .hasExc => .bool true
  | _, .hasExc => .bool false
  | _, .assign _ true => .threw
  | .value v, .read => .val v
  | .value v, .takeValue => .val v
  | .exc e, .readExc => .exc (some e)
  | .exc e, .takeExc => .exc (some e)
  | .excMoved, .readExc => .exc none
  | .excMoved, .takeExc => .exc none
  | _, _ => .unit

/-- All calls of a list are available and respect their precondition. No code: the specification. -/
def Abs.ok (moved : V → V) (c : Cfg) : Abs V E → List (Op V E) → Prop
  | _, [] => True
  | a, op :: ops => op.avail c ∧ a.pre op ∧ Abs.ok moved c (a.next moved c op) ops

/-- No code: the specification. -/
def Abs.answers (moved : V → V) (c : Cfg) : Abs V E → List (Op V E) → List (Obs V E)
  | _, [] => []
  | a, op :: ops => a.ans op :: Abs.answers moved c (a.next moved c op) ops

/-- No code: the specification. -/
def Abs.final (moved : V → V) (c : Cfg) : Abs V E → List (Op V E) → Abs V E
  | a, [] => a
  | a, op :: ops => Abs.final moved c (a.next moved c op) ops

/-! ### Refinement. -/

/-- Representation of the abstract state. No code: the refinement relation. -/
def Rep (c : Cfg) (o : Obj V E) (a : Abs V E) : Prop :=
  o.leak = false ∧
  match a with
  | .empty => o.ctor = o.dtor ∧
      if c.implicit then (if c.exc then o.cell = .eptr none else o.cell = .ptr none)
      else o.flag = .empty ∧ o.cell = .none
  | .value v =>
      match c.kind with
      | .void => False
      | .ref => o.ctor = o.dtor ∧ o.cell = .ptr (some v) ∧ (c.implicit = false → o.flag = .value)
      | .val => o.ctor = o.dtor + 1 ∧ o.cell = .obj v ∧ o.flag = .value
  | .exc e => c.exc = true ∧ o.ctor = o.dtor ∧ o.cell = .eptr (some e) ∧ (c.implicit = false → o.flag = .exception)
  | .excMoved => c.exc = true ∧ c.kind ≠ .void ∧ o.ctor = o.dtor ∧ o.cell = .eptr none ∧ o.flag = .exception

theorem rep_new (c : Cfg) : Rep c (Obj.new c : Obj V E) .empty := by
  obtain ⟨k, x⟩ := c
  cases k <;> cases x <;> simp [Rep, Obj.new, Cfg.implicit]

theorem rep_step (moved : V → V) {c : Cfg} (hc : c.wf) {o : Obj V E} {a : Abs V E} (h : Rep c o a) (op : Op V E)
    (hav : op.avail c) (hpre : a.pre op) :
    ∃ o', step moved c o op = .ok (o', a.ans op) ∧ Rep c o' (a.next moved c op) := by
  obtain ⟨k, x⟩ := c
  obtain ⟨cell, flag, ct, dt, lk⟩ := o
  cases op <;> cases a <;> cases k <;> cases x <;>
    simp_all [Rep, step, Abs.ans, Abs.next, Abs.pre, Op.avail, Cfg.implicit, Obj.empty, Obj.hasValue, Obj.hasExc,
      guardOut, Cfg.wf, Cell.live]
  all_goals first
    | done
    | (rename_i t; cases t <;> simp_all [Abs.next, Abs.ans, Cell.live])

theorem rep_refused (moved : V → V) {c : Cfg} (hc : c.wf) {o : Obj V E} {a : Abs V E} (h : Rep c o a) (op : Op V E)
    (hav : op.avail c) (hpre : ¬ a.pre op) : step moved c o op = .assertFailed := by
  obtain ⟨k, x⟩ := c
  obtain ⟨cell, flag, ct, dt, lk⟩ := o
  cases op <;> cases a <;> cases k <;> cases x <;>
    simp_all [Rep, step, Abs.pre, Op.avail, Cfg.implicit, Obj.empty, Obj.hasValue, Obj.hasExc, guardOut, Cfg.wf]
  all_goals rfl

theorem rep_destroy {c : Cfg} (hc : c.wf) {o : Obj V E} {a : Abs V E} (h : Rep c o a) :
    ∃ o', destroy c o = .ok o' ∧ o'.ctor = o'.dtor ∧ o'.leak = false ∧ o'.cell.live = false := by
  obtain ⟨k, x⟩ := c
  obtain ⟨cell, flag, ct, dt, lk⟩ := o
  cases a <;> cases k <;> cases x <;>
    simp_all [Rep, destroy, Cfg.implicit, Cfg.wf, Cell.live]

theorem rep_run (moved : V → V) {c : Cfg} (hc : c.wf) (ops : List (Op V E)) :
    ∀ {o : Obj V E} {a : Abs V E}, Rep c o a → a.ok moved c ops →
    ∃ o', run moved c o ops = .ok (o', a.answers moved c ops) ∧ Rep c o' (a.final moved c ops) := by
  induction ops with
  | nil => intro o a h _; exact ⟨o, rfl, h⟩
  | cons op ops ih =>
    intro o a h hok
    obtain ⟨h1, h2, h3⟩ := hok
    obtain ⟨o1, e1, r1⟩ := rep_step moved hc h op h1 h2
    obtain ⟨o2, e2, r2⟩ := ih r1 h3
    exact ⟨o2, by simp [run, e1, e2, Abs.answers], r2⟩

/-! ### C17 -/

/-- C17. For every kind of eventually and every sequence of calls that respects the documented preconditions: no assertion
fails, no inactive member is accessed, every answer is that of the three-state specification, and after destruction every
object constructed has been destroyed exactly once, nothing was overwritten alive, and no object or exception is left alive. -/
theorem eventually_correct (moved : V → V) {c : Cfg} (hc : c.wf) (ops : List (Op V E))
    (hok : (Abs.empty : Abs V E).ok moved c ops) :
    ∃ o, run moved c (Obj.new c) ops = .ok (o, (Abs.empty : Abs V E).answers moved c ops) ∧
      ∃ o', destroy c o = .ok o' ∧ o'.ctor = o'.dtor ∧ o'.leak = false ∧ o'.cell.live = false := by
  obtain ⟨o, h1, h2⟩ := rep_run moved hc ops (rep_new c) hok
  exact ⟨o, h1, rep_destroy hc h2⟩

/-- C17. A call that violates its documented precondition is refused by an assertion, in every reachable state. -/
theorem eventually_misuse_refused (moved : V → V) {c : Cfg} (hc : c.wf) (ops : List (Op V E))
    (hok : (Abs.empty : Abs V E).ok moved c ops) (op : Op V E) (hav : op.avail c)
    (hpre : ¬ ((Abs.empty : Abs V E).final moved c ops).pre op) :
    run moved c (Obj.new c) (ops ++ [op]) = .assertFailed := by
  have key : ∀ (ops : List (Op V E)) (o o' : Obj V E) rs, run moved c o ops = .ok (o', rs) →
      step moved c o' op = .assertFailed → run moved c o (ops ++ [op]) = .assertFailed := by
    intro ops
    induction ops with
    | nil => intro o o' rs h hs; simp [run] at h; simp [run, h.1, hs]
    | cons op1 ops ih =>
      intro o o' rs h hs
      simp only [run, List.cons_append] at h ⊢
      cases h1 : step moved c o op1 with
      | assertFailed => rfl
      | ub => rw [h1] at h; cases h
      | ok p =>
        rw [h1] at h
        dsimp only at h ⊢
        cases h2 : run moved c p.1 ops with
        | assertFailed => rw [h2] at h; cases h
        | ub => rw [h2] at h; cases h
        | ok q =>
          rw [h2] at h
          simp at h
          rw [ih p.1 o' q.2 (by rw [h2, ← h.1]) hs]
  obtain ⟨o, h1, h2⟩ := rep_run moved hc ops (rep_new c) hok
  exact key ops _ _ _ h1 (rep_refused moved hc h2 op hav hpre)

/-- C17. A value can be stored only once: after a successful assignment neither a second value nor an exception is
accepted, whatever reads and moves happen in between. -/
theorem eventually_assign_once (moved : V → V) {c : Cfg} (hc : c.wf) (ops : List (Op V E)) (v : V)
    (hok : (Abs.empty : Abs V E).ok moved c (ops ++ [.assign v false])) (reads : List (Op V E))
    (hreads : ∀ op ∈ reads, op = .isEmpty ∨ op = .hasValue ∨ op = .read ∨ op = .takeValue)
    (op : Op V E) (hop : (∃ w t, op = .assign w t) ∨ ∃ e, op = .stash e) (hav : op.avail c) :
    run moved c (Obj.new c) ((ops ++ [.assign v false] ++ reads) ++ [op]) = .assertFailed := by
  have hk : c.kind ≠ .void := by
    have : ∀ (l : List (Op V E)) (a : Abs V E), a.ok moved c (l ++ [.assign v false]) → c.kind ≠ .void := by
      intro l
      induction l with
      | nil => intro a h; have := h.1; simp only [Op.avail] at this; rcases this with h | h <;> simp [h]
      | cons x l ih => intro a h; exact ih _ h.2.2
    exact this ops _ hok
  have h1 : ∀ (l : List (Op V E)) (a : Abs V E), a.final moved c (l ++ [.assign v false]) = .value v := by
    intro l
    induction l with
    | nil => intro a; rfl
    | cons x l ih => intro a; exact ih _
  have h2 : ∀ (l : List (Op V E)) (a : Abs V E) (r : List (Op V E)), a.final moved c (l ++ r) = (a.final moved c l).final moved c r := by
    intro l
    induction l with
    | nil => intro a r; rfl
    | cons x l ih => intro a r; exact ih _ r
  have h3 : ∀ (l : List (Op V E)) (a : Abs V E) (r : List (Op V E)), a.ok moved c l → (a.final moved c l).ok moved c r →
      a.ok moved c (l ++ r) := by
    intro l
    induction l with
    | nil => intro a r _ h; exact h
    | cons x l ih => intro a r h h'; exact ⟨h.1, h.2.1, ih _ r h.2.2 h'⟩
  have h4 : ∀ (r : List (Op V E)) (w : V), (∀ op ∈ r, op = .isEmpty ∨ op = .hasValue ∨ op = .read ∨ op = .takeValue) →
      (Abs.value w : Abs V E).ok moved c r ∧ ∃ u, (Abs.value w : Abs V E).final moved c r = .value u := by
    intro r
    induction r with
    | nil => intro w _; exact ⟨trivial, w, rfl⟩
    | cons x r ih =>
      intro w h
      have hx := h x (by simp)
      have hr : ∀ op ∈ r, op = .isEmpty ∨ op = .hasValue ∨ op = .read ∨ op = .takeValue := fun op ho => h op (by simp [ho])
      rcases hx with rfl | rfl | rfl | rfl
      · exact ⟨⟨trivial, trivial, (ih w hr).1⟩, (ih w hr).2⟩
      · exact ⟨⟨hk, trivial, (ih w hr).1⟩, (ih w hr).2⟩
      · exact ⟨⟨hk, ⟨w, rfl⟩, (ih w hr).1⟩, (ih w hr).2⟩
      · simp only [Abs.ok, Abs.final, Abs.next]
        split
        · exact ⟨⟨hk, ⟨w, rfl⟩, (ih _ hr).1⟩, (ih _ hr).2⟩
        · exact ⟨⟨hk, ⟨w, rfl⟩, (ih _ hr).1⟩, (ih _ hr).2⟩
  obtain ⟨h5, u, h6⟩ := h4 reads v hreads
  refine eventually_misuse_refused moved hc _ (h3 _ _ _ hok (by rw [h1]; exact h5)) op hav ?_
  rw [h2, h1, h6]
  rcases hop with ⟨w, t, rfl⟩ | ⟨e, rfl⟩ <;> simp [Abs.pre]

/-- A non-trivial sequence meeting the hypotheses: `try_eventually<int>`, a throwing construction, then a value, read and
moved from. -/
example : (Abs.empty : Abs Nat String).ok (fun _ => 0) ⟨.val, true⟩
    [.isEmpty, .assign 4 true, .isEmpty, .assign 5 false, .hasExc, .read, .takeValue, .read] ∧
    (Abs.empty : Abs Nat String).answers (fun _ => 0) ⟨.val, true⟩
      [.isEmpty, .assign 4 true, .isEmpty, .assign 5 false, .hasExc, .read, .takeValue, .read] =
      [.bool true, .threw, .bool true, .unit, .bool false, .val 5, .val 5, .val 0] := by
  refine ⟨?_, rfl⟩
  simp [Abs.ok, Op.avail, Abs.pre, Abs.next]

/-- And with an exception. -/
example : (Abs.empty : Abs Nat String).ok id ⟨.void, true⟩ [.stash "e", .hasExc, .takeExc, .isEmpty] ∧
    (Cfg.mk .void true).wf ∧
    (Abs.empty : Abs Nat String).answers id ⟨.void, true⟩ [.stash "e", .hasExc, .takeExc, .isEmpty] =
      [.unit, .bool true, .exc (some "e"), .bool true] := by
  refine ⟨?_, .inr rfl, rfl⟩
  simp [Abs.ok, Op.avail, Abs.pre, Abs.next]

end Verif.Core.Eventually
