/-!
C35: the compile-time checks on references, include/libfork/core/impl/safe_ref.hpp and `safe_fork` in
include/libfork/core/impl/promise.hpp:365-433.

C++ types are modelled as a base type (an arbitrary number), a `const` flag and a reference kind. Which conversions exist
is a parameter: `compat a b` when an object of type `a` is reference-compatible with `b` up to qualification
([dcl.init.ref]: the same type or a class derived from it), `conv a b` when there is an implicit conversion from `a` to a
value of type `b`, which creates a temporary when the destination is a reference. Not modelled: `volatile`, arrays, functions,
conversion functions returning references, ambiguous or inaccessible bases.
-/
namespace Verif.SafeRef

/-- No code: the C++ reference qualifiers. -/
inductive Ref where
  | none | lv | rv
  deriving DecidableEq

/-- A C++ type: `base`, `base const`, and references to them. No code. -/
structure Ty where
  base : Nat
  cst : Bool
  ref : Ref
  deriving DecidableEq

/-- The conversions of a program. No code. -/
structure Env where
  compat : Nat → Nat → Bool
  conv : Nat → Nat → Bool
  refl : ∀ a, compat a a = true

/-- The C++ rules for what a parameter of type `to` is initialised with (the specification side: [dcl.init.ref],
[conv]). No code. -/
inductive Bound where
  /-- A new object in the coroutine frame. -/
  | copy
  /-- A reference to the argument object itself, or a base of it. -/
  | direct
  /-- A reference to a temporary, which dies at the end of the full expression in `quasi_awaitable`'s builder
  (combinate.hpp:79-82), before the child runs. -/
  | temp
  deriving DecidableEq

/-- `to x = expr` for an expression of type `frm` (a reference type, `Args &&` of combinate.hpp:80); `none`: ill-formed.
[dcl.init.ref]/5. -/
def bind (env : Env) (frm to : Ty) : Option Bound :=
  match to.ref with
  | .none => if env.compat frm.base to.base || env.conv frm.base to.base then some .copy else none
  | .lv =>
    if env.compat frm.base to.base then
      if to.cst then some .direct
      else if frm.ref = .lv ∧ frm.cst = false then some .direct else none
    else if to.cst ∧ env.conv frm.base to.base then some .temp else none
  | .rv =>
    if env.compat frm.base to.base then
      if frm.ref = .lv then none else if to.cst ∨ frm.cst = false then some .direct else none
    else if env.conv frm.base to.base then some .temp else none

/-- `std::convertible_to<From &, To &>` as used in promise.hpp:397, 404. -/
def convertible (env : Env) (frm to : Ty) : Bool := (bind env frm to).isSome

/-- promise.hpp:377-405 `safe_fork_t`: the primary template (379: rejected), by value (390), `From & → To &` (397)
and `From & → To const &` (404). -/
def safeForkT (env : Env) (frm to : Ty) : Bool :=
  if to.ref = .none then true
  else if frm.ref = .lv ∧ to.ref = .lv then
    convertible env frm to || (to.cst && convertible env frm { to with cst := false })
  else false

/-- tag.hpp:30-60. -/
inductive Tag where
  | root | call | fork
  deriving DecidableEq

/-- promise.hpp:407-426 `safe_fork`: only forks are checked; missing arguments are defaulted. -/
def safeFork (env : Env) : Tag → List Ty → List Ty → Bool
  | .fork, f :: fs, t :: ts => safeForkT env f t && safeFork env .fork fs ts
  | .fork, [], t :: ts => decide (t.ref ≠ .rv) && safeFork env .fork [] ts
  | .fork, _, [] => true
  | _, _, _ => true

/-- safe_ref.hpp:29-45. -/
def safeRefBindImpl (to frm : Ty) : Bool :=
  decide (to = frm) || (decide (to.ref = .lv) && to.cst && decide (frm.ref = .lv)) ||
    (decide (to.ref = .rv) && to.cst && decide (frm.ref = .rv))

/-- `From &&` with reference collapsing. No code: C++. -/
def addRv (t : Ty) : Ty := match t.ref with | .none => { t with ref := .rv } | _ => t

/-- safe_ref.hpp:56-60 `safe_ref_bind_to<From, To>`. -/
def safeRefBindTo (frm to : Ty) : Bool := decide (to.ref ≠ .none) && safeRefBindImpl to (addRv frm)

/-- eventually.hpp:282-295: `operator=(U && expr)` of an `eventually<To>` for a reference `To`: `m_value = addressof(expr)`
compiles when the pointer converts: a compatible object and no loss of `const`; the value stored is the address of `expr`
itself. `none`: rejected by the concept or ill-formed. -/
def storeRef (env : Env) (frm to : Ty) : Option Bound :=
  if safeRefBindTo frm to ∧ env.compat frm.base to.base ∧ (to.cst ∨ frm.cst = false) then some .direct else none

/-! ### The property -/

/-- A forked child's reference parameter is safe if it is a copy or is bound to an object that the parent named (an lvalue):
not to a temporary, and not to an expiring object. No code: the specification. -/
def Safe (env : Env) (frm to : Ty) : Prop :=
  bind env frm to = some .copy ∨ (bind env frm to = some .direct ∧ frm.ref = .lv)

/-- **C35** as documented: an accepted, well-formed fork is safe. No code: the specification. -/
def ForkSafe (env : Env) (frm to : Ty) : Prop :=
  safeForkT env frm to = true → convertible env frm to = true → Safe env frm to

/-- Two arithmetic types, 0 (`int`) and 1 (`double`), convertible to each other, and a class 3 derived from 2. No code: an example. -/
def demo : Env where
  compat a b := a == b || (a == 3 && b == 2)
  conv a b := (a ≤ 1 && b ≤ 1)
  refl := by simp

/-- **C35 fails**: forking a task that takes `double const &` with an `int` lvalue is accepted, and the child's parameter
refers to a temporary that is gone before the child runs. -/
theorem fork_safe_violates : ∃ env frm to, ¬ ForkSafe env frm to ∧ safeForkT env frm to = true ∧
    bind env frm to = some .temp :=
  ⟨demo, ⟨0, false, .lv⟩, ⟨1, true, .lv⟩, by simp [ForkSafe, Safe]; decide, by decide, by decide⟩

/-- **C35 fails** for calls, which are not checked at all, in the same way. -/
theorem call_safe_violates : ∃ env frm to, safeFork env .call [frm] [to] = true ∧ bind env frm to = some .temp :=
  ⟨demo, ⟨0, false, .rv⟩, ⟨1, true, .lv⟩, by decide, by decide⟩

/-- **C35 fails** for defaulted parameters: a default argument that is an rvalue (here of the parameter's own type) is
accepted for a `const &` parameter, though the object dies before the child runs. -/
theorem default_safe_violates : ∃ env frm to, safeFork env .fork [] [to] = true ∧ convertible env frm to = true ∧
    ¬ Safe env frm to :=
  ⟨demo, ⟨0, false, .rv⟩, ⟨0, true, .lv⟩, by decide, by decide, by simp [Safe]; decide⟩

/-- The exact extent of the failure: the accepted unsafe forks are those binding an lvalue to a `const` lvalue reference to
a type that is not reference-compatible, through an implicit conversion. -/
theorem fork_unsafe_iff (env : Env) (frm to : Ty) (hw : convertible env frm to = true) :
    (safeForkT env frm to = true ∧ ¬ Safe env frm to) ↔
      frm.ref = .lv ∧ to.ref = .lv ∧ to.cst = true ∧ env.compat frm.base to.base = false ∧
        env.conv frm.base to.base = true := by
  obtain ⟨fb, fc, fr⟩ := frm
  obtain ⟨tb, tc, tr⟩ := to
  simp only [safeForkT, Safe, convertible, bind] at *
  cases fr <;> cases tr <;> cases fc <;> cases tc <;> cases h1 : env.compat fb tb <;> cases h2 : env.conv fb tb <;>
    simp_all

/-- **C35**, what holds: an accepted fork is safe if every `const &` parameter is given an object of a compatible
type (the missing part is `fork_safe_violates`). -/
theorem fork_safe_partial (env : Env) (frm to : Ty)
    (h : to.ref = .lv → to.cst = true → env.compat frm.base to.base = true) : ForkSafe env frm to := by
  intro ha hw
  by_cases hs : Safe env frm to
  · exact hs
  · have := (fork_unsafe_iff env frm to hw).1 ⟨ha, hs⟩
    have := h this.2.1 this.2.2.1
    simp_all

/-- **C35**, the converse: no safe fork is rejected. Arguments passed by value and lvalues bound directly are accepted. -/
theorem fork_accepts_safe (env : Env) (frm to : Ty) (h : Safe env frm to) : safeForkT env frm to = true := by
  obtain ⟨fb, fc, fr⟩ := frm
  obtain ⟨tb, tc, tr⟩ := to
  simp only [safeForkT, Safe, convertible, bind] at *
  cases fr <;> cases tr <;> cases fc <;> cases tc <;> cases h1 : env.compat fb tb <;> cases h2 : env.conv fb tb <;>
    simp_all

/-- Rvalues and temporaries never reach a reference parameter of a forked child, whatever the types. -/
theorem fork_rejects_rvalues (env : Env) (frm to : Ty) (hf : frm.ref ≠ .lv) (ht : to.ref ≠ .none) :
    safeForkT env frm to = false := by
  simp [safeForkT, hf, ht]

/-- The checks are applied to every argument given, and every defaulted one is checked for rvalue references. -/
theorem fork_checks_all (env : Env) (fs ts : List Ty) (h : safeFork env .fork fs ts = true) :
    (∀ i (h1 : i < fs.length) (h2 : i < ts.length), safeForkT env fs[i] ts[i] = true) ∧
    ∀ i (h2 : i < ts.length), fs.length ≤ i → ts[i].ref ≠ .rv := by
  induction ts generalizing fs with
  | nil => simp
  | cons t ts ih =>
    cases fs with
    | nil =>
      simp only [safeFork, Bool.and_eq_true, decide_eq_true_eq] at h
      have := ih [] h.2
      refine ⟨by simp, fun i h2 _ => ?_⟩
      cases i with
      | zero => exact h.1
      | succ i => exact this.2 i (by simpa using h2) (by simp)
    | cons f fs =>
      simp only [safeFork, Bool.and_eq_true] at h
      have := ih fs h.2
      constructor
      · intro i h1 h2
        cases i with
        | zero => exact h.1
        | succ i => exact this.1 i (by simpa using h1) (by simpa using h2)
      · intro i h2 h3
        cases i with
        | zero => simp at h3
        | succ i => exact this.2 i (by simpa using h2) (by simpa using h3)

/-- The check with the missing condition added to `From & → To const &`. No code: a repaired promise.hpp:405. -/
def safeForkFixed (env : Env) (frm to : Ty) : Bool :=
  safeForkT env frm to && (decide (to.ref = .none) || env.compat frm.base to.base)

/-- With the missing condition the property holds, and no safe fork is rejected by the addition. -/
theorem fork_safe_if_fixed (env : Env) (frm to : Ty) (hw : convertible env frm to = true) :
    (safeForkFixed env frm to = true → Safe env frm to) ∧
    (safeForkT env frm to = true → Safe env frm to → safeForkFixed env frm to = true) := by
  obtain ⟨fb, fc, fr⟩ := frm
  obtain ⟨tb, tc, tr⟩ := to
  simp only [safeForkFixed, safeForkT, Safe, convertible, bind] at *
  cases fr <;> cases tr <;> cases fc <;> cases tc <;> cases h1 : env.compat fb tb <;> cases h2 : env.conv fb tb <;>
    simp_all

/-- **C35**, returned references: whatever `co_return` is given, what an `eventually<To>` stores is the address of that very
object, of the same value category as `To` promises: never a temporary, never an rvalue as an lvalue. -/
theorem return_ref_safe (env : Env) (frm to : Ty) (b : Bound) (h : storeRef env frm to = some b) :
    b = .direct ∧ (addRv frm).ref = to.ref ∧ env.compat frm.base to.base = true := by
  obtain ⟨fb, fc, fr⟩ := frm
  obtain ⟨tb, tc, tr⟩ := to
  simp only [storeRef, safeRefBindTo, safeRefBindImpl, addRv] at *
  cases fr <;> cases tr <;> simp_all <;> grind

/-- The documented ban: `T && → T const &` (and to any lvalue reference) is rejected, for all types. -/
theorem return_rvalue_rejected (frm to : Ty) (hf : (addRv frm).ref = .rv) (ht : to.ref = .lv) :
    safeRefBindTo frm to = false := by
  obtain ⟨fb, fc, fr⟩ := frm
  obtain ⟨tb, tc, tr⟩ := to
  simp only [safeRefBindTo, safeRefBindImpl, addRv] at *
  cases fr <;> cases tr <;> simp_all

/-- The documented domain: the same reference type, or its `const` version, is accepted. -/
theorem return_same_accepted (frm to : Ty) (hf : frm.ref = to.ref) (ht : to.ref ≠ .none) (hb : frm.base = to.base)
    (hc : to.cst = true ∨ frm.cst = to.cst) : safeRefBindTo frm to = true := by
  obtain ⟨fb, fc, fr⟩ := frm
  obtain ⟨tb, tc, tr⟩ := to
  simp only [safeRefBindTo, safeRefBindImpl, addRv] at *
  cases fr <;> cases tr <;> simp_all <;> grind

/-! ### The hypotheses are met -/

/-- `Derived & → Base const &` is accepted and bound directly. -/
example : safeForkT demo ⟨3, false, .lv⟩ ⟨2, true, .lv⟩ = true ∧ bind demo ⟨3, false, .lv⟩ ⟨2, true, .lv⟩ = some .direct := by
  decide

/-- `int & → double` is accepted and copied. -/
example : safeForkT demo ⟨0, false, .lv⟩ ⟨1, false, .none⟩ = true ∧ bind demo ⟨0, false, .lv⟩ ⟨1, false, .none⟩ = some .copy := by
  decide

/-- `Derived && → Base const &` is rejected though well formed. -/
example : safeForkT demo ⟨3, false, .rv⟩ ⟨2, true, .lv⟩ = false ∧ convertible demo ⟨3, false, .rv⟩ ⟨2, true, .lv⟩ = true := by
  decide

/-- Returning a `Derived &` for a `Base const &`. -/
example : storeRef demo ⟨3, false, .lv⟩ ⟨2, true, .lv⟩ = some .direct := by decide

example : safeFork demo .fork [⟨0, false, .lv⟩, ⟨3, false, .lv⟩] [⟨1, false, .none⟩, ⟨2, true, .lv⟩, ⟨0, true, .lv⟩] = true := by decide

end Verif.SafeRef
