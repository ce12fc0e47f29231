import Verif.Exn.Base
import Verif.Exn.Slot

/-! How a state of the runtime with exceptions and one of the runtime without correspond. -/
namespace Verif.Exn
open Verif.Runtime (State Res Fr Pc Loc Link Ev Why upd maxU16 U16 newFrame reset destroy release joinLoad joinSub finPop finDec finLose
  selfSteal stole switchRel steal take doFork doCall report upd_apply upd_same upd_ne results Alive Few)

variable {σ V E : Type}

/-- The state of a task: `o` is its future, `es` what callees have thrown since its last join. -/
def Sh (body : σ → Act σ V E) (may : E → Prop) (dirty : σ → Prop) (aw : Option Aw) (es : List E) (o : Orc E) (s : σ) (y : T σ E) : Prop :=
  (es ≠ [] → dirty s) ∧
  match aw with
  | none => y = norm body may o s es
  | some (.fork _) => ∃ c k x, body s = .fork c k x ∧ y = norm body may o.rest (k o.bit) es
  | some .call => ∃ kid b c k x, body s = .call c k x ∧ y = (s, es, .fork kid b o)

def strip : Option (Except E V) → Option (Except E V)
  | some (.error _) => none
  | x => x

def errsO : List (Option (Except E V)) → List E
  | [] => []
  | some (.error e) :: l => e :: errsO l
  | _ :: l => errsO l

def ExOk : Option E → List E → Prop
  | none, l => l = []
  | some e, l => e ∈ l

def Sl (x : Option E) (es : List E) (cs rs : List (Option (Except E V))) : Prop := cs = rs.map strip ∧ ExOk x (errsO rs ++ es)

def Orig (body : σ → Act σ V E) (may : E → Prop) (c : σ) (y : T σ E) : Prop := ∃ o, y = norm body may o c []

def AwOk (l : Loc) (a : Option Aw) (steal : Nat) : Prop :=
  match l with
  | .queued _ _ => a = some (.fork steal)
  | .stolenBy _ => a = some (.fork steal)
  | .callwait _ => a = some .call
  | _ => a = none

structure Rel (body : σ → Act σ V E) (may : E → Prop) (dirty : σ → Prop) (F : Nat → Orc E) (es : Nat → List E) (s : XS σ V E)
    (r : State (T σ E) (Except E V)) : Prop where
  base : Base (Orig body may) (fun f => Sh body may dirty (s.aw f) (es f) (F f)) (fun f => Sl (s.exc f) (es f)) s.c r
  aw : ∀ f, AwOk (s.c.loc f) (s.aw f) (s.c.fr f).steal

theorem Base.weaken {σ₁ σ₂ W : Type} {Q : σ₁ → σ₂ → Prop} {S S' : Nat → σ₁ → σ₂ → Prop}
    {L L' : Nat → List (Option W) → List (Option W) → Prop} {c : State σ₁ W} {r : State σ₂ W} (h : Base Q S L c r)
    (hS : ∀ f, f < c.nf → S f (c.fr f).st (r.fr f).st → S' f (c.fr f).st (r.fr f).st)
    (hL : ∀ f, f < c.nf → L f (c.fr f).slots (r.fr f).slots → L' f (c.fr f).slots (r.fr f).slots) : Base Q S' L' c r :=
  ⟨h.nf, h.link, h.stk, h.al, h.ns, h.pc, h.q, h.wk, h.inbox, h.loc, h.steal, h.join, h.stolen,
    fun f hf => hS f hf (h.st f hf), fun f hf => hL f hf (h.sl f hf), h.log⟩

/-- One frame changed altogether. -/
theorem Base.frame' {σ₁ σ₂ W : Type} {Q : σ₁ → σ₂ → Prop} {S S' : Nat → σ₁ → σ₂ → Prop}
    {L L' : Nat → List (Option W) → List (Option W) → Prop} {c : State σ₁ W} {r : State σ₂ W} (h : Base Q S L c r)
    (p : Nat) (g : Fr σ₁ W) (g' : Fr σ₂ W)
    (hS : ∀ f, f ≠ p → ∀ a b, S f a b → S' f a b) (hL : ∀ f, f ≠ p → ∀ a b, L f a b → L' f a b)
    (h1 : S' p g.st g'.st) (h2 : L' p g.slots g'.slots) (h5 : g'.steal = g.steal) (h6 : g'.join = g.join)
    (h7 : g'.stolen = g.stolen) : Base Q S' L' { c with fr := upd c.fr p g } { r with fr := upd r.fr p g' } := by
  refine ⟨h.nf, h.link, h.stk, h.al, h.ns, h.pc, h.q, h.wk, h.inbox, h.loc,
    keepN _ _ p g g' h.steal h5, keepN _ _ p g g' h.join h6, keepN _ _ p g g' h.stolen h7, ?_, ?_, h.log⟩
  · intro f hf
    simp only [upd_apply]
    split
    · rename_i e; subst e; exact h1
    · rename_i e; exact hS f e _ _ (h.st f hf)
  · intro f hf
    simp only [upd_apply]
    split
    · rename_i e; subst e; exact h2
    · rename_i e; exact hL f e _ _ (h.sl f hf)

/-- A new frame. -/
theorem Base.newFrame {σ₁ σ₂ W : Type} {Q : σ₁ → σ₂ → Prop} {S S' : Nat → σ₁ → σ₂ → Prop}
    {L L' : Nat → List (Option W) → List (Option W) → Prop} {c : State σ₁ W} {r : State σ₂ W} (h : Base Q S L c r) (k : Nat) (l : Link)
    (b b' : Nat) (x : σ₁) (x' : σ₂) (hS : ∀ f, f < c.nf → ∀ a b, S f a b → S' f a b) (hL : ∀ f, f < c.nf → ∀ a b, L f a b → L' f a b)
    (h1 : S' c.nf x x') (h2 : L' c.nf [] []) :
    Base Q S' L' (newFrame c k l b x) (newFrame r k l b' x') := by
  obtain ⟨rfr, rnf, rlink, rstk, ral, rns, rpc, rq, rwk, rinbox, rloc, rbase, rinit, rlog⟩ := r
  obtain ⟨e1, e2, e3, e4, e5, e6, e7, e8, e9, e10, -, -, -, -, -, -⟩ := id h
  dsimp only at e1 e2 e3 e4 e5 e6 e7 e8 e9 e10
  subst e1 e2 e3 e4 e5 e6 e7 e8 e9 e10
  refine ⟨rfl, rfl, rfl, rfl, rfl, rfl, rfl, rfl, rfl, rfl, keepN _ _ c.nf _ _ h.steal rfl, keepN _ _ c.nf _ _ h.join rfl,
    keepN _ _ c.nf _ _ h.stolen rfl, ?_, ?_, h.log⟩
  · intro f hf
    simp only [Verif.Runtime.newFrame, upd_apply] at hf ⊢
    split
    · rename_i e; subst e; exact h1
    · exact hS f (by omega) _ _ (h.st f (by omega))
  · intro f hf
    simp only [Verif.Runtime.newFrame, upd_apply] at hf ⊢
    split
    · rename_i e; subst e; exact h2
    · exact hL f (by omega) _ _ (h.sl f (by omega))

/-! ### Lists of return objects -/

theorem errsO_append (l m : List (Option (Except E V))) : errsO (l ++ m) = errsO l ++ errsO m := by
  induction l with
  | nil => rfl
  | cons a l ih =>
    cases a with
    | none => exact ih
    | some x => cases x with
      | ok v => exact ih
      | error e => simp only [List.cons_append, errsO, ih]

theorem errsO_set {l : List (Option (Except E V))} {i : Nat} (h : l[i]? = some none) (x : Except E V) (e : E) :
    e ∈ errsO (l.set i (some x)) ↔ e ∈ errsO l ∨ x = .error e := by
  induction l generalizing i with
  | nil => simp at h
  | cons a l ih =>
    cases i with
    | zero =>
      simp only [List.getElem?_cons_zero, Option.some.injEq] at h
      subst h
      cases x with
      | ok v => simp [errsO]
      | error e' =>
        simp only [List.set_cons_zero, errsO, List.mem_cons, Except.error.injEq]
        constructor
        · rintro (rfl | h)
          · exact Or.inr rfl
          · exact Or.inl h
        · rintro (h | rfl)
          · exact Or.inr h
          · exact Or.inl rfl
    | succ i =>
      simp only [List.getElem?_cons_succ] at h
      have := ih h
      cases a with
      | none => exact this
      | some y => cases y with
        | ok v => exact this
        | error e' =>
          simp only [List.set_cons_succ, errsO, List.mem_cons]
          rw [this, or_assoc]

theorem strip_set_ok {l : List (Option (Except E V))} (i : Nat) (v : V) :
    (l.set i (some (.ok v))).map strip = (l.map strip).set i (some (.ok v)) := by
  rw [List.map_set]; rfl

theorem strip_set_error {l : List (Option (Except E V))} {i : Nat} (h : l[i]? = some none) (e : E) :
    (l.set i (some (.error e))).map strip = l.map strip := by
  rw [List.map_set]
  apply List.ext_getElem?
  intro j
  by_cases e : i = j
  · subst e
    have hlt : i < l.length := by
      by_cases hx : i < l.length
      · exact hx
      · rw [List.getElem?_eq_none (by omega)] at h; cases h
    rw [List.getElem?_set_self (by simpa using hlt), List.getElem?_map, h]
    rfl
  · rw [List.getElem?_set_ne e]

/-- The results of children that have all ended. -/
theorem errsO_some (rs : List (Except E V)) : errsO (rs.map some) = errs rs := by
  induction rs with
  | nil => rfl
  | cons a l ih => cases a <;> simp [errsO, errs, ih]

theorem held_some (rs : List (Except E V)) : ((rs.map some).map strip).map held = rs.map Except.toOption := by
  induction rs with
  | nil => rfl
  | cons a l ih =>
    simp only [List.map_cons, ih]
    cases a <;> rfl

theorem allHeld_ok (rs : List (Except E V)) (h : errs rs = []) : allHeld (rs.map Except.toOption) = some (oks rs) := by
  induction rs with
  | nil => rfl
  | cons a l ih =>
    cases a with
    | ok v =>
      have := ih h
      simp [List.map_cons, Except.toOption, allHeld, oks, this]
    | error e => cases h

theorem norm_ret {body : σ → Act σ V E} {may : E → Prop} {o : Orc E} {s : σ} {es : List E} {v : V} (h : body s = .ret v) :
    norm body may o s es = (s, es, o) := by
  cases o <;> simp [norm, h]

theorem norm_throw {body : σ → Act σ V E} {may : E → Prop} {o : Orc E} {s : σ} {es : List E} {e : E} (h : body s = .throw e) :
    norm body may o s es = (s, es, o) := by
  cases o <;> simp [norm, h]

theorem norm_join {body : σ → Act σ V E} {may : E → Prop} {o : Orc E} {s : σ} {es : List E} {k x} (h : body s = .join k x) :
    norm body may o s es = (s, es, o) := by
  cases o <;> simp [norm, h]

end Verif.Exn
