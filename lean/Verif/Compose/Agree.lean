import Verif.Compose.Model
import Verif.Runtime.Props

/-!
Two runtime states that differ only in what other workers do, in the ghost field `loc` and in the contents of queues that the step
does not look at make the same step.
-/
namespace Verif.Compose
open Verif.Runtime
variable {σ V : Type}

/-- The results of a step of `w` from `{ c with q := _, loc := _, pc := P }` and from `c`: the same but for those fields; `Q` is the
queue after the former. -/
inductive Agree (c : State σ V) (Q : Nat → List (Nat × Nat)) (P : Nat → Pc) (w : Nat) : Res (State σ V) → Res (State σ V) → Prop
  | ok (c' : State σ V) (L : Nat → Loc) (p : Pc) : c'.pc = upd c.pc w p →
      Agree c Q P w (.ok { c' with q := Q, loc := L, pc := upd P w p }) (.ok c')
  | ub : Agree c Q P w .ub .ub
  | no : Agree c Q P w .no .no

theorem Agree.mk' {c : State σ V} {Q : Nat → List (Nat × Nat)} {P : Nat → Pc} {w : Nat} {s c' : State σ V} (p : Pc)
    (h : s = { c' with q := Q, loc := s.loc, pc := upd P w p }) (h2 : c'.pc = upd c.pc w p) : Agree c Q P w (.ok s) (.ok c') := by
  rw [h]; exact .ok c' _ p h2

theorem agree_ite {c : State σ V} {Q : Nat → List (Nat × Nat)} {P : Nat → Pc} {w : Nat} {p p' : Prop} [Decidable p] [Decidable p']
    {a a' b b' : Res (State σ V)} (h : p ↔ p') (h1 : p → Agree c Q P w a a') (h2 : ¬ p → Agree c Q P w b b') :
    Agree c Q P w (if p then a else b) (if p' then a' else b') := by
  by_cases hp : p
  · rw [if_pos hp, if_pos (h.1 hp)]; exact h1 hp
  · rw [if_neg hp, if_neg (fun x => hp (h.2 x))]; exact h2 hp

variable {body : σ → Act σ V}

theorem agree_passJoin {c c1 : State σ V} (Q : Nat → List (Nat × Nat)) (L : Nat → Loc) (P : Nat → Pc) (w f : Nat) (h : c1.pc = c.pc) :
    Agree c Q P w (passJoin body { c1 with q := Q, loc := L, pc := P } w f) (passJoin body c1 w f) := by
  unfold passJoin
  dsimp only [State.isTop]
  refine agree_ite Iff.rfl (fun _ => ?_) (fun _ => .ub)
  cases body (c1.fr f).st <;> cases results (c1.fr f).slots <;> dsimp only <;>
    first | exact .ub | exact .mk' (.run f) rfl (by rw [h])

theorem agree_destroy (c : State σ V) (Q : Nat → List (Nat × Nat)) (L : Nat → Loc) (P : Nat → Pc) (w f : Nat) :
    destroy { c with q := Q, loc := L, pc := P } w f =
      match destroy c w f with
      | .ok c' => .ok { c' with q := Q, loc := L, pc := P }
      | .ub => .ub
      | .no => .no := by
  unfold destroy
  by_cases hx : c.wk w = c.stk f ∧ c.isTop f = true
  · rw [if_pos hx]; exact if_pos hx
  · rw [if_neg hx]; exact if_neg hx

theorem destroy_cases (c : State σ V) (w f : Nat) :
    destroy c w f = .ub ∨ destroy c w f = .ok { c with al := upd c.al (c.wk w) (c.al (c.wk w)).tail } := by
  unfold destroy
  split
  · exact .inr rfl
  · exact .inl rfl

/-- A step that calls no queue operation. -/
theorem agree_local {c : State σ V} {Q : Nat → List (Nat × Nat)} (L : Nat → Loc) {P : Nat → Pc} {w : Nat} {ch : Choice}
    (hP : P w = c.pc w) (hQ : Q w = [] ↔ c.q w = []) (hl : Local body c w ch) :
    Agree c Q P w (step body w ch { c with q := Q, loc := L, pc := P }) (step body w ch c) := by
  unfold Local at hl
  unfold step
  dsimp only
  rw [hP]
  cases hp : c.pc w with
  | idle =>
    rw [hp] at hl
    dsimp only at hl
    subst hl
    dsimp only [take]
    cases hi : c.inbox w with
    | nil => exact .no
    | cons f r =>
      dsimp only [State.live, State.isTop, State.wkEmpty]
      exact agree_ite (by rw [hQ]) (fun _ => .mk' _ rfl rfl) (fun _ => .ub)
  | run f =>
    rw [hp] at hl
    dsimp only at hl ⊢
    cases hb : body (c.fr f).st with
    | ret v =>
      dsimp only [doRet]
      refine agree_ite Iff.rfl (fun _ => ?_) (fun _ => .ub)
      · cases hk : c.link f with
        | root =>
          dsimp only
          rw [agree_destroy]
          rcases destroy_cases c w f with e | e <;> rw [e] <;> dsimp only
          · exact .ub
          · dsimp only [State.wkEmpty]
            exact agree_ite (by rw [hQ]) (fun _ => .mk' _ rfl rfl) (fun _ => .ub)
        | call p =>
          dsimp only [State.live]
          refine agree_ite Iff.rfl (fun _ => ?_) (fun _ => .ub)
          · rw [agree_destroy]
            rcases destroy_cases c w f with e | e <;> rw [e] <;> dsimp only
            · cases body (c.fr p).st <;> exact .ub
            · cases body (c.fr p).st <;> dsimp only <;> first | exact .ub | exact .mk' _ rfl rfl
        | fork p i =>
          dsimp only [State.live]
          refine agree_ite Iff.rfl (fun _ => ?_) (fun _ => .ub)
          · rw [agree_destroy]
            rcases destroy_cases c w f with e | e <;> rw [e] <;> dsimp only
            · exact .ub
            · exact .mk' _ rfl rfl
    | fork a k => exact absurd hb (hl a k)
    | call a k => exact .mk' _ rfl rfl
    | join k =>
      dsimp only [doJoin]
      exact agree_ite Iff.rfl (fun _ => agree_passJoin (c := c) (c1 := { c with log := .suspend f .join :: c.log }) Q L P w f rfl) (fun _ => .mk' _ rfl rfl)
    | switch d k =>
      dsimp only [doSwitch, State.isTop]
      exact agree_ite Iff.rfl (fun _ => .mk' _ rfl rfl) (fun _ => .ub)
  | joinLoad f =>
    dsimp only [joinLoad]
    exact agree_ite Iff.rfl (fun _ => .mk' _ rfl rfl) (fun _ => .mk' _ rfl rfl)
  | joinSub f =>
    dsimp only [joinSub]
    exact agree_ite Iff.rfl (fun _ => .mk' _ rfl rfl) (fun _ => .mk' _ rfl rfl)
  | joinTake f =>
    dsimp only [joinTake, State.wkEmpty, State.isTop]
    exact agree_ite Iff.rfl (fun _ => agree_passJoin (c := c) (c1 := { c with wk := _, fr := _ }) Q L P w f rfl) (fun _ => .ub)
  | finPop p k => rw [hp] at hl; exact hl.elim
  | finDec p k same =>
    dsimp only [finDec, State.live]
    exact agree_ite Iff.rfl (fun _ => agree_ite Iff.rfl (fun _ => .mk' _ rfl rfl) (fun _ => .mk' _ rfl rfl)) (fun _ => .ub)
  | finWin p same =>
    dsimp only [finWin, State.live, State.wkEmpty, State.isTop]
    exact agree_ite Iff.rfl (fun _ => agree_ite Iff.rfl (fun _ => agree_passJoin (c := c) (c1 := { c with fr := _ }) Q L P w p rfl)
      (fun _ => agree_ite Iff.rfl (fun _ => agree_passJoin (c := c) (c1 := { c with fr := _, wk := _ }) Q L P w p rfl) (fun _ => .ub)))
      (fun _ => .ub)
  | finLose same =>
    cases same
    · simp only [finLose, State.wkEmpty, hQ, if_false, Bool.false_eq_true]
      exact agree_ite Iff.rfl (fun _ => .mk' _ rfl rfl) (fun _ => .ub)
    · simp only [finLose, State.wkEmpty, release, hQ, if_true]
      exact agree_ite Iff.rfl (fun _ => .mk' _ rfl rfl) (fun _ => .ub)
  | selfSteal => rw [hp] at hl; exact hl.elim
  | stole p =>
    dsimp only [stole, State.live]
    exact agree_ite Iff.rfl (fun _ => .mk' _ rfl rfl) (fun _ => .ub)
  | switchRel z =>
    cases z
    · simp only [switchRel, State.wkEmpty, if_false, Bool.false_eq_true]
      exact agree_ite Iff.rfl (fun _ => .mk' _ rfl rfl) (fun _ => .ub)
    · simp only [switchRel, State.wkEmpty, release, if_true]
      exact agree_ite Iff.rfl (fun _ => .mk' _ rfl rfl) (fun _ => .ub)

/-- What is left of a queue after a `pop`. -/
def popRest : List (Nat × Nat) → List (Nat × Nat) := List.tail

/-- A step that pops, seeing the same first entry. -/
theorem agree_pop {c : State σ V} {Q : Nat → List (Nat × Nat)} (L : Nat → Loc) {P : Nat → Pc} {w : Nat} {ch : Choice}
    (hP : P w = c.pc w) (hQ : (Q w).head?.map Prod.fst = (c.q w).head?.map Prod.fst) (hl : Pops c w) :
    Agree c (upd Q w (Q w).tail) P w (step body w ch { c with q := Q, loc := L, pc := P }) (step body w ch c) := by
  unfold step
  dsimp only
  rw [hP]
  cases hq : Q w with
  | nil =>
    have hc : c.q w = [] := by
      rw [hq] at hQ
      cases hx : c.q w with
      | nil => rfl
      | cons a l => rw [hx] at hQ; cases hQ
    have hu : upd Q w ([] : List (Nat × Nat)).tail = Q := by
      funext v; unfold upd; split
      · rename_i e; rw [e, hq]; rfl
      · rfl
    rw [hu]
    rcases hl with hp | ⟨p, k, hp⟩ <;> rw [hp] <;> dsimp only
    · dsimp only [selfSteal, State.wkEmpty]
      rw [hq, hc]
      dsimp only
      exact agree_ite Iff.rfl (fun _ => .mk' _ rfl rfl) (fun _ => .ub)
    · dsimp only [finPop, State.live, State.isTop]
      rw [hq, hc]
      dsimp only
      exact agree_ite Iff.rfl (fun _ => .mk' _ rfl rfl) (fun _ => .ub)
  | cons a l =>
    obtain ⟨b, m, hc, hb⟩ : ∃ b m, c.q w = b :: m ∧ b.1 = a.1 := by
      rw [hq] at hQ
      cases hx : c.q w with
      | nil => rw [hx] at hQ; cases hQ
      | cons b m => rw [hx] at hQ; simp at hQ; exact ⟨b, m, rfl, hQ.symm⟩
    obtain ⟨a1, a2⟩ := a
    obtain ⟨b1, b2⟩ := b
    simp only at hb
    subst hb
    rcases hl with hp | ⟨p, k, hp⟩ <;> rw [hp] <;> dsimp only
    · dsimp only [selfSteal]
      rw [hq, hc]
      exact .mk' _ rfl rfl
    · dsimp only [finPop, State.live]
      rw [hq, hc]
      dsimp only
      exact agree_ite Iff.rfl (fun _ => .mk' _ rfl rfl) (fun _ => .ub)

end Verif.Compose
