import Verif.Sync.Spec

/-! In the fork/join machine: the children of `sync_outside` forks do not throw, so the join at once gets one value. -/
namespace Verif.Sync
open Verif.Exn (errs oks)
open Verif.Mem (FJ Mode Ended set also)

variable {σ V E L : Type}

theorem disc_seen {body : σ → Act σ V E L} {pend : σ → Nat} {dirty : σ → Prop} (hd : Disc body pend dirty) :
    Mem.Disc (seen body) (pendS pend) (dirtyS dirty) := by
  have hp : ∀ y a, body y = .plain a → seen body (.here y) = lift a := fun y a h => by simp only [seen, h]
  have hj : ∀ y, ∃ k : List V → St σ, seen body (.answer y) = .join k (fun _ _ => .bad) ∧ ∀ l, pendS pend (k l) = 0 := by
    intro y
    simp only [seen]
    cases hb : body y with
    | plain a => exact ⟨_, rfl, fun _ => rfl⟩
    | out c k x =>
      refine ⟨_, rfl, fun l => ?_⟩
      match l with
      | [] => rfl
      | [v] => exact hd.out.yes y c k x v hb
      | _ :: _ :: _ => rfl
  constructor
  · intro s v h
    cases s with
    | bad => cases h
    | answer y => obtain ⟨k, e, -⟩ := hj y; rw [e] at h; cases h
    | here y =>
      cases hb : body y with
      | plain a => rw [hp y a hb] at h; cases a <;> simp only [lift] at h <;> cases h; exact (hd.plain y _ hb).ret _ rfl
      | out c k x => simp only [seen, hb] at h; cases h
  · intro s v h
    cases s with
    | bad => cases h
    | answer y => obtain ⟨k, e, -⟩ := hj y; rw [e] at h; cases h
    | here y =>
      cases hb : body y with
      | plain a => rw [hp y a hb] at h; cases a <;> simp only [lift] at h <;> cases h; exact (hd.plain y _ hb).throw _ rfl
      | out c k x => simp only [seen, hb] at h; cases h
  · intro s c k x h
    cases s with
    | bad => cases h
    | answer y => obtain ⟨k, e, -⟩ := hj y; rw [e] at h; cases h
    | here y =>
      cases hb : body y with
      | plain a => rw [hp y a hb] at h; cases a <;> simp only [lift] at h <;> cases h; exact (hd.plain y _ hb).fork _ _ _ rfl
      | out c0 k0 x0 =>
        simp only [seen, hb] at h; cases h
        obtain ⟨h1, h2, h3⟩ := hd.out.before y _ _ _ hb
        refine ⟨h3, fun b => ?_, fun e => ⟨(hd.out.fails y _ _ _ e hb).trans h1.symm, fun h => absurd h h2⟩⟩
        cases b
        · exact ⟨(hd.out.no y _ _ _ hb).trans (by simp only [pendS, h1]), fun h => absurd h h2⟩
        · exact ⟨by simp only [pendS, h1, if_pos], fun h => absurd h h2⟩
  · intro s c k x h
    cases s with
    | bad => cases h
    | answer y => obtain ⟨k, e, -⟩ := hj y; rw [e] at h; cases h
    | here y =>
      cases hb : body y with
      | plain a => rw [hp y a hb] at h; cases a <;> simp only [lift] at h <;> cases h; exact (hd.plain y _ hb).call _ _ _ rfl
      | out c k x => simp only [seen, hb] at h; cases h
  · intro s k x h
    cases s with
    | bad => cases h; exact ⟨fun _ => rfl, fun _ _ => rfl⟩
    | answer y => obtain ⟨k, e, h1⟩ := hj y; rw [e] at h; cases h; exact ⟨h1, fun _ _ => rfl⟩
    | here y =>
      cases hb : body y with
      | plain a => rw [hp y a hb] at h; cases a <;> simp only [lift] at h <;> cases h; exact (hd.plain y _ hb).join _ _ rfl
      | out c k x => simp only [seen, hb] at h; cases h
  · intro s d k x h
    cases s with
    | bad => cases h
    | answer y => obtain ⟨k, e, -⟩ := hj y; rw [e] at h; cases h
    | here y =>
      cases hb : body y with
      | plain a => rw [hp y a hb] at h; cases a <;> simp only [lift] at h <;> cases h; exact (hd.plain y _ hb).switch _ _ _ rfl
      | out c k x => simp only [seen, hb] at h; cases h
  · intro s l k h
    cases s with
    | bad => cases h
    | answer y => obtain ⟨k, e, -⟩ := hj y; rw [e] at h; cases h
    | here y =>
      cases hb : body y with
      | plain a => rw [hp y a hb] at h; cases a <;> simp only [lift] at h <;> cases h; exact (hd.plain y _ hb).load _ _ rfl
      | out c k x => simp only [seen, hb] at h; cases h
  · intro s l d k h
    cases s with
    | bad => cases h
    | answer y => obtain ⟨k, e, -⟩ := hj y; rw [e] at h; cases h
    | here y =>
      cases hb : body y with
      | plain a => rw [hp y a hb] at h; cases a <;> simp only [lift] at h <;> cases h; exact (hd.plain y _ hb).store _ _ _ rfl
      | out c k x => simp only [seen, hb] at h; cases h

/-- The pending children are expected to return values as in `Qs`. -/
inductive Kids (P : Nat → Option (V → Prop)) : List Nat → List (V → Prop) → Prop
  | nil : Kids P [] []
  | cons {c ks Q Qs} : P c = some Q → Kids P ks Qs → Kids P (c :: ks) (Q :: Qs)

theorem Kids.snoc {P : Nat → Option (V → Prop)} {ks : List Nat} {Qs : List (V → Prop)} {n : Nat} {Q : V → Prop} (h : Kids P ks Qs) (hn : P n = some Q) :
    Kids P (ks ++ [n]) (Qs ++ [Q]) := by
  induction h with
  | nil => exact .cons hn .nil
  | cons h1 _ ih => exact .cons h1 ih

theorem Kids.mono {P P' : Nat → Option (V → Prop)} {ks : List Nat} {Qs : List (V → Prop)} (hm : ∀ c Q, P c = some Q → P' c = some Q) (h : Kids P ks Qs) :
    Kids P' ks Qs := by
  induction h with
  | nil => exact .nil
  | cons h1 _ ih => exact .cons (hm _ _ h1) ih

theorem Kids.length {P : Nat → Option (V → Prop)} {ks : List Nat} {Qs : List (V → Prop)} (h : Kids P ks Qs) : Qs.length = ks.length := by
  induction h with
  | nil => rfl
  | cons _ _ ih => simp only [List.length_cons, ih]

section
variable (body : σ → Act σ V E L) (pend : σ → Nat) (dirty : σ → Prop) (J : List (V → Prop) → (V → Prop) → σ → Prop) (P : Nat → Option (V → Prop))

/-- How many children are pending. -/
def Len : Mode V E → St σ → List Nat → List E → Prop
  | .none, _, _, _ => True
  | .ended _, _, _, _ => True
  | .run, y, ks, es => ks.length = pendS pend y ∧ (es ≠ [] → dirtyS dirty y)
  | .forked _, y, ks, es => ks.length = pendS pend y + 1 ∧ (es ≠ [] → dirtyS dirty y)
  | .called _, y, ks, es => ks.length = pendS pend y ∧ (es ≠ [] → dirtyS dirty y)

/-- Of a task at a `sync_outside` fork. -/
def Hot : Mode V E → St σ → List Nat → List E → Prop
  | .run, .answer y, ks, es => es = [] ∧ (∃ n Q, ks = [n] ∧ P n = some Q) ∧ ∃ c k x, body y = .out c k x
  | .run, .bad, _, _ => False
  | .forked n, .here y, ks, es => ∀ c k x, body y = .out c k x → es = [] ∧ ks = [n] ∧ ∃ Q, P n = some Q
  | _, _, _, _ => True

/-- Of a task that will return a value in `Q`. -/
def Typed (Q : V → Prop) : Mode V E → St σ → List Nat → List E → Prop
  | .none, _, _, _ => False
  | .ended r, _, _, _ => ∃ v, r = .ok v ∧ Q v
  | .run, .here y, ks, es => es = [] ∧ ∃ Qs, Kids P ks Qs ∧ J Qs Q y
  | .run, .answer y, ks, es => es = [] ∧ ∃ n Q' c k x, ks = [n] ∧ P n = some Q' ∧ body y = .out c k x ∧ ∀ v, Q' v → J [] Q (k (some v))
  | .run, .bad, _, _ => False
  | .forked n, .here y, ks, es => es = [] ∧ (∀ c k x, body y = .plain (.fork c k x) → ∃ Qs, Kids P ks Qs ∧ ∀ b, J Qs Q (k b)) ∧
      ∀ c k x, body y = .out c k x → ∃ Q', ks = [n] ∧ P n = some Q' ∧ (∀ v, Q' v → J [] Q (k (some v))) ∧ J [Q'] Q (k none)
  | .forked _, .answer _, _, _ => False
  | .forked _, .bad, _, _ => False
  | .called n, .here y, ks, es => es = [] ∧ ∀ c k x, body y = .plain (.call c k x) → ∃ Q' Qs, P n = some Q' ∧ Kids P ks Qs ∧
      ∀ v, Q' v → J Qs Q (k (some v))
  | .called _, .answer _, _, _ => False
  | .called _, .bad, _, _ => False

/-- Of any other task. -/
def Loose (G : σ → Prop) : Mode V E → St σ → Prop
  | .none, _ => True
  | .ended _, _ => True
  | _, .here y => G y
  | _, .answer y => G y
  | _, .bad => True

structure Ok (G : σ → Prop) (o : Option (V → Prop)) (md : Mode V E) (y : St σ) (ks : List Nat) (es : List E) : Prop where
  len : Len pend dirty md y ks es
  hot : Hot body P md y ks es
  typ : ∀ Q, o = some Q → Typed body J P Q md y ks es
  lax : o = none → Loose G md y

end

variable {body : σ → Act σ V E L} {pend : σ → Nat} {dirty : σ → Prop} {J : List (V → Prop) → (V → Prop) → σ → Prop} {P P' : Nat → Option (V → Prop)} {G : σ → Prop}

theorem Hot.mono {md : Mode V E} {y : St σ} {ks : List Nat} {es : List E} (hm : ∀ c Q, P c = some Q → P' c = some Q) (h : Hot body P md y ks es) :
    Hot body P' md y ks es := by
  unfold Hot at h ⊢
  split
  · obtain ⟨h1, ⟨n, Q, h2, h3⟩, h4⟩ := h; exact ⟨h1, ⟨n, Q, h2, hm _ _ h3⟩, h4⟩
  · exact h
  · intro c k x hb; obtain ⟨h1, h2, Q, h3⟩ := h c k x hb; exact ⟨h1, h2, Q, hm _ _ h3⟩
  · trivial

theorem Typed.mono {Q : V → Prop} {md : Mode V E} {y : St σ} {ks : List Nat} {es : List E} (hm : ∀ c Q, P c = some Q → P' c = some Q)
    (h : Typed body J P Q md y ks es) : Typed body J P' Q md y ks es := by
  unfold Typed at h ⊢
  split
  · exact h
  · exact h
  · obtain ⟨h1, Qs, h2, h3⟩ := h; exact ⟨h1, Qs, h2.mono hm, h3⟩
  · obtain ⟨h1, n, Q', c, k, x, h2, h3, h4, h5⟩ := h; exact ⟨h1, n, Q', c, k, x, h2, hm _ _ h3, h4, h5⟩
  · exact h
  · obtain ⟨h1, h2, h3⟩ := h
    refine ⟨h1, fun c k x hb => ?_, fun c k x hb => ?_⟩
    · obtain ⟨Qs, h4, h5⟩ := h2 c k x hb; exact ⟨Qs, h4.mono hm, h5⟩
    · obtain ⟨Q', h4, h5, h6⟩ := h3 c k x hb; exact ⟨Q', h4, hm _ _ h5, h6⟩
  · exact h
  · exact h
  · obtain ⟨h1, h2⟩ := h
    refine ⟨h1, fun c k x hb => ?_⟩
    obtain ⟨Q', Qs, h4, h5, h6⟩ := h2 c k x hb; exact ⟨Q', Qs, hm _ _ h4, h5.mono hm, h6⟩
  · exact h
  · exact h

theorem Ok.mono {o : Option (V → Prop)} {md : Mode V E} {y : St σ} {ks : List Nat} {es : List E} (hm : ∀ c Q, P c = some Q → P' c = some Q)
    (h : Ok body pend dirty J P G o md y ks es) : Ok body pend dirty J P' G o md y ks es :=
  ⟨h.len, h.hot.mono hm, fun Q e => (h.typ Q e).mono hm, h.lax⟩

def Good (body : σ → Act σ V E L) (pend : σ → Nat) (dirty : σ → Prop) (J : List (V → Prop) → (V → Prop) → σ → Prop) (P : Nat → Option (V → Prop))
    (G : σ → Prop) (a : FJ (St σ) V E L) : Prop := ∀ g, Ok body pend dirty J P G (P g) (a.mode g) (a.st g) (a.kids g) (a.threw g)

theorem Good.fresh {a : FJ (St σ) V E L} (h : Good body pend dirty J P G a) {n : Nat} (hn : a.mode n = .none) : P n = none := by
  cases hp : P n with
  | none => rfl
  | some Q => have := (h n).typ Q hp; rw [hn] at this; exact this.elim

/-- One task goes on. -/
theorem Good.only {a a' : FJ (St σ) V E L} (h : Good body pend dirty J P G a) (f : Nat) (hm : ∀ g, g ≠ f → a'.mode g = a.mode g)
    (hs : ∀ g, g ≠ f → a'.st g = a.st g) (hk : ∀ g, g ≠ f → a'.kids g = a.kids g) (ht : ∀ g, g ≠ f → a'.threw g = a.threw g)
    (hf : Ok body pend dirty J P G (P f) (a'.mode f) (a'.st f) (a'.kids f) (a'.threw f)) : Good body pend dirty J P G a' := by
  intro g
  by_cases e : g = f
  · subst e; exact hf
  · rw [hm g e, hs g e, hk g e, ht g e]; exact h g

theorem set_same {α : Type} (f : Nat → α) (i : Nat) (x : α) : set f i x i = x := if_pos rfl
theorem set_ne {α : Type} (f : Nat → α) {i j : Nat} (x : α) (h : j ≠ i) : set f i x j = f j := if_neg h

/-- There is a new task. -/
theorem Good.add {a a' : FJ (St σ) V E L} (h : Good body pend dirty J P G a) (f n : Nat) (o : Option (V → Prop)) (hn : a.mode n = .none)
    (hm : ∀ g, g ≠ f → g ≠ n → a'.mode g = a.mode g)
    (hs : ∀ g, g ≠ f → g ≠ n → a'.st g = a.st g) (hk : ∀ g, g ≠ f → g ≠ n → a'.kids g = a.kids g)
    (ht : ∀ g, g ≠ f → g ≠ n → a'.threw g = a.threw g)
    (hf : f ≠ n → Ok body pend dirty J (set P n o) G (P f) (a'.mode f) (a'.st f) (a'.kids f) (a'.threw f))
    (hnew : Ok body pend dirty J (set P n o) G o (a'.mode n) (a'.st n) (a'.kids n) (a'.threw n)) : Good body pend dirty J (set P n o) G a' := by
  have hP := h.fresh hn
  intro g
  by_cases e : g = n
  · subst e; rw [set_same]; exact hnew
  · rw [set_ne _ _ e]
    by_cases e' : g = f
    · subst e'; exact hf e
    · rw [hm g e' e, hs g e' e, hk g e' e, ht g e' e]
      exact (h g).mono fun c Q hc => by rw [set_ne _ _ (by rintro rfl; rw [hP] at hc; cases hc)]; exact hc

theorem mono_add {P : Nat → Option (V → Prop)} {n : Nat} {o : Option (V → Prop)} (hP : P n = none) (c : Nat) (Q : V → Prop) (hc : P c = some Q) :
    set P n o c = some Q := by rw [set_ne _ _ (by rintro rfl; rw [hP] at hc; cases hc)]; exact hc

/-- The results of children that do not throw. -/
theorem ended_match {a : FJ (St σ) V E L} (h : Good body pend dirty J P G a) {ks : List Nat} {Qs : List (V → Prop)} {rs : List (Except E V)} (hk : Kids P ks Qs)
    (he : Ended a.mode ks rs) : errs rs = [] ∧ Match Qs (oks rs) := by
  induction hk generalizing rs with
  | nil => cases he; exact ⟨rfl, .nil⟩
  | @cons c ks Q Qs h1 _ ih =>
    cases he with
    | cons hm he =>
      obtain ⟨e1, e2⟩ := ih he
      have := (h c).typ Q h1
      rw [hm] at this
      obtain ⟨v, rfl, hq⟩ := this
      exact ⟨e1, .cons hq e2⟩

end Verif.Sync
