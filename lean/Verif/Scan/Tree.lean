import Verif.Scan.Model
import Verif.Sync.Props

/-! Tasks of this form: the rules they keep, what they access, what they compute. -/
namespace Verif.Scan
open Verif.Sync (Calm Safe Free Match St seen pendS dirtyS okS)
open Verif.Mem (Foot Apart SerM)

variable {L V : Type} [Inhabited V]

def pend : T L V → Nat
  | .go p _ => p.toNat
  | .lost p => p.toNat
  | .fail => 0

def dirty : T L V → Prop
  | .lost _ => True
  | _ => False

theorem disc : Sync.Disc (body : T L V → _) pend dirty where
  plain y a h := by
    constructor
    · rintro v rfl
      unfold body at h
      split at h <;> cases h
      exact ⟨rfl, id⟩
    · rintro v rfl
      unfold body at h
      split at h <;> cases h
      exact ⟨rfl, id⟩
    · rintro c k x rfl
      unfold body at h
      split at h <;> cases h
      exact ⟨rfl, fun b => ⟨rfl, fun h => h.elim⟩, fun e => ⟨rfl, fun h => h.elim⟩⟩
    · rintro c k x rfl
      unfold body at h
      split at h <;> cases h
      refine ⟨rfl, fun r => ?_, fun e => ⟨rfl, fun h => h.elim⟩⟩
      cases r with
      | none => exact ⟨rfl, fun _ => trivial⟩
      | some r => exact ⟨rfl, by rintro (h | h); cases h; exact h⟩
    · rintro k x rfl
      unfold body at h
      split at h <;> cases h <;> exact ⟨fun l => rfl, fun e l => rfl⟩
    · rintro d k x rfl
      unfold body at h
      split at h <;> cases h
    · rintro l k rfl
      unfold body at h
      split at h <;> cases h
      exact fun d => ⟨rfl, id⟩
    · rintro l d k rfl
      unfold body at h
      split at h <;> cases h
      exact ⟨rfl, id⟩
  out := by
    constructor
    · intro y c k x h; unfold body at h; split at h <;> cases h; exact ⟨rfl, id, rfl⟩
    · intro y c k x v h; unfold body at h; split at h <;> cases h; rfl
    · intro y c k x h; unfold body at h; split at h <;> cases h; rfl
    · intro y c k x v h; unfold body at h; split at h <;> cases h; rfl

/-- `Ty c Qs Q`: with pending children that return values as in `Qs`, `c` fails no assertion and returns a value in `Q`. -/
def Ty : C L V → List (Nat → Prop) → (Nat → Prop) → Prop
  | .ret r, Qs, Q => Qs = [] ∧ Q r
  | .ub, _, _ => False
  | .get _ k, Qs, Q => ∀ v, Ty (k v) Qs Q
  | .set _ _ k, Qs, Q => Ty k Qs Q
  | .call c k, Qs, Q => ∃ Q', Ty c [] Q' ∧ ∀ r, Q' r → Ty (k r) Qs Q
  | .fork c k, Qs, Q => Qs = [] ∧ ∃ Q', Ty c [] Q' ∧ Ty k [Q'] Q
  | .out c k, Qs, Q => Qs = [] ∧ ∃ Q', Ty c [] Q' ∧ (∀ r, Q' r → Ty (k (some r)) [] Q) ∧ Ty (k none) [Q'] Q
  | .join k, Qs, Q => ∀ vs, Match Qs vs → Ty (k vs) [] Q

def J (Qs : List (Nat → Prop)) (Q : Nat → Prop) : T L V → Prop
  | .go p c => (p = false ↔ Qs = []) ∧ Ty c Qs Q
  | .lost _ => False
  | .fail => False

theorem calm : Calm (body : T L V → _) (fun _ => False) J where
  ret {Qs Q y v} hJ h := by
    unfold body at h; split at h <;> cases h
    exact hJ.2.2
  throw {Qs Q y e} hJ h := by
    unfold body at h; split at h <;> cases h
    exact hJ
  fork {Qs Q y c k x} hJ h := by
    unfold body at h; split at h <;> cases h
    obtain ⟨h1, rfl, Q', h2, h3⟩ := hJ
    exact ⟨⟨Q', ⟨by simp, h2⟩, fun b => ⟨by simp, h3⟩⟩, fun _ h => h.elim⟩
  call {Qs Q y c k x} hJ h := by
    unfold body at h; split at h <;> cases h
    obtain ⟨h1, Q', h2, h3⟩ := hJ
    exact ⟨⟨Q', ⟨by simp, h2⟩, fun v hv => ⟨h1, h3 v hv⟩⟩, fun _ h => h.elim⟩
  join {Qs Q y k x} hJ h vs hm := by
    match y, hJ, h with
    | .go false (.fork _ _), _, h => cases h
    | .go false (.out _ _), _, h => cases h
    | .go false (.join _), hJ, h => cases h; exact ⟨by simp, hJ.2 vs hm⟩
    | .go true (.join _), hJ, h => cases h; exact ⟨by simp, hJ.2 vs hm⟩
    | .lost _, hJ, _ => exact hJ.elim
    | .fail, hJ, _ => exact hJ.elim
    | .go p .ub, hJ, _ => exact hJ.2.elim
    | .go true (.ret r), hJ, _ => exact absurd (hJ.1.2 hJ.2.1) (by simp)
    | .go true (.fork _ _), hJ, _ => exact absurd (hJ.1.2 hJ.2.1) (by simp)
    | .go true (.out _ _), hJ, _ => exact absurd (hJ.1.2 hJ.2.1) (by simp)
  switch {Qs Q y d k x} hJ h := by unfold body at h; split at h <;> cases h
  load {Qs Q y l k} hJ h d := by
    unfold body at h; split at h <;> cases h
    exact ⟨hJ.1, hJ.2 d⟩
  store {Qs Q y l d k} hJ h := by
    unfold body at h; split at h <;> cases h
    exact hJ
  out {Q y c k x} hJ h := by
    unfold body at h; split at h <;> cases h
    obtain ⟨h1, -, Q', h2, h3, h4⟩ := hJ
    exact ⟨⟨Q', ⟨by simp, h2⟩, (fun v hv => ⟨by simp, h3 v hv⟩), by simp, h4⟩, fun _ h => h.elim⟩

/-- What is accessed. -/
def Acc : C L V → L → Prop
  | .ret _, _ => False
  | .ub, _ => False
  | .get l' k, l => l = l' ∨ ∃ v, Acc (k v) l
  | .set l' _ k, l => l = l' ∨ Acc k l
  | .call c k, l => Acc c l ∨ ∃ r, Acc (k r) l
  | .fork c k, l => Acc c l ∨ Acc k l
  | .out c k, l => Acc c l ∨ ∃ o, Acc (k o) l
  | .join k, l => ∃ vs, Acc (k vs) l

/-- What is written. -/
def Wr : C L V → L → Prop
  | .ret _, _ => False
  | .ub, _ => False
  | .get _ k, l => ∃ v, Wr (k v) l
  | .set l' _ k, l => l = l' ∨ Wr k l
  | .call c k, l => Wr c l ∨ ∃ r, Wr (k r) l
  | .fork c k, l => Wr c l ∨ Wr k l
  | .out c k, l => Wr c l ∨ ∃ o, Wr (k o) l
  | .join k, l => ∃ vs, Wr (k vs) l

/-- The same, before the next join. -/
def AccJ : C L V → L → Prop
  | .ret _, _ => False
  | .ub, _ => False
  | .get l' k, l => l = l' ∨ ∃ v, AccJ (k v) l
  | .set l' _ k, l => l = l' ∨ AccJ k l
  | .call c k, l => Acc c l ∨ ∃ r, AccJ (k r) l
  | .fork c k, l => Acc c l ∨ AccJ k l
  | .out c k, l => Acc c l ∨ AccJ (k none) l
  | .join _, _ => False

def WrJ : C L V → L → Prop
  | .ret _, _ => False
  | .ub, _ => False
  | .get _ k, l => ∃ v, WrJ (k v) l
  | .set l' _ k, l => l = l' ∨ WrJ k l
  | .call c k, l => Wr c l ∨ ∃ r, WrJ (k r) l
  | .fork c k, l => Wr c l ∨ WrJ k l
  | .out c k, l => Wr c l ∨ WrJ (k none) l
  | .join _, _ => False

/-- No child conflicts with what its parent does before it joins it. -/
def NoRace : C L V → Prop
  | .ret _ => True
  | .ub => True
  | .get _ k => ∀ v, NoRace (k v)
  | .set _ _ k => NoRace k
  | .call c k => NoRace c ∧ ∀ r, NoRace (k r)
  | .fork c k => NoRace c ∧ NoRace k ∧ Apart (Acc c) (Wr c) (AccJ k) (WrJ k)
  | .out c k => NoRace c ∧ (∀ o, NoRace (k o)) ∧ Apart (Acc c) (Wr c) (AccJ (k none)) (WrJ (k none))
  | .join k => ∀ vs, NoRace (k vs)

/-- The rule of Verif.Mem.Foot. -/
def foot : Foot (St (T L V)) L where
  I | .here (.go _ c) => NoRace c
    | .answer (.go _ (.out _ k)) => ∀ r, NoRace (k (some r))
    | _ => True
  R | .here (.go _ c), l => Acc c l
    | .answer (.go _ (.out _ k)), l => ∃ r, Acc (k (some r)) l
    | _, _ => False
  W | .here (.go _ c), l => Wr c l
    | .answer (.go _ (.out _ k)), l => ∃ r, Wr (k (some r)) l
    | _, _ => False
  Rj | .here (.go _ c), l => AccJ c l
     | _, _ => False
  Wj | .here (.go _ c), l => WrJ c l
     | _, _ => False

omit [Inhabited V] in
theorem none_less (y : St (T L V)) : foot.LessJ (.here .fail) y := ⟨⟨trivial, fun _ h => h.elim, fun _ h => h.elim⟩, fun _ h => h.elim, fun _ h => h.elim⟩
omit [Inhabited V] in
theorem lost_less (p : Bool) (y : St (T L V)) : foot.LessJ (.here (.lost p)) y := ⟨⟨trivial, fun _ h => h.elim, fun _ h => h.elim⟩, fun _ h => h.elim, fun _ h => h.elim⟩
omit [Inhabited V] in
theorem bad_less (y : St (T L V)) : foot.LessJ .bad y := ⟨⟨trivial, fun _ h => h.elim, fun _ h => h.elim⟩, fun _ h => h.elim, fun _ h => h.elim⟩

theorem foot_ok : (foot : Foot (St (T L V)) L).Ok (seen body) (fun _ => False) where
  load s l k hi h := by
    obtain ⟨y, k0, rfl, hb, rfl⟩ := Sync.seen_load h
    unfold body at hb; split at hb <;> cases hb
    exact ⟨.inl rfl, .inl rfl, fun d => ⟨⟨hi d, fun l h => .inr ⟨d, h⟩, fun l h => ⟨d, h⟩⟩, fun l h => .inr ⟨d, h⟩, fun l h => ⟨d, h⟩⟩⟩
  store s l d k hi h := by
    obtain ⟨y, k0, rfl, hb, rfl⟩ := Sync.seen_store h
    unfold body at hb; split at hb <;> cases hb
    exact ⟨.inl rfl, .inl rfl, .inl rfl, .inl rfl, ⟨⟨hi, fun l h => .inr h, fun l h => .inr h⟩, fun l h => .inr h, fun l h => .inr h⟩⟩
  fork s c k x hi h := by
    replace h := Sync.seen_fork h
    obtain ⟨y, c0, rfl, rfl, h⟩ := h
    rcases h with ⟨k0, x0, hb, rfl, rfl⟩ | ⟨k0, x0, hb, rfl, rfl⟩
    · unfold body at hb; split at hb <;> cases hb
      obtain ⟨h1, h2, h3⟩ := hi
      exact ⟨⟨⟨h1, fun l h => .inl h, fun l h => .inl h⟩, fun l h => .inl h, fun l h => .inl h⟩,
        (fun b => ⟨⟨h2, fun l h => .inr h, fun l h => .inr h⟩, fun l h => .inr h, fun l h => .inr h⟩), (fun e h => h.elim), h3⟩
    · unfold body at hb; split at hb <;> cases hb
      obtain ⟨h1, h2, h3⟩ := hi
      refine ⟨⟨⟨h1, fun l h => .inl h, fun l h => .inl h⟩, fun l h => .inl h, fun l h => .inl h⟩, (fun b => ?_), (fun e h => h.elim), h3⟩
      cases b
      · exact ⟨⟨h2 none, fun l h => .inr ⟨_, h⟩, fun l h => .inr ⟨_, h⟩⟩, fun l h => .inr h, fun l h => .inr h⟩
      · exact ⟨⟨fun r => h2 _, fun l ⟨r, h⟩ => .inr ⟨_, h⟩, fun l ⟨r, h⟩ => .inr ⟨_, h⟩⟩, fun l h => h.elim, fun l h => h.elim⟩
  call s c k x hi h := by
    obtain ⟨y, c0, k0, x0, rfl, hb, rfl, rfl, rfl⟩ := Sync.seen_call h
    unfold body at hb; split at hb <;> cases hb
    obtain ⟨h1, h2⟩ := hi
    refine ⟨⟨⟨h1, fun l h => .inl h, fun l h => .inl h⟩, fun l h => .inl h, fun l h => .inl h⟩, (fun r => ?_), fun e h => h.elim⟩
    cases r with
    | none => exact lost_less _ _
    | some r => exact ⟨⟨h2 r, fun l h => .inr ⟨_, h⟩, fun l h => .inr ⟨_, h⟩⟩, fun l h => .inr ⟨_, h⟩, fun l h => .inr ⟨_, h⟩⟩
  join s k x hi h := by
    rcases Sync.seen_join h with ⟨y, k0, x0, rfl, hb, rfl, rfl⟩ | ⟨y, c0, k0, x0, rfl, hb, rfl, rfl⟩ | ⟨y, a, rfl, e⟩ | rfl
    · unfold body at hb; split at hb <;> cases hb
      · exact ⟨fun vs => ⟨hi vs, fun l h => ⟨vs, h⟩, fun l h => ⟨vs, h⟩⟩, fun e l => (none_less _).toLess⟩
      · exact ⟨fun vs => (none_less _).toLess, fun e l => (none_less _).toLess⟩
    · unfold body at hb; split at hb <;> cases hb
      refine ⟨fun vs => ?_, fun e l => (bad_less _).toLess⟩
      match vs with
      | [] => exact (bad_less _).toLess
      | [r] => exact ⟨hi r, fun l h => ⟨r, h⟩, fun l h => ⟨r, h⟩⟩
      | _ :: _ :: _ => exact (bad_less _).toLess
    · simp only [seen, e] at h; cases h; exact ⟨fun vs => (bad_less _).toLess, fun e l => (bad_less _).toLess⟩
    · cases h; exact ⟨fun vs => (bad_less _).toLess, fun e l => (bad_less _).toLess⟩
  switch s d k x hi h := by
    obtain ⟨y, k0, x0, rfl, hb, rfl, rfl⟩ := Sync.seen_switch h
    unfold body at hb; split at hb <;> cases hb

end Verif.Scan
