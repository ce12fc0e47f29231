import Verif.Par.Model
import Verif.Mem.Foot

/-! The tasks of the algorithms keep the rules of the runtime, and the rule against races. -/
namespace Verif.Par
open Verif.Algo (Cmd Out Reads Writes NoConflict RaceFree)
open Verif.Mem (Foot Apart Disc)

variable {L V E : Type}

/-- Induction along the control flow. -/
theorem next_ind {P : List (Cmd L V E) → Prop} (case1 : P []) (case2 : ∀ k, P k → P (.halt .ok :: k)) (case3 : ∀ e k, P (.halt (.exn e) :: k))
    (case4 : ∀ k, P (.halt .ub :: k)) (case5 : ∀ w n rs f k, P (.atom w n rs f :: k)) (case6 : ∀ p q k, P (p :: q :: k) → P (.seq p q :: k))
    (case7 : ∀ p q k, P (.par p q :: k)) (k : List (Cmd L V E)) : P k := by
  have key : ∀ (p : Cmd L V E) (k : List (Cmd L V E)), P k → P (p :: k) := by
    intro p
    induction p with
    | halt o =>
      intro k hk
      cases o with
      | ok => exact case2 k hk
      | exn e => exact case3 e k
      | ub => exact case4 k
    | atom w n rs f => exact fun k _ => case5 w n rs f k
    | seq p q ihp ihq => exact fun k hk => case6 p q k (ihp _ (ihq _ hk))
    | par p q => exact fun k _ => case7 p q k
  induction k with
  | nil => exact case1
  | cons p k ih => exact key p k ih

/-- Children forked since the last join. -/
def pend : T L V E → Nat
  | .forked _ _ | .atJoin _ | .stash _ => 1
  | _ => 0

/-- A callee may have thrown since. -/
def dirty : T L V E → Prop
  | .atJoin _ => True
  | _ => False

theorem rd_pend (w : L) (r : Rd L V E) (k : List (Cmd L V E)) : pend (rd w r k) = 0 ∧ ¬ dirty (rd w r k) := by
  rcases r with (_ | _) | _ <;> exact ⟨rfl, id⟩

theorem next_pend (k : List (Cmd L V E)) : pend (next k) = 0 ∧ ¬ dirty (next k) := by
  induction k using next_ind with
  | case1 => exact ⟨rfl, id⟩
  | case2 k ih => exact ih
  | case3 e k => exact ⟨rfl, id⟩
  | case4 k => exact ⟨rfl, id⟩
  | case5 w n rs f k => exact rd_pend _ _ _
  | case6 p q k ih => exact ih
  | case7 p q k => exact ⟨rfl, id⟩

/-- The rules of the runtime are kept. -/
theorem disc : Disc (body : T L V E → _) pend dirty where
  ret s v h := by cases s <;> cases h; exact ⟨rfl, id⟩
  throw s e h := by cases s <;> cases h; exact ⟨rfl, id⟩
  fork s c k x h := by
    cases s <;> cases h
    exact ⟨(next_pend _).1, fun b => ⟨rfl, id⟩, fun e => ⟨rfl, id⟩⟩
  call s c k x h := by
    cases s <;> cases h
    exact ⟨(next_pend _).1, fun b => ⟨rfl, fun _ => trivial⟩, fun e => ⟨rfl, id⟩⟩
  join s k x h := by
    cases s <;> cases h
    · exact ⟨fun _ => (next_pend _).1, fun _ _ => rfl⟩
    · exact ⟨fun _ => rfl, fun _ _ => rfl⟩
  switch s d k x h := by cases s <;> cases h
  load s l k h := by
    cases s <;> cases h
    intro d
    cases d with
    | val v => exact ⟨(rd_pend _ _ _).1, fun h => False.elim h⟩
    | _ => exact ⟨rfl, fun h => h.elim⟩
  store s l d k h := by
    cases s <;> cases h
    exact ⟨(next_pend _).1, fun h => False.elim h⟩

/-- What a program reads or writes. -/
def Acc (p : Cmd L V E) (l : L) : Prop := Reads p l ∨ Writes p l

def AccL (k : List (Cmd L V E)) (l : L) : Prop := ∃ p ∈ k, Acc p l
def WrL (k : List (Cmd L V E)) (l : L) : Prop := ∃ p ∈ k, Writes p l
def FreeL (k : List (Cmd L V E)) : Prop := ∀ p ∈ k, RaceFree p

/-- What is read. -/
def Rd.Asks : Rd L V E → L → Prop
  | .done _, _ => False
  | .ask l g, l' => l' = l ∨ ∃ v, (g v).Asks l'

theorem rdOf_asks (n : Nat) (rs : Fin n → L) (f : (Fin n → V) → Except E V) (l : L) (h : (rdOf n rs f).Asks l) : ∃ i, rs i = l := by
  induction n with
  | zero => exact h.elim
  | succ n ih =>
    rcases h with h | ⟨v, h⟩
    · exact ⟨0, h.symm⟩
    · obtain ⟨i, hi⟩ := ih _ _ h; exact ⟨i.succ, hi⟩

def foot : Foot (T L V E) L where
  I | .ret | .fail _ | .stash _ => True
    | .read _ _ _ k | .write _ _ k | .atJoin k => FreeL k
    | .par p q k => NoConflict p q ∧ RaceFree p ∧ RaceFree q ∧ FreeL k
    | .forked q k => RaceFree q ∧ FreeL k
  R | .ret, _ | .fail _, _ | .stash _, _ => False
    | .read w l g k, x => (Rd.ask l g).Asks x ∨ x = w ∨ AccL k x
    | .write w _ k, x => x = w ∨ AccL k x
    | .par p q k, x => Acc p x ∨ Acc q x ∨ AccL k x
    | .forked q k, x => Acc q x ∨ AccL k x
    | .atJoin k, x => AccL k x
  W | .ret, _ | .fail _, _ | .stash _, _ => False
    | .read w _ _ k, x => x = w ∨ WrL k x
    | .write w _ k, x => x = w ∨ WrL k x
    | .par p q k, x => Writes p x ∨ Writes q x ∨ WrL k x
    | .forked q k, x => Writes q x ∨ WrL k x
    | .atJoin k, x => WrL k x
  Rj | .ret, _ | .fail _, _ | .stash _, _ => False
     | .read w l g k, x => (Rd.ask l g).Asks x ∨ x = w ∨ AccL k x
     | .write w _ k, x => x = w ∨ AccL k x
     | .par p q k, x => Acc p x ∨ Acc q x ∨ AccL k x
     | .forked q _, x => Acc q x
     | .atJoin _, _ => False
  Wj | .ret, _ | .fail _, _ | .stash _, _ => False
     | .read w _ _ k, x => x = w ∨ WrL k x
     | .write w _ k, x => x = w ∨ WrL k x
     | .par p q k, x => Writes p x ∨ Writes q x ∨ WrL k x
     | .forked q _, x => Writes q x
     | .atJoin _, _ => False

theorem acc_cons (p : Cmd L V E) (k : List (Cmd L V E)) (l : L) : AccL (p :: k) l ↔ Acc p l ∨ AccL k l := by
  simp [AccL]

theorem wr_cons (p : Cmd L V E) (k : List (Cmd L V E)) (l : L) : WrL (p :: k) l ↔ Writes p l ∨ WrL k l := by
  simp [WrL]

theorem free_cons (p : Cmd L V E) (k : List (Cmd L V E)) : FreeL (p :: k) ↔ RaceFree p ∧ FreeL k := by
  simp [FreeL]

/-- What a state may access is at most this. -/
structure Within (y : T L V E) (A B : L → Prop) : Prop where
  I : foot.I y
  R : ∀ l, foot.R y l → A l
  W : ∀ l, foot.W y l → B l
  Rj : ∀ l, foot.Rj y l → A l
  Wj : ∀ l, foot.Wj y l → B l

theorem within_fail (e : Dat V E) (A W : L → Prop) : Within (.fail e : T L V E) A W := ⟨trivial, fun _ => False.elim, fun _ => False.elim, fun _ => False.elim, fun _ => False.elim⟩

theorem within_rd (w : L) (r : Rd L V E) (k : List (Cmd L V E)) (hk : FreeL k) :
    Within (rd w r k) (fun l => r.Asks l ∨ l = w ∨ AccL k l) (fun l => l = w ∨ WrL k l) := by
  rcases r with (e | v) | ⟨l, g⟩
  · exact within_fail _ _ _
  · exact ⟨hk, fun _ h => Or.inr h, fun _ h => h, fun _ h => Or.inr h, fun _ h => h⟩
  · exact ⟨hk, fun _ h => h, fun _ h => h, fun _ h => h, fun _ h => h⟩

theorem within_mono {y : T L V E} {A W A' W' : L → Prop} (h : Within y A W) (h1 : ∀ l, A l → A' l) (h2 : ∀ l, W l → W' l) : Within y A' W' :=
  ⟨h.I, fun l hl => h1 l (h.R l hl), fun l hl => h2 l (h.W l hl), fun l hl => h1 l (h.Rj l hl), fun l hl => h2 l (h.Wj l hl)⟩

theorem within_next (k : List (Cmd L V E)) (hk : FreeL k) : Within (next k) (AccL k) (WrL k) := by
  induction k using next_ind with
  | case1 => exact ⟨trivial, fun _ => False.elim, fun _ => False.elim, fun _ => False.elim, fun _ => False.elim⟩
  | case2 k ih =>
    exact within_mono (ih ((free_cons _ _).1 hk).2) (fun l h => (acc_cons _ _ _).2 (Or.inr h)) (fun l h => (wr_cons _ _ _).2 (Or.inr h))
  | case3 e k => exact within_fail _ _ _
  | case4 k => exact within_fail _ _ _
  | case5 w n rs f k =>
    refine within_mono (within_rd w (rdOf n rs f) k ((free_cons _ _).1 hk).2) ?_ ?_
    · rintro l (h | h | h)
      · obtain ⟨i, hi⟩ := rdOf_asks _ _ _ _ h
        exact (acc_cons _ _ _).2 (Or.inl (Or.inl ⟨i, hi⟩))
      · exact (acc_cons _ _ _).2 (Or.inl (Or.inr h))
      · exact (acc_cons _ _ _).2 (Or.inr h)
    · rintro l (h | h)
      · exact (wr_cons _ _ _).2 (Or.inl h)
      · exact (wr_cons _ _ _).2 (Or.inr h)
  | case6 p q k ih =>
    obtain ⟨h1, h2⟩ := (free_cons _ _).1 hk
    refine within_mono (ih ((free_cons _ _).2 ⟨h1.1, (free_cons _ _).2 ⟨h1.2, h2⟩⟩)) ?_ ?_
    · intro l h
      rw [acc_cons, acc_cons] at h
      rw [acc_cons]
      unfold Acc at h ⊢
      simp only [Reads, Writes]
      rcases h with (h | h) | (h | h) | h <;> simp [h]
    · intro l h
      rw [wr_cons, wr_cons] at h
      rw [wr_cons]
      simp only [Writes]
      rcases h with h | h | h <;> simp [h]
  | case7 p q k =>
    obtain ⟨h1, h2⟩ := (free_cons _ _).1 hk
    have ha : ∀ l, Acc p l ∨ Acc q l ∨ AccL k l → AccL (.par p q :: k) l := by
      intro l h
      rw [acc_cons]
      unfold Acc at h ⊢
      simp only [Reads, Writes]
      rcases h with (h | h) | (h | h) | h <;> simp [h]
    have hw : ∀ l, Writes p l ∨ Writes q l ∨ WrL k l → WrL (.par p q :: k) l := by
      intro l h
      rw [wr_cons]
      simp only [Writes]
      rcases h with h | h | h <;> simp [h]
    exact ⟨⟨h1.1, h1.2.1, h1.2.2, h2⟩, ha, hw, ha, hw⟩

theorem within_task (p : Cmd L V E) (hp : RaceFree p) : Within (task p) (Acc p) (Writes p) := by
  refine within_mono (within_next [p] ?_) ?_ ?_
  · intro q hq; rw [List.mem_singleton.1 hq]; exact hp
  · rintro l ⟨q, hq, h⟩; rw [List.mem_singleton.1 hq] at h; exact h
  · rintro l ⟨q, hq, h⟩; rw [List.mem_singleton.1 hq] at h; exact h

theorem apart_of {p q : Cmd L V E} (h : NoConflict p q) : Apart (Acc p) (Writes p) (Acc q) (Writes q) := by
  intro l
  refine ⟨fun h1 h2 => ?_, fun h1 h2 => ?_⟩
  · rcases h2 with h2 | h2
    · exact (h.1 l h1).1 h2
    · exact (h.1 l h1).2 h2
  · rcases h2 with h2 | h2
    · exact h.2 l h1 h2
    · exact (h.1 l h2).2 h1

theorem less_fail (e : Dat V E) (y : T L V E) : foot.LessJ (.fail e) y :=
  ⟨⟨trivial, fun _ => False.elim, fun _ => False.elim⟩, fun _ => False.elim, fun _ => False.elim⟩

theorem within_lessJ {y' y : T L V E} {A W : L → Prop} (h : Within y' A W) (h1 : ∀ l, A l → foot.R y l) (h2 : ∀ l, W l → foot.W y l)
    (h3 : ∀ l, A l → foot.Rj y l) (h4 : ∀ l, W l → foot.Wj y l) : foot.LessJ y' y :=
  ⟨⟨h.I, fun l hl => h1 l (h.R l hl), fun l hl => h2 l (h.W l hl)⟩, fun l hl => h3 l (h.Rj l hl), fun l hl => h4 l (h.Wj l hl)⟩

theorem foot_ok (may : Dat V E → Prop) : (foot : Foot (T L V E) L).Ok body may where
  load y l k hi h := by
    cases y <;> cases h
    rename_i w g k
    refine ⟨Or.inl (Or.inl rfl), Or.inl (Or.inl rfl), fun d => ?_⟩
    cases d with
    | val v =>
      have ha : ∀ x, ((g v).Asks x ∨ x = w ∨ AccL k x) → ((Rd.ask l g).Asks x ∨ x = w ∨ AccL k x) := by
        rintro x (h | h)
        · exact Or.inl (Or.inr ⟨v, h⟩)
        · exact Or.inr h
      exact within_lessJ (within_rd w (g v) k hi) ha (fun _ h => h) ha (fun _ h => h)
    | exn e => exact less_fail _ _
    | ub => exact less_fail _ _
  store y l d k hi h := by
    cases y <;> cases h
    refine ⟨Or.inl rfl, Or.inl rfl, Or.inl rfl, Or.inl rfl, ?_⟩
    exact within_lessJ (within_next _ hi) (fun _ h => Or.inr h) (fun _ h => Or.inr h) (fun _ h => Or.inr h) (fun _ h => Or.inr h)
  fork y c k x hi h := by
    cases y <;> cases h
    rename_i p q k
    obtain ⟨h1, h2, h3, h4⟩ := hi
    have hw := within_task p h2
    refine ⟨⟨⟨hw.I, ?_, ?_⟩, ?_, ?_⟩, fun b => ⟨⟨⟨h3, h4⟩, ?_, ?_⟩, ?_, ?_⟩, fun e _ => less_fail _ _, ?_⟩
    · exact fun l hl => Or.inl (hw.R l hl)
    · exact fun l hl => Or.inl (hw.W l hl)
    · exact fun l hl => Or.inl (hw.R l hl)
    · exact fun l hl => Or.inl (hw.W l hl)
    · exact fun l hl => Or.inr hl
    · exact fun l hl => Or.inr hl
    · exact fun l hl => Or.inr (Or.inl hl)
    · exact fun l hl => Or.inr (Or.inl hl)
    · intro l
      exact ⟨fun e e' => (apart_of h1 l).1 (hw.W l e) e', fun e e' => (apart_of h1 l).2 e (hw.R l e')⟩
  call y c k x hi h := by
    cases y <;> cases h
    rename_i q k
    have hw := within_task q hi.1
    refine ⟨⟨⟨hw.I, ?_, ?_⟩, ?_, ?_⟩, fun b => ⟨⟨hi.2, ?_, ?_⟩, ?_, ?_⟩, fun e _ => ⟨⟨trivial, ?_, ?_⟩, ?_, ?_⟩⟩
    · exact fun l hl => Or.inl (hw.R l hl)
    · exact fun l hl => Or.inl (hw.W l hl)
    · exact fun l hl => hw.R l hl
    · exact fun l hl => hw.W l hl
    · exact fun l hl => Or.inr hl
    · exact fun l hl => Or.inr hl
    all_goals exact fun l hl => hl.elim
  join y k x hi h := by
    cases y <;> cases h
    · rename_i k
      have hw := within_next k hi
      exact ⟨fun _ => ⟨hw.I, hw.R, hw.W⟩, fun e _ => (less_fail e _).toLess⟩
    · exact ⟨fun _ => (less_fail _ _).toLess, fun _ _ => (less_fail _ _).toLess⟩
  switch y d k x hi h := by cases y <;> cases h

end Verif.Par
