import Verif.Hb.Closed

/-!
The order of the program is transitive, and grows.
-/
namespace Verif.Hb
open Verif.Runtime (State Res Fr Pc Loc Link Alive Few forkPar upd upd_apply upd_same upd_ne maxU16 Ev)
open Verif.Exn (XS Choice)
open Verif.Mem (MS Act)
variable {σ V E L : Type}

structure Ord.Every (P : List Nat → Prop) (g : Ord) : Prop where
  L : ∀ f, P (g.L f)
  D : ∀ f, P (g.D f)
  T : ∀ t, P (g.T t)

section
variable {P Q : List Nat → Prop} {g : Ord}

theorem Ord.Every.imp (e : g.Every P) (i : ∀ k, P k → Q k) : g.Every Q := ⟨fun f => i _ (e.L f), fun f => i _ (e.D f), fun t => i _ (e.T t)⟩

theorem every_merge {body : σ → Act σ V E L} {w : Nat} {ch : Choice E} {x x' : XS σ V E} (e : g.Every P) (h0 : P []) (h2 : ∀ k k', P k → P k' → P (k ++ k')) :
    (merge body w ch x x' g).Every P := by
  have j : ∀ f, (g.join f).Every P := fun f => ⟨every_upd e.L (h2 _ _ (e.D f) (e.L f)), every_upd e.D h0, e.T⟩
  have t : ∀ f, (g.told f).Every P := fun f => ⟨every_upd e.L (h2 _ _ (e.L _) (e.L f)), e.D, e.T⟩
  unfold merge
  repeat' split
  all_goals first | exact j _ | exact t _ | exact e

theorem every_post {body : σ → Act σ V E L} {w : Nat} {ch : Choice E} {x : XS σ V E} (e : g.Every P) (h0 : P []) (h2 : ∀ k k', P k → P k' → P (k ++ k')) :
    (post body w ch x g).Every P := by
  have en : ∀ f, (g.ended f).Every P := fun f => by
    unfold Ord.ended
    split
    · exact e
    · exact ⟨e.L, every_upd e.D (h2 _ _ (e.L f) (e.D _)), e.T⟩
    · exact ⟨every_upd e.L (h2 _ _ (e.L f) (e.L _)), e.D, e.T⟩
  have fk : ∀ p c, (g.fork p c).Every P := fun p c => ⟨every_upd e.L (e.L p), every_upd e.D h0, e.T⟩
  have cl : ∀ p c, (g.call p c).Every P := fun p c => ⟨every_upd e.L (e.L p), every_upd e.D h0, e.T⟩
  unfold post
  repeat' split
  all_goals first | exact en _ | exact fk _ _ | exact cl _ _ | exact e

end

/-- It has all that the program puts before what it has. -/
def Clb (n : Nat) (tr : List (Rec L)) (k : List Nat) : Prop := (∀ e ∈ k, e < n) ∧ ∀ r ∈ tr, r.no ∈ k → r.before ⊆ k

theorem clb_nil {n : Nat} {tr : List (Rec L)} : Clb n tr [] := ⟨fun _ h => absurd h (by simp), fun _ _ h => absurd h (by simp)⟩
theorem clb_append {n : Nat} {tr : List (Rec L)} (k k' : List Nat) (h : Clb n tr k) (h' : Clb n tr k') : Clb n tr (k ++ k') :=
  ⟨fun e he => (List.mem_append.1 he).elim (h.1 e) (h'.1 e), fun r hr he => (List.mem_append.1 he).elim (fun h1 _ h2 => List.mem_append.2 (.inl (h.2 r hr h1 h2)))
    fun h1 _ h2 => List.mem_append.2 (.inr (h'.2 r hr h1 h2))⟩
theorem clb_cons {n : Nat} {tr : List (Rec L)} (ht : ∀ r ∈ tr, r.no < n) {k : List Nat} (h : Clb (n + 1) tr k) : Clb (n + 1) tr (n :: k) :=
  ⟨fun e he => (List.mem_cons.1 he).elim (fun h => by omega) (h.1 e), fun r hr he => (List.mem_cons.1 he).elim (fun h1 => by have := ht r hr; omega)
    fun h1 _ h2 => List.mem_cons_of_mem _ (h.2 r hr h1 h2)⟩
theorem clb_up {n : Nat} {tr : List (Rec L)} (k : List Nat) (h : Clb n tr k) : Clb (n + 1) tr k := ⟨fun e he => Nat.lt_succ_of_lt (h.1 e he), h.2⟩
/-- A step is recorded that the old ones do not have. -/
theorem clb_log {n : Nat} {tr : List (Rec L)} {r0 : Rec L} (hn : r0.no = n) (k : List Nat) (h : Clb n tr k) : Clb (n + 1) (r0 :: tr) k :=
  ⟨fun e he => Nat.lt_succ_of_lt (h.1 e he), fun r hr he => by
    rcases List.mem_cons.1 hr with e | hr
    · have := h.1 _ he; rw [e] at this; omega
    · exact h.2 r hr he⟩

variable [Inhabited E] [DecidableEq L] {body : σ → Act σ V E L} {pend : σ → Nat} {dirty : σ → Prop} {may : E → Prop} {ok : (σ → Prop) → σ → Prop} {m : L → E}

theorem reach_clb {a : HS σ V E L} (h : Reach body pend may ok m a) : a.g.Every (Clb a.h.n a.tr) := by
  induction h with
  | start y => exact ⟨fun _ => clb_nil, fun _ => clb_nil, fun _ => clb_nil⟩
  | @submit a c t w h0 hf hp ho ih =>
    have e := ih.imp (clb_log (r0 := ⟨a.h.n, a.s.x.c.nf, a.h.n :: a.h.kt t, a.g.T t, none, some (a.s.x.c.nf, true)⟩) rfl)
    have hT : Clb (a.h.n + 1) (⟨a.h.n, a.s.x.c.nf, a.h.n :: a.h.kt t, a.g.T t, none, some (a.s.x.c.nf, true)⟩ :: a.tr) (a.h.n :: a.g.T t) := by
      refine ⟨fun e he => (List.mem_cons.1 he).elim (fun h => by omega) fun h => Nat.lt_succ_of_lt ((ih.T t).1 e h), fun r hr he => ?_⟩
      rcases List.mem_cons.1 hr with e1 | hr
      · rw [e1]; exact fun _ h => List.mem_cons_of_mem _ h
      · rcases List.mem_cons.1 he with h1 | h1
        · have := (reach_trans h0).no r hr; omega
        · exact fun _ h => List.mem_cons_of_mem _ ((ih.T t).2 r hr h1 h)
    refine ⟨every_upd e.L ?_, every_upd e.D clb_nil, every_upd e.T hT⟩
    simp only [Ord.thread, upd_same]
    exact hT
  | @step a a' w ch h0 hf hch hs ih =>
    unfold step at hs
    split at hs <;> cases hs
    rename_i s' hs
    have hn : (sync body w ch a.s.x a.h).n = a.h.n + 1 := n_sync
    have e0 : (merge body w ch a.s.x s'.x a.g).Every (Clb a.h.n a.tr) := every_merge ih clb_nil clb_append
    cases hw : who w ch a.s.x with
    | none =>
      simp only [log, order, hw, hn]
      exact (every_post e0 clb_nil clb_append).imp clb_up
    | some f =>
      simp only [log, order, hw, hn]
      have e := e0.imp (clb_log (r0 := ⟨a.h.n, f, (sync body w ch a.s.x a.h).kn w, (merge body w ch a.s.x s'.x a.g).L f, access body w a.s.x, counter body w ch a.s.x⟩) rfl)
      refine every_post ⟨every_upd e.L ?_, e.D, e.T⟩ clb_nil clb_append
      refine ⟨fun e he => (List.mem_cons.1 he).elim (fun h => by omega) fun h => Nat.lt_succ_of_lt ((e0.L f).1 e h), fun r hr he => ?_⟩
      rcases List.mem_cons.1 hr with e1 | hr
      · rw [e1]; exact fun _ h => List.mem_cons_of_mem _ h
      · rcases List.mem_cons.1 he with h1 | h1
        · have := (reach_trans h0).no r hr; omega
        · exact fun _ h => List.mem_cons_of_mem _ ((e0.L f).2 r hr h1 h)
  | @wait a a' t f h0 hs ih =>
    unfold wait at hs
    split at hs <;> cases hs
    have e := ih.imp clb_up
    refine ⟨e.L, e.D, every_upd (every_upd e.T (clb_append _ _ (e.L f) (e.T t))) (clb_cons (reach_trans h0).no ?_)⟩
    simp only [Ord.saw, upd_same]
    exact clb_append _ _ (e.L f) (e.T t)
  | @other a t h0 ih =>
    have e := ih.imp clb_up
    exact ⟨e.L, e.D, every_upd e.T (clb_cons (reach_trans h0).no (e.T t))⟩
  | @meet a t u h0 ih =>
    have e := ih.imp clb_up
    refine ⟨e.L, e.D, every_upd (every_upd e.T (clb_append _ _ (e.T u) (e.T t))) (clb_cons (reach_trans h0).no ?_)⟩
    simp only [upd_same]
    exact clb_append _ _ (e.T u) (e.T t)

omit [Inhabited E] [DecidableEq L] in
/-- The order of a task grows, except if it is new. -/
theorem order_mono {w : Nat} {ch : Choice E} {a : HS σ V E L} {x' : XS σ V E} {p : Nat} (hp : p ≠ a.s.x.c.nf) : a.g.L p ⊆ (order body w ch a x').L p := by
  have h1 := merge_mono body w ch a.s.x x' a.g p
  have h2 : ∀ g : Ord, g.L p ⊆ (post body w ch a.s.x g).L p := fun g => by
    have en : ∀ f, g.L p ⊆ (g.ended f).L p := fun f => by
      unfold Ord.ended
      split
      · exact fun _ h => h
      · exact fun _ h => h
      · intro e he
        simp only [upd_apply]; split
        · rename_i e'; subst e'; exact List.mem_append.2 (.inr he)
        · exact he
    unfold post
    repeat' split
    all_goals first | exact en _ | exact fun _ h => h | (simp only [Ord.fork, Ord.call, upd_ne _ _ hp]; exact fun _ h => h)
  unfold order
  dsimp only
  refine fun e he => h2 _ ?_
  split
  · simp only [Ord.act, upd_apply]; split
    · rename_i e'; subst e'; exact List.mem_cons_of_mem _ (h1 he)
    · exact h1 he
  · exact h1 he

end Verif.Hb
