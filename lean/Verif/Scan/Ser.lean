import Verif.Scan.Tree

/-! What such tasks compute, when they are run by one thread. -/
namespace Verif.Scan
open Verif.Exn (errs oks)
open Verif.Sync (St seen Match)
open Verif.Mem (SerM put)

variable {L V : Type} [DecidableEq L]

/-- A coroutine run by one thread: it has forked children that returned `ks`. The answer of a `sync_outside` fork may be either. -/
inductive Ex : C L V → List Nat → (L → V) → Nat → (L → V) → Prop
  | ret {r ks m} : Ex (.ret r) ks m r m
  | get {l k ks m r m'} : Ex (k (m l)) ks m r m' → Ex (.get l k) ks m r m'
  | set {l v k ks m r m'} : Ex k ks (put m l v) r m' → Ex (.set l v k) ks m r m'
  | call {c k ks m v m1 r m2} : Ex c [] m v m1 → Ex (k v) ks m1 r m2 → Ex (.call c k) ks m r m2
  | fork {c k ks m v m1 r m2} : Ex c [] m v m1 → Ex k (ks ++ [v]) m1 r m2 → Ex (.fork c k) ks m r m2
  | yes {c k m v m1 r m2} : Ex c [] m v m1 → Ex (k (some v)) [] m1 r m2 → Ex (.out c k) [] m r m2
  | no {c k ks m v m1 r m2} : Ex c [] m v m1 → Ex (k none) (ks ++ [v]) m1 r m2 → Ex (.out c k) ks m r m2
  | join {k ks m r m'} : Ex (k ks) [] m r m' → Ex (.join k) ks m r m'

theorem errs_ok (vs : List Nat) : errs (vs.map (Except.ok : Nat → Except V Nat)) = [] ∧ oks (vs.map (Except.ok : Nat → Except V Nat)) = vs := by
  induction vs with
  | nil => exact ⟨rfl, rfl⟩
  | cons v vs ih => exact ⟨ih.1, by simp only [List.map_cons, oks, ih.2]⟩

theorem Match.snoc {Qs : List (Nat → Prop)} {vs : List Nat} {Q : Nat → Prop} {v : Nat} (h : Match Qs vs) (hv : Q v) : Match (Qs ++ [Q]) (vs ++ [v]) := by
  induction h with
  | nil => exact .cons hv .nil
  | cons h1 _ ih => exact .cons h1 ih

variable [Inhabited V]

/-- What is known of the task when it starts, -/
def Before (Q : Nat → Prop) (ks : List Nat) : St (T L V) → Prop
  | .here y => ∃ Qs, Match Qs ks ∧ J Qs Q y
  | .answer (.go false (.out _ k)) => ∃ v, ks = [v] ∧ Ty (k (some v)) [] Q
  | _ => False

/-- and what follows. -/
def After (ks : List Nat) (m : L → V) (v : Nat) (m' : L → V) : St (T L V) → Prop
  | .here (.go _ c) => Ex c ks m v m'
  | .answer (.go false (.out _ k)) => ∃ u, ks = [u] ∧ Ex (k (some u)) [] m v m'
  | _ => False

omit [DecidableEq L] in
theorem before_answer {Q : Nat → Prop} {ks : List Nat} {y : T L V} (h : Before Q ks (.answer y)) : ∃ c k v, y = .go false (.out c k) ∧ ks = [v] ∧ Ty (k (some v)) [] Q := by
  cases y with
  | lost _ => exact h.elim
  | fail => exact h.elim
  | go p c =>
    cases c <;> cases p <;> first | exact h.elim | skip
    obtain ⟨v, h1, h2⟩ := h
    exact ⟨_, _, v, rfl, h1, h2⟩

theorem ser {x : St (T L V)} {rs : List (Except V Nat)} {es : List V} {m m' : L → V} {r : Except V Nat}
    (h : SerM (seen body) (fun _ => False) x rs es m r m') :
    ∀ (ks : List Nat) (Q : Nat → Prop), rs = ks.map .ok → es = [] → Before Q ks x → ∃ v, r = .ok v ∧ Q v ∧ After ks m v m' x := by
  induction h with
  | ret hb =>
    intro ks Q hr he hx
    obtain ⟨y, rfl, hb'⟩ := Sync.seen_ret hb
    obtain ⟨Qs, -, hj⟩ := hx
    refine ⟨_, rfl, calm.ret hj hb', ?_⟩
    unfold body at hb'; split at hb' <;> cases hb'
    exact .ret
  | throw hb =>
    intro ks Q hr he hx
    obtain ⟨y, rfl, hb'⟩ := Sync.seen_throw hb
    obtain ⟨Qs, -, hj⟩ := hx
    exact absurd hb' (calm.throw hj)
  | @fork x c k h rs es m m1 m2 y r b hb _ _ ih1 ih2 =>
    intro ks Q hr he hx
    replace hb := Sync.seen_fork hb
    obtain ⟨y, c0, rfl, rfl, hb'⟩ := hb
    obtain ⟨Qs, hm, hj⟩ := hx
    rcases hb' with ⟨k0, x0, hb', rfl, -⟩ | ⟨k0, x0, hb', rfl, -⟩
    · obtain ⟨⟨Q', h1, h2⟩, -⟩ := calm.fork hj hb'
      obtain ⟨v, rfl, hv, a1⟩ := ih1 [] Q' rfl rfl ⟨[], .nil, h1⟩
      obtain ⟨u, rfl, hu, a2⟩ := ih2 (ks ++ [v]) Q (by rw [hr]; simp) he ⟨_, Match.snoc hm hv, h2 b⟩
      refine ⟨u, rfl, hu, ?_⟩
      unfold body at hb'; split at hb' <;> cases hb'
      exact .fork a1 a2
    · unfold body at hb'; split at hb' <;> cases hb'
      rename_i c0 k
      obtain ⟨-, rfl, Q', h1, h2, h3⟩ := hj
      cases hm
      obtain ⟨v, rfl, hv, a1⟩ := ih1 [] Q' rfl rfl ⟨[], .nil, by simp, h1⟩
      cases b
      · obtain ⟨u, rfl, hu, a2⟩ := ih2 [v] Q (by rw [hr]; rfl) he ⟨[Q'], .cons hv .nil, by simp, h3⟩
        exact ⟨u, rfl, hu, .no a1 a2⟩
      · obtain ⟨u, rfl, hu, u', e, a2⟩ := ih2 [v] Q (by rw [hr]; rfl) he ⟨v, rfl, h2 v hv⟩
        cases e
        exact ⟨u, rfl, hu, .yes a1 a2⟩
  | @call x c k h rs es m m1 m2 v r hb _ _ ih1 ih2 =>
    intro ks Q hr he hx
    obtain ⟨y, c0, k0, x0, rfl, hb', rfl, rfl, -⟩ := Sync.seen_call hb
    obtain ⟨Qs, hm, hj⟩ := hx
    obtain ⟨⟨Q', h1, h2⟩, -⟩ := calm.call hj hb'
    obtain ⟨v', e, hv, a1⟩ := ih1 [] Q' rfl rfl ⟨[], .nil, h1⟩
    cases e
    obtain ⟨u, rfl, hu, a2⟩ := ih2 ks Q hr he ⟨Qs, hm, h2 _ hv⟩
    refine ⟨u, rfl, hu, ?_⟩
    unfold body at hb'; split at hb' <;> cases hb'
    exact .call a1 a2
  | @callThrew x c k h rs es m m1 m2 e r hb _ _ ih1 ih2 =>
    intro ks Q hr he hx
    obtain ⟨y, c0, k0, x0, rfl, hb', rfl, rfl, -⟩ := Sync.seen_call hb
    obtain ⟨Qs, hm, hj⟩ := hx
    obtain ⟨⟨Q', h1, h2⟩, -⟩ := calm.call hj hb'
    obtain ⟨v', e, hv, -⟩ := ih1 [] Q' rfl rfl ⟨[], .nil, h1⟩
    cases e
  | join hb h0 _ ih =>
    intro ks Q hr he hx
    subst hr
    rw [(errs_ok ks).2] at ih
    rcases Sync.seen_join hb with ⟨y, k0, x0, rfl, hb', rfl, rfl⟩ | ⟨y, c0, k0, x0, rfl, hb', rfl, rfl⟩ | ⟨y, a, rfl, e⟩ | rfl
    · obtain ⟨Qs, hm, hj⟩ := hx
      obtain ⟨u, rfl, hu, a⟩ := ih [] Q rfl rfl ⟨[], .nil, calm.join hj hb' ks hm⟩
      refine ⟨u, rfl, hu, ?_⟩
      unfold body at hb'; split at hb' <;> cases hb'
      · exact .join a
      · exact a.elim
    · unfold body at hb'; split at hb' <;> cases hb'
      obtain ⟨v, rfl, hj⟩ := hx
      obtain ⟨u, rfl, hu, a⟩ := ih [] Q rfl rfl ⟨[], .nil, by simp, hj⟩
      exact ⟨u, rfl, hu, v, rfl, a⟩
    · obtain ⟨c, k, v, rfl, -⟩ := before_answer hx
      cases e
    · exact hx.elim
  | rethrow hb he' _ ih =>
    intro ks Q hr he hx
    subst hr he
    rw [(errs_ok ks).1] at he'
    cases he'
  | switch hb _ ih =>
    obtain ⟨y, k0, x0, rfl, hb', rfl, rfl⟩ := Sync.seen_switch hb
    unfold body at hb'; split at hb' <;> cases hb'
  | forkFails e he0 hb _ ih => exact he0.elim
  | callFails e he0 hb _ ih => exact he0.elim
  | switchFails e he0 hb _ ih => exact he0.elim
  | load hb _ ih =>
    intro ks Q hr he hx
    obtain ⟨y, k0, rfl, hb', rfl⟩ := Sync.seen_load hb
    obtain ⟨Qs, hm, hj⟩ := hx
    obtain ⟨u, rfl, hu, a⟩ := ih ks Q hr he ⟨Qs, hm, calm.load hj hb' _⟩
    refine ⟨u, rfl, hu, ?_⟩
    unfold body at hb'; split at hb' <;> cases hb'
    exact .get a
  | store hb _ ih =>
    intro ks Q hr he hx
    obtain ⟨y, k0, rfl, hb', rfl⟩ := Sync.seen_store hb
    obtain ⟨Qs, hm, hj⟩ := hx
    obtain ⟨u, rfl, hu, a⟩ := ih ks Q hr he ⟨Qs, hm, calm.store hj hb'⟩
    refine ⟨u, rfl, hu, ?_⟩
    unfold body at hb'; split at hb' <;> cases hb'
    exact .set a

end Verif.Scan
