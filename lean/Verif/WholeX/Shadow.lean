import Verif.WholeX.Sim

/-! Every reached state, and every infinite schedule, of a whole program with exceptions corresponds to one of a whole program without. -/
namespace Verif.WholeX
open Verif.Runtime (State Res Ev)
open Verif.LazyPool (Cfg St)
open Verif.EventCount (upd upd_same upd_ne upd_apply)
open Verif.Exn (XS Act Choice Allowed T Orc tgt norm Rel orcBefore seen Disc disc_tgt Ends)
open Verif.Whole (Caller Actor Res.map W early map_ok map_ub)

variable {σ V E : Type} {c : Cfg} {body : σ → Act σ V E} {pend : σ → Nat} {dirty : σ → Prop} {may : E → Prop} {K : Nat} {root : Nat → σ}

theorem xt_start (c : Cfg) (y : σ) : (X.start (V := V) (E := E) c y).xt = XS.start y := xt_eq rfl fun _ => rfl

theorem rel_start (c : Cfg) (y : σ) (F : Nat → Orc E) :
    Rel body may dirty F (fun _ => []) (X.start (V := V) c y).xt (lower (X.start c y) (State.start (y, [], .nil))).rt := by
  have e : (lower (X.start (V := V) (E := E) c y) (State.start (y, [], Orc.nil))).rt = State.start (y, [], .nil) := Whole.rt_eq rfl fun _ => rfl
  rw [xt_start, e]
  exact Exn.sim_start F y

/-- The root tasks of the program without exceptions. -/
def Roots (body : σ → Act σ V E) (may : E → Prop) (root : Nat → σ) (root' : Nat → T σ E) : Prop := ∀ i, ∃ o, root' i = norm body may o (root i) []

section
variable (hc : c.Ok) (hd : Disc body pend dirty) (hp : ∀ x, pend x ≤ 65534) (hroot : ∀ i, i < K → pend (root i) = 0)
include hd hroot

theorem roots_pend {root' : Nat → T σ E} (h : Roots body may root root') (i : Nat) (hi : i < K) : pend (root' i).1 = 0 := by
  obtain ⟨o, e⟩ := h i
  rw [e]
  exact (Exn.norm_pend hd ..).trans (hroot i hi)

include hc hp

theorem reach_shadow {s : X σ V E} (h : Reach c body may K root s) (F G : Nat → Orc E) :
    ∃ root' es r, Whole.Reach c (tgt body may) K root' (lower s r) ∧ Roots body may root root' ∧
      (∀ i, early (s.caller i) = true → root' i = norm body may (G i) (root i) []) ∧ Rel body may dirty F es s.xt (lower s r).rt := by
  induction h generalizing F G with
  | start y => exact ⟨fun i => norm body may (G i) (root i) [], _, _, .start ((y, [], .nil) : T σ E), fun i => ⟨_, rfl⟩, fun _ _ => rfl, rel_start c y F⟩
  | @step s s2 a hr few st ih =>
    obtain ⟨_, F0, G0, _, h2⟩ := sim hc hd hp (fun _ => id) st (fun F => by
      obtain ⟨root', es, r, h1, h2, _, h3⟩ := ih F G
      exact ⟨root', es, r, Whole.reach_inv hc (roots_pend hd hroot h2) h1, h3⟩) F G
    obtain ⟨root', es, r, h3, h4, h5, h6⟩ := ih F0 G0
    obtain ⟨h7, es', r', h8, h9⟩ := h2 root' es r (Whole.reach_inv hc (roots_pend hd hroot h4) h3) h5 h6
    refine ⟨root', es', r', ?_, h4, h7, h9⟩
    rcases h8 with ⟨h8, _⟩ | h8
    · rw [h8]; exact h3
    · exact h3.step few h8

theorem reach_hex {s : X σ V E} (h : Reach c body may K root s) (F : Nat → Orc E) :
    ∃ root' es r, Whole.Inv c (tgt body may) (fun y => pend y.1) K root' (lower s r) ∧ Rel body may dirty F es s.xt (lower s r).rt := by
  obtain ⟨root', es, r, h1, h2, _, h3⟩ := reach_shadow hc hd hp hroot h F fun _ => .nil
  exact ⟨root', es, r, Whole.reach_inv hc (roots_pend hd hroot h2) h1, h3⟩

theorem evo_may {may' : E → Prop} (hm : ∀ e, may' e → may e) {s s2 : X σ V E} (h : Reach c body may K root s) {a : Actor}
    (st : Step c body may' K root a s (.ok s2)) : Evo c body may' K root a s s2 :=
  (sim hc hd hp hm st (reach_hex hc hd hp hroot h) (fun _ => .nil) fun _ => .nil).1

theorem evo_step {s s2 : X σ V E} (h : Reach c body may K root s) {a : Actor} (st : Step c body may K root a s (.ok s2)) :
    Evo c body may K root a s s2 :=
  (sim hc hd hp (fun _ => id) st (reach_hex hc hd hp hroot h) (fun _ => .nil) fun _ => .nil).1

/-! ### The number of steps inside tasks -/

omit hc hd hp hroot in
/-- The runtime's schedule so far: `k` steps of workers and submissions. -/
structure Exec (c : Cfg) (body : σ → Act σ V E) (pend : σ → Nat) (may : E → Prop) (K : Nat) (root : Nat → σ) (k : Nat) (cs : List σ) (s : X σ V E) :
    Prop where
  run : ∃ m, Exn.ExecN body pend may c.N cs m s.xt ∧ k = m + cs.length
  bal : cs.length + Runtime.sumTo (fun i => if early (s.caller i) then 1 else 0) K = Runtime.sumTo (fun _ => 1) K
  mem : ∀ x ∈ cs, ∃ i, i < K ∧ x = root i

omit hc hd hp hroot in
theorem exec_start (y : σ) : Exec (V := V) c body pend may K root 0 [] (X.start c y) :=
  ⟨⟨0, by rw [xt_start]; exact .start y, rfl⟩, by simp [X.start, early], by simp⟩

omit hc hd hp in
theorem exec_count {s s2 : X σ V E} {a : Actor} {k : Nat} (h : ∃ cs, Exec c body pend may K root k cs s) (e : Evo c body may K root a s s2) :
    (Busy c body may K root a s s2 ∧ ∃ cs, Exec c body pend may K root (k + 1) cs s2) ∨
      (¬ Busy c body may K root a s s2 ∧ ∃ cs, Exec c body pend may K root k cs s2) := by
  obtain ⟨cs, h⟩ := h
  obtain ⟨m, hm, rfl⟩ := h.run
  by_cases hb : Busy c body may K root a s s2
  · refine .inl ⟨hb, ?_⟩
    rcases hb with ⟨i, d, j, hi, hd, hp, hcl, hx⟩ | ⟨w, ch, hw, hch, hst, hcl, _⟩
    · refine ⟨root i :: cs, ⟨m, by rw [hx]; exact hm.submit hd (hroot i hi), ?_⟩, ?_, ?_⟩
      · simp only [List.length_cons]; omega
      · have e : (fun k => if early (s2.caller k) = true then 1 else 0) = Runtime.upd (fun k => if early (s.caller k) = true then 1 else 0) i 0 := by
          funext k
          rw [hcl]
          simp only [upd_apply, Runtime.upd]
          by_cases e : k = i
          · subst e; simp [early]
          · simp [e]
        have h1 := h.bal
        have h2 := Runtime.sumTo_upd (g := fun k => if early (s.caller k) = true then 1 else 0) 0 hi
        simp only [hp, early, if_true] at h2
        rw [e, List.length_cons]
        simp only [early] at h1 h2 ⊢
        omega
      · intro x hx
        rcases List.mem_cons.1 hx with rfl | hx
        · exact ⟨i, hi, rfl⟩
        · exact h.mem x hx
    · exact ⟨cs, ⟨m + 1, hm.step hw hch hst, by omega⟩, by rw [hcl]; exact h.bal, h.mem⟩
  · rcases e with e | ⟨e1, e2⟩
    · exact absurd e hb
    · exact .inr ⟨hb, cs, ⟨m, by rw [e1]; exact hm, rfl⟩, by simp only [e2]; exact h.bal, h.mem⟩

omit hc hd hp hroot in
theorem ends_uniform (hE : ∀ i, i < K → ∃ n, Ends body may (root i) [] [] n) : ∃ n, ∀ i, i < K → Ends body may (root i) [] [] n := by
  induction K with
  | zero => exact ⟨0, fun i hi => absurd hi (Nat.not_lt_zero _)⟩
  | succ K ih =>
    obtain ⟨n, h1⟩ := ih fun i hi => hE i (by omega)
    obtain ⟨m, h2⟩ := hE K (by omega)
    refine ⟨n + m, fun i hi => ?_⟩
    by_cases e : i = K
    · subst e; exact h2.mono (by omega)
    · exact (h1 i (by omega)).mono (by omega)

omit hc hroot in
theorem exec_bound {n : Nat} (hE : ∀ i, i < K → Ends body may (root i) [] [] n) {k : Nat} {cs : List σ} {s : X σ V E}
    (h : Exec c body pend may K root k cs s) : k ≤ (n + 1) * (10 * n + 6) * Runtime.sumTo (fun _ => 1) K + Runtime.sumTo (fun _ => 1) K := by
  obtain ⟨m, hm, rfl⟩ := h.run
  have h1 := Exn.C59_bounded hd hp hm fun x hx => by
    obtain ⟨i, hi, rfl⟩ := h.mem x hx
    exact hE i hi
  have h2 : cs.length ≤ Runtime.sumTo (fun _ => 1) K := by have := h.bal; omega
  exact Nat.add_le_add (Nat.le_trans h1 (Nat.mul_le_mul_left _ h2)) h2

/-! ### Infinite schedules -/

omit hc hd hp hroot in
theorem run_reach (r : Fair.Run (system c body may K root)) (few : ∀ t, LazyPool.Few c (r.st t).l) (t : Nat) : Reach c body may K root (r.st t) := by
  induction t with
  | zero => obtain ⟨x, e⟩ := r.start; rw [e]; exact .start x
  | succ t ih =>
    rcases r.next t with ⟨_, e⟩ | ⟨a, _, st⟩
    · rw [e]; exact ih
    · exact ih.step (few t) st

/-- From some time on the runtime rests. -/
theorem rests (hE : ∀ i, i < K → ∃ n, Ends body may (root i) [] [] n) (r : Fair.Run (system c body may K root))
    (few : ∀ t, LazyPool.Few c (r.st t).l) : ∃ T, ∀ t a, T ≤ t → r.who t = some a → ¬ Busy c body may K root a (r.st t) (r.st (t + 1)) := by
  obtain ⟨n, hE⟩ := ends_uniform hE
  obtain ⟨T, hT⟩ := Whole.finitely (fun k t => ∃ cs, Exec c body pend may K root k cs (r.st t))
    (fun t => ∃ a, r.who t = some a ∧ Busy c body may K root a (r.st t) (r.st (t + 1))) _
    (fun t k ⟨cs, h⟩ => exec_bound hd hp hE h) (by obtain ⟨y, e⟩ := r.start; rw [e]; exact ⟨0, [], exec_start y⟩) (fun t k h => by
      rcases r.next t with ⟨e1, e2⟩ | ⟨a, e1, st⟩
      · exact .inr ⟨(fun ⟨a, h, _⟩ => by rw [e1] at h; cases h), by rw [e2]; exact h⟩
      · rcases exec_count hroot h (evo_step hc hd hp hroot (run_reach r few t) st) with ⟨h1, h2⟩ | ⟨h1, h2⟩
        · exact .inl ⟨⟨a, e1, h1⟩, h2⟩
        · exact .inr ⟨(fun ⟨b, h, h3⟩ => by rw [e1] at h; cases h; exact h1 h3), h2⟩)
  exact ⟨T, fun t a ht h1 h2 => hT t ht ⟨a, h1, h2⟩⟩

omit hc hd hp hroot in
theorem exists_seq {α : Type} (I : Nat → α → Prop) (N : Nat → α → α → Prop) (h0 : ∃ a, I 0 a)
    (hs : ∀ t a, I t a → ∃ b, N t a b ∧ I (t + 1) b) : ∃ f : Nat → α, ∀ t, I t (f t) ∧ N t (f t) (f (t + 1)) := by
  classical
  let g : (t : Nat) → { a // I t a } := fun t =>
    Nat.rec (motive := fun t => { a // I t a }) ⟨h0.choose, h0.choose_spec⟩ (fun t p => ⟨(hs t p.1 p.2).choose, (hs t p.1 p.2).choose_spec.2⟩) t
  exact ⟨fun t => (g t).1, fun t => ⟨(g t).2, (hs t (g t).1 (g t).2).choose_spec.1⟩⟩

omit hc hd hp hroot in
/-- What has to be known so that it is known what will happen. -/
theorem exists_back {β : Type} (Q : Nat → β → β → Prop) (x : β) {T : Nat} (h1 : ∀ t b, ∃ a, Q t a b) (h2 : ∀ t, T ≤ t → Q t x x) :
    ∃ f : Nat → β, ∀ t, Q t (f t) (f (t + 1)) := by
  classical
  let D : Nat → β := fun n => Nat.rec (motive := fun _ => β) x (fun n b => (h1 (T - (n + 1)) b).choose) n
  have hD : ∀ n, Q (T - (n + 1)) (D (n + 1)) (D n) := fun n => (h1 (T - (n + 1)) (D n)).choose_spec
  refine ⟨fun t => D (T - t), fun t => ?_⟩
  show Q t (D (T - t)) (D (T - (t + 1)))
  by_cases ht : T ≤ t
  · rw [show T - t = 0 by omega, show T - (t + 1) = 0 by omega]
    exact h2 t ht
  · have := hD (T - (t + 1))
    rw [show T - (t + 1) + 1 = T - t by omega, show T - (T - t) = t by omega] at this
    exact this

omit hc hd hp hroot in
theorem ready_iff {s : X σ V E} {r : State (T σ E) (Except E V)} {F : Nat → Orc E} {es : Nat → List E}
    (h : Rel body may dirty F es s.xt (lower s r).rt) (a : Actor) : Whole.ready c (lower s r) a ↔ ready c s a := by
  cases a with
  | worker w => exact Iff.rfl
  | dtor => exact Iff.rfl
  | caller i =>
    have e : (lower s r).caller i = s.caller i := rfl
    simp only [ready, Whole.ready, e]
    cases s.caller i with
    | waiting f => exact ⟨fun ⟨v, hv⟩ => ⟨v, (h.base.log.doneIff f v).2 hv⟩, fun ⟨v, hv⟩ => ⟨v, (h.base.log.doneIff f v).1 hv⟩⟩
    | _ => exact Iff.rfl

/-- A fair schedule without exceptions that looks the same. -/
theorem shadow_run (hE : ∀ i, i < K → ∃ n, Ends body may (root i) [] [] n) (r : Fair.Run (system c body may K root)) (hf : r.Fair)
    (few : ∀ t, LazyPool.Few c (r.st t).l) : ∃ root', Roots body may root root' ∧ ∃ q : Fair.Run (Whole.system c (tgt body may) K root'),
      q.Fair ∧ ∀ t, ∃ y, q.st t = lower (r.st t) y := by
  classical
  obtain ⟨U, hU⟩ := rests hc hd hp hroot hE r few
  let Busy' := fun t => ∃ a, r.who t = some a ∧ Busy c body may K root a (r.st t) (r.st (t + 1))
  let Next := fun (root' : Nat → T σ E) t (a b : State (T σ E) (Except E V)) =>
    (lower (r.st (t + 1)) b = lower (r.st t) a ∧ (r.who t = none ∨ Busy' t)) ∨
      ∃ x, r.who t = some x ∧ Whole.Step c (tgt body may) K root' x (lower (r.st t) a) (.ok (lower (r.st (t + 1)) b))
  let Q := fun t (A B : (Nat → Orc E) × (Nat → Orc E)) => ∀ root' es a,
    Whole.Inv c (tgt body may) (fun y => pend y.1) K root' (lower (r.st t) a) →
    (∀ i, early ((r.st t).caller i) = true → root' i = norm body may (A.2 i) (root i) []) →
    Rel body may dirty A.1 es (r.st t).xt (lower (r.st t) a).rt →
    (∀ i, early ((r.st (t + 1)).caller i) = true → root' i = norm body may (B.2 i) (root i) []) ∧ ∃ es' b, Next root' t a b ∧
      Rel body may dirty B.1 es' (r.st (t + 1)).xt (lower (r.st (t + 1)) b).rt
  have key : ∀ t (B : (Nat → Orc E) × (Nat → Orc E)), ∃ A, Q t A B ∧ (¬ Busy' t → A = B) := by
    intro t B
    rcases r.next t with ⟨e1, e2⟩ | ⟨x, e1, st⟩
    · refine ⟨B, fun root' es a hi he hrel => ?_, fun _ => rfl⟩
      rw [e2]
      exact ⟨he, es, a, .inl ⟨by rw [e2], .inl e1⟩, hrel⟩
    · obtain ⟨_, F0, G0, h1, h2⟩ := sim hc hd hp (fun _ => id) st (reach_hex hc hd hp hroot (run_reach r few t)) B.1 B.2
      refine ⟨(F0, G0), fun root' es a hi he hrel => ?_, fun hn => ?_⟩
      · obtain ⟨h3, es', b, h4, h5⟩ := h2 root' es a hi he hrel
        refine ⟨h3, es', b, ?_, h5⟩
        rcases h4 with ⟨h4, h6⟩ | h4
        · exact .inl ⟨h4, .inr ⟨x, e1, h6⟩⟩
        · exact .inr ⟨x, e1, h4⟩
      · obtain ⟨h3, h4⟩ := h1 fun hb => hn ⟨x, e1, hb⟩
        rw [h3, h4]
  obtain ⟨A, hA⟩ := exists_back Q (fun _ => Orc.nil, fun _ => Orc.nil) (T := U) (fun t B => (key t B).imp fun _ h => h.1) (fun t ht => by
    obtain ⟨B, h1, h2⟩ := key t (fun _ => Orc.nil, fun _ => Orc.nil)
    have := h2 fun ⟨a, h3, h4⟩ => hU t a ht h3 h4
    rw [this] at h1; exact h1)
  let root' : Nat → T σ E := fun i => norm body may ((A 0).2 i) (root i) []
  have hroots : Roots body may root root' := fun i => ⟨_, rfl⟩
  obtain ⟨R, hR⟩ := exists_seq (fun t a => Whole.Reach c (tgt body may) K root' (lower (r.st t) a) ∧
      (∀ i, early ((r.st t).caller i) = true → root' i = norm body may ((A t).2 i) (root i) []) ∧
      (t = 0 → ∃ y, lower (r.st t) a = W.start c y) ∧
      ∃ es, Rel body may dirty (A t).1 es (r.st t).xt (lower (r.st t) a).rt) (Next root') (by
      obtain ⟨y, e⟩ := r.start
      exact ⟨State.start (y, [], .nil), by rw [e]; exact .start ((y, [], .nil) : T σ E), fun _ _ => rfl,
        fun _ => ⟨(y, [], .nil), by rw [e]; rfl⟩, _, by rw [e]; exact rel_start c y _⟩)
    (fun t a ⟨h1, h2, _, es, h3⟩ => by
      obtain ⟨h4, es', b, h5, h6⟩ := hA t root' es a (Whole.reach_inv hc (roots_pend hd hroot hroots) h1) h2 h3
      refine ⟨b, h5, ?_, h4, fun h => absurd h (Nat.succ_ne_zero t), es', h6⟩
      rcases h5 with ⟨h5, _⟩ | ⟨x, _, h5⟩
      · rw [h5]; exact h1
      · exact h1.step (few t) h5)
  let idle := fun t => lower (r.st (t + 1)) (R (t + 1)) = lower (r.st t) (R t) ∧ (r.who t = none ∨ Busy' t)
  refine ⟨root', hroots, ⟨fun t => lower (r.st t) (R t), fun t => if idle t then none else r.who t, ?_, fun t => ?_⟩, fun a t => ?_, fun t => ⟨_, rfl⟩⟩
  · exact (hR 0).1.2.2.1 rfl
  · by_cases hx : idle t
    · exact .inl ⟨by rw [if_pos hx], hx.1⟩
    · rw [if_neg hx]
      rcases (hR t).2 with h | ⟨x, h1, h2⟩
      · exact absurd h hx
      · exact .inr ⟨x, h1, h2⟩
  · obtain ⟨t', h1, h2⟩ := hf a (max t U)
    refine ⟨t', by omega, ?_⟩
    rcases h2 with h2 | h2
    · left
      obtain ⟨_, _, _, es, h3⟩ := (hR t').1
      intro h4
      exact h2 ((ready_iff h3 a).1 h4)
    · right
      show (if idle t' then none else r.who t') = _
      rw [if_neg, h2]
      intro ⟨_, h3⟩
      rcases h3 with h3 | h3
      · rw [h2] at h3; cases h3
      · obtain ⟨b, h3, h4⟩ := h3
        exact hU t' b (by omega) h3 h4

end

end Verif.WholeX
