import Verif.Hb.Props

/-!
C72: happens-before is transitive, and what it says about children.
-/
namespace Verif.Hb
open Verif.Runtime (State Res Fr Pc Loc Link Alive Few forkPar upd upd_apply upd_same upd_ne maxU16 Ev)
open Verif.Exn (XS Choice)
open Verif.Mem (MS Act)
variable {σ V E L : Type}

/-- All the clocks have `P`. -/
structure Clk.Every (P : List Nat → Prop) (h : Clk) : Prop where
  kn : ∀ w, P (h.kn w)
  kt : ∀ w, P (h.kt w)
  kq : ∀ w, P (h.kq w)
  kb : ∀ w, P (h.kb w)
  kj : ∀ w, P (h.kj w)
  kr : ∀ w k, h.kr w = some k → P k

theorem every_upd {P : List Nat → Prop} {f : Nat → List Nat} {i : Nat} {v : List Nat} (h : ∀ w, P (f w)) (hv : P v) : ∀ w, P (upd f i v w) := fun w => by
  rw [upd_apply]; split
  · exact hv
  · exact h w

section
variable {P Q : List Nat → Prop} {h : Clk} {w f : Nat}

theorem Clk.Every.imp (e : h.Every P) (i : ∀ k, P k → Q k) : h.Every Q :=
  ⟨fun w => i _ (e.kn w), fun w => i _ (e.kt w), fun w => i _ (e.kq w), fun w => i _ (e.kb w), fun w => i _ (e.kj w), fun w k hk => i _ (e.kr w k hk)⟩

theorem Clk.Every.tick (e : h.Every P) (hp : P (h.n :: h.kn w)) : (h.tick w).Every P := ⟨every_upd e.kn hp, e.kt, e.kq, e.kb, e.kj, e.kr⟩
theorem Clk.Every.acquire (e : h.Every P) {k : List Nat} (hp : P (k ++ h.kn w)) : (h.acquire w k).Every P := ⟨every_upd e.kn hp, e.kt, e.kq, e.kb, e.kj, e.kr⟩
theorem Clk.Every.push (e : h.Every P) : (h.push w f).Every P := ⟨e.kn, e.kt, every_upd e.kq (e.kn w), e.kb, e.kj, e.kr⟩
theorem Clk.Every.send (e : h.Every P) : (h.send w f).Every P := ⟨e.kn, e.kt, e.kq, every_upd e.kb (e.kn w), e.kj, e.kr⟩
theorem Clk.Every.signal (e : h.Every P) : (h.signal w f).Every P := ⟨e.kn, e.kt, e.kq, e.kb, e.kj, fun v k hk => by
  simp only [Clk.signal, upd_apply] at hk
  split at hk
  · cases hk; exact e.kn w
  · exact e.kr v k hk⟩
theorem Clk.Every.store (e : h.Every P) (hp : P []) : (h.store f).Every P := ⟨e.kn, e.kt, e.kq, e.kb, every_upd e.kj hp, e.kr⟩
theorem Clk.Every.sub (e : h.Every P) (hp : P (h.kn w ++ h.kj f)) (b : Bool) : (h.sub w f b).Every P :=
  ⟨by cases b; exact e.kn; exact every_upd e.kn hp, e.kt, e.kq, e.kb, every_upd e.kj hp, e.kr⟩

end

/-- The clocks after a step consist of what the clocks before it consist of, and the step. -/
theorem every_sync {P : List Nat → Prop} {body : σ → Act σ V E L} {w : Nat} {ch : Choice E} {x : XS σ V E} {h : Clk} (e : h.Every P) (h0 : P []) (h1 : ∀ k, P k → P (h.n :: k))
    (h2 : ∀ k k', P k → P k' → P (k ++ k')) : (sync body w ch x h).Every P := by
  have t : (h.tick w).Every P := e.tick (h1 _ (e.kn w))
  have ac : ∀ k, P k → ((h.tick w).acquire w k).Every P := fun k hk => t.acquire (h2 _ _ hk (t.kn w))
  unfold sync
  dsimp only
  split
  · split
    · split
      · exact ac _ (t.kb _)
      · exact t
    · split
      · exact ac _ (t.kq _)
      · exact t
    · exact t
  · split
    · exact (t.store h0).push
    · exact t.store h0
    · exact t.send
    · split
      · exact t.signal
      · exact t
    · split
      · exact t.signal
      · exact t
    · exact t
  · split
    · exact ac _ (t.kj _)
    · exact t
  · exact t.sub (h2 _ _ (t.kn _) (t.kj _)) _
  · exact t.sub (h2 _ _ (t.kn _) (t.kj _)) _
  · exact t.store h0
  · exact t.store h0
  all_goals exact t

/-- What knows of the step knows all that happens before it. -/
theorem every_new {body : σ → Act σ V E L} {w : Nat} {ch : Choice E} {x : XS σ V E} {h : Clk} (e : h.Every fun k => h.n ∉ k) :
    (sync body w ch x h).Every fun k => h.n ∈ k → (sync body w ch x h).kn w ⊆ k := by
  have old : ∀ K : List Nat, h.Every fun k => h.n ∈ k → K ⊆ k := fun K => e.imp fun k h1 h2 => absurd h2 h1
  have t : (h.tick w).Every fun k => h.n ∈ k → (h.tick w).kn w ⊆ k := (old _).tick fun _ => by simp only [Clk.tick, upd_same]; exact fun _ h => h
  have ac : ∀ k, ((h.tick w).acquire w k).Every fun k' => h.n ∈ k' → ((h.tick w).acquire w k).kn w ⊆ k' := fun k => by
    have hK : ((h.tick w).acquire w k).kn w = k ++ h.n :: h.kn w := by simp only [Clk.acquire, Clk.tick, upd_same]
    rw [hK]
    obtain ⟨q1, q2, q3, q4, q5, q6⟩ := old (k ++ h.n :: h.kn w)
    refine ⟨fun v => ?_, q2, q3, q4, q5, q6⟩
    by_cases hv : v = w
    · subst hv; rw [hK]; exact fun _ _ h => h
    · simp only [Clk.acquire, Clk.tick, upd_ne _ _ hv]; exact q1 v
  have sb : ∀ f b, ((h.tick w).sub w f b).Every fun k' => h.n ∈ k' → ((h.tick w).sub w f b).kn w ⊆ k' := fun f b => by
    cases b
    · exact t.sub (fun _ e he => List.mem_append.2 (.inl he)) false
    · have hK : ((h.tick w).sub w f true).kn w = (h.n :: h.kn w) ++ h.kj f := by simp only [Clk.sub, Clk.tick, upd_same, if_true]
      rw [hK]
      obtain ⟨q1, q2, q3, q4, q5, q6⟩ := old ((h.n :: h.kn w) ++ h.kj f)
      refine ⟨fun v => ?_, q2, q3, q4, every_upd (P := fun k => h.n ∈ k → (h.n :: h.kn w) ++ h.kj f ⊆ k) q5 (fun _ => ?_), q6⟩
      · by_cases hv : v = w
        · subst hv; rw [hK]; exact fun _ _ h => h
        · simp only [Clk.sub, Clk.tick, if_true, upd_ne _ _ hv]; exact q1 v
      · simp only [Clk.tick, upd_same]; exact fun _ h => h
  have n0 : ∀ K : List Nat, h.n ∈ ([] : List Nat) → K ⊆ [] := fun K h => absurd h (by simp)
  unfold sync
  dsimp only
  split
  · split
    · split
      · exact ac _
      · exact t
    · split
      · exact ac _
      · exact t
    · exact t
  · split
    · exact (t.store (n0 _)).push
    · exact t.store (n0 _)
    · exact t.send
    · split
      · exact t.signal
      · exact t
    · split
      · exact t.signal
      · exact t
    · exact t
  · split
    · exact ac _
    · exact t
  · exact sb _ _
  · exact sb _ _
  · exact t.store (n0 _)
  · exact t.store (n0 _)
  all_goals exact t

/-- It knows all that happens before what it knows. -/
def Cl (n : Nat) (tr : List (Rec L)) (k : List Nat) : Prop := (∀ e ∈ k, e < n) ∧ ∀ r ∈ tr, r.no ∈ k → r.known ⊆ k

theorem cl_nil {n : Nat} {tr : List (Rec L)} : Cl n tr [] := ⟨fun _ h => absurd h (by simp), fun _ _ h => absurd h (by simp)⟩
theorem cl_append {n : Nat} {tr : List (Rec L)} {k k' : List Nat} (h : Cl n tr k) (h' : Cl n tr k') : Cl n tr (k ++ k') :=
  ⟨fun e he => (List.mem_append.1 he).elim (h.1 e) (h'.1 e), fun r hr he => (List.mem_append.1 he).elim (fun h1 _ h2 => List.mem_append.2 (.inl (h.2 r hr h1 h2)))
    fun h1 _ h2 => List.mem_append.2 (.inr (h'.2 r hr h1 h2))⟩
theorem cl_cons {n : Nat} {tr : List (Rec L)} (ht : ∀ r ∈ tr, r.no < n) {k : List Nat} (h : (∀ e ∈ k, e < n + 1) ∧ ∀ r ∈ tr, r.no ∈ k → r.known ⊆ k) : Cl (n + 1) tr (n :: k) :=
  ⟨fun e he => (List.mem_cons.1 he).elim (fun h => by omega) (h.1 e), fun r hr he => (List.mem_cons.1 he).elim (fun h1 => by have := ht r hr; omega)
    fun h1 _ h2 => List.mem_cons_of_mem _ (h.2 r hr h1 h2)⟩
theorem cl_up {n : Nat} {tr : List (Rec L)} {k : List Nat} (h : Cl n tr k) : Cl (n + 1) tr k := ⟨fun e he => Nat.lt_succ_of_lt (h.1 e he), h.2⟩

structure Trans (a : HS σ V E L) : Prop where
  no : ∀ r ∈ a.tr, r.no < a.h.n
  kn : ∀ r ∈ a.tr, ∀ e ∈ r.known, e < a.h.n
  cl : a.h.Every (Cl a.h.n a.tr)
  tt : ∀ r ∈ a.tr, ∀ r' ∈ a.tr, r'.no ∈ r.known → r'.known ⊆ r.known
  so : a.tr.Pairwise fun r r' => r'.no < r.no

theorem every_up {n : Nat} {tr : List (Rec L)} {h : Clk} (e : h.Every (Cl n tr)) : h.Every (Cl (n + 1) tr) := e.imp fun _ => cl_up

/-- A new step is recorded. -/
theorem trans_log {n : Nat} {tr : List (Rec L)} {r0 : Rec L} {h : Clk} (hn : r0.no = n) (no : ∀ r ∈ tr, r.no < n) (kn : ∀ r ∈ tr, ∀ e ∈ r.known, e < n)
    (tt : ∀ r ∈ tr, ∀ r' ∈ tr, r'.no ∈ r.known → r'.known ⊆ r.known) (e : h.Every (Cl (n + 1) tr)) (e2 : h.Every fun k => n ∈ k → r0.known ⊆ k) (hK : Cl (n + 1) tr r0.known) :
    (∀ r ∈ r0 :: tr, r.no < n + 1) ∧ (∀ r ∈ r0 :: tr, ∀ e ∈ r.known, e < n + 1) ∧ h.Every (Cl (n + 1) (r0 :: tr)) ∧
      ∀ r ∈ r0 :: tr, ∀ r' ∈ r0 :: tr, r'.no ∈ r.known → r'.known ⊆ r.known := by
  subst hn
  have both : ∀ k, Cl (r0.no + 1) tr k → (r0.no ∈ k → r0.known ⊆ k) → Cl (r0.no + 1) (r0 :: tr) k := fun k h1 h2 =>
    ⟨h1.1, fun r hr he => by
      rcases List.mem_cons.1 hr with rfl | hr
      · exact h2 he
      · exact h1.2 r hr he⟩
  refine ⟨fun r hr => ?_, fun r hr e he => ?_, ?_, fun r hr r' hr' he => ?_⟩
  · rcases List.mem_cons.1 hr with rfl | hr
    · exact Nat.lt_succ_self _
    · exact Nat.lt_succ_of_lt (no r hr)
  · rcases List.mem_cons.1 hr with rfl | hr
    · exact hK.1 _ he
    · exact Nat.lt_succ_of_lt (kn r hr _ he)
  · exact ⟨fun w => both _ (e.kn w) (e2.kn w), fun w => both _ (e.kt w) (e2.kt w), fun w => both _ (e.kq w) (e2.kq w), fun w => both _ (e.kb w) (e2.kb w),
      fun w => both _ (e.kj w) (e2.kj w), fun w k hk => both _ (e.kr w k hk) (e2.kr w k hk)⟩
  · rcases List.mem_cons.1 hr with rfl | hr
    · rcases List.mem_cons.1 hr' with rfl | hr'
      · exact fun _ h => h
      · exact hK.2 r' hr' he
    · rcases List.mem_cons.1 hr' with e' | hr'
      · rw [e'] at he ⊢; have := kn r hr _ he; omega
      · exact tt r hr r' hr' he

variable [Inhabited E] [DecidableEq L] {body : σ → Act σ V E L} {pend : σ → Nat} {dirty : σ → Prop} {may : E → Prop} {ok : (σ → Prop) → σ → Prop} {m : L → E}

omit [Inhabited E] [DecidableEq L] in
theorem n_sync {w : Nat} {ch : Choice E} {x : XS σ V E} {h : Clk} : (sync body w ch x h).n = h.n + 1 := by
  unfold sync
  dsimp only
  repeat' split
  all_goals rfl

theorem reach_trans {a : HS σ V E L} (h : Reach body pend may ok m a) : Trans a := by
  induction h with
  | start y =>
    exact ⟨fun _ h => absurd h (by simp [HS.start]), fun _ h => absurd h (by simp [HS.start]),
      ⟨fun _ => cl_nil, fun _ => cl_nil, fun _ => cl_nil, fun _ => cl_nil, fun _ => cl_nil, fun _ _ h => by cases h⟩, fun _ h => absurd h (by simp [HS.start]), .nil⟩
  | @submit a c t w h0 hf hp ho ih =>
    have e := every_up ih.cl
    have hK : Cl (a.h.n + 1) a.tr (a.h.n :: a.h.kt t) := cl_cons ih.no (e.kt t)
    have old : ∀ k, Cl a.h.n a.tr k → a.h.n ∈ k → (a.h.n :: a.h.kt t) ⊆ k := fun k h1 h2 => absurd (h1.1 _ h2) (Nat.lt_irrefl _)
    have o := ih.cl.imp old
    obtain ⟨q1, q2, q3, q4⟩ := trans_log (r0 := ⟨a.h.n, a.s.x.c.nf, a.h.n :: a.h.kt t, a.g.T t, none, some (a.s.x.c.nf, true)⟩) (h := (submit a t c w).h) rfl ih.no ih.kn ih.tt
      ⟨e.kn, every_upd e.kt hK, e.kq, every_upd e.kb hK, every_upd e.kj cl_nil, fun v k hk => by
        simp only [submit, upd_apply] at hk
        split at hk
        · cases hk
        · exact e.kr v k hk⟩
      ⟨o.kn, every_upd (P := fun k => a.h.n ∈ k → (a.h.n :: a.h.kt t) ⊆ k) o.kt (fun _ _ h => h), o.kq, every_upd (P := fun k => a.h.n ∈ k → (a.h.n :: a.h.kt t) ⊆ k) o.kb (fun _ _ h => h), every_upd (P := fun k => a.h.n ∈ k → (a.h.n :: a.h.kt t) ⊆ k) o.kj (old _ cl_nil), fun v k hk => by
        simp only [submit, upd_apply] at hk
        split at hk
        · cases hk
        · exact o.kr v k hk⟩ hK
    exact ⟨q1, q2, q3, q4, .cons ih.no ih.so⟩
  | @step a a' w ch h0 hf hch hs ih =>
    unfold step at hs
    split at hs <;> cases hs
    rename_i s' hs
    have e : (sync body w ch a.s.x a.h).Every (Cl (a.h.n + 1) a.tr) := every_sync (every_up ih.cl) cl_nil (fun k hk => cl_cons ih.no hk) fun _ _ => cl_append
    have e2 := every_new (body := body) (w := w) (ch := ch) (x := a.s.x) (ih.cl.imp fun k h1 h2 => Nat.lt_irrefl _ (h1.1 _ h2))
    have hn : (sync body w ch a.s.x a.h).n = a.h.n + 1 := n_sync
    cases hw : who w ch a.s.x with
    | none =>
      refine ⟨?_, ?_, ?_, ?_, ?_⟩ <;> simp only [log, hw, hn]
      · exact fun r hr => Nat.lt_succ_of_lt (ih.no r hr)
      · exact fun r hr e he => Nat.lt_succ_of_lt (ih.kn r hr e he)
      · exact e
      · exact ih.tt
      · exact ih.so
    | some f =>
      obtain ⟨q1, q2, q3, q4⟩ := trans_log (r0 := ⟨a.h.n, f, (sync body w ch a.s.x a.h).kn w, (merge body w ch a.s.x s'.x a.g).L f, access body w a.s.x, counter body w ch a.s.x⟩)
        rfl ih.no ih.kn ih.tt e e2 (e.kn w)
      refine ⟨?_, ?_, ?_, ?_, ?_⟩ <;> simp only [log, hw, hn]
      · exact q1
      · exact q2
      · exact q3
      · exact q4
      · exact .cons ih.no ih.so
  | @wait a a' t f h0 hs ih =>
    unfold wait at hs
    split at hs <;> cases hs
    rename_i k hk
    have e := every_up ih.cl
    exact ⟨fun r hr => Nat.lt_succ_of_lt (ih.no r hr), fun r hr e he => Nat.lt_succ_of_lt (ih.kn r hr e he),
      ⟨e.kn, every_upd e.kt (cl_cons ih.no (cl_append (e.kr f k hk) (e.kt t))), e.kq, e.kb, e.kj, e.kr⟩, ih.tt, ih.so⟩
  | @other a t h0 ih =>
    have e := every_up ih.cl
    exact ⟨fun r hr => Nat.lt_succ_of_lt (ih.no r hr), fun r hr e he => Nat.lt_succ_of_lt (ih.kn r hr e he),
      ⟨e.kn, every_upd e.kt (cl_cons ih.no (e.kt t)), e.kq, e.kb, e.kj, e.kr⟩, ih.tt, ih.so⟩
  | @meet a t u h0 ih =>
    have e := every_up ih.cl
    exact ⟨fun r hr => Nat.lt_succ_of_lt (ih.no r hr), fun r hr e he => Nat.lt_succ_of_lt (ih.kn r hr e he),
      ⟨e.kn, every_upd e.kt (cl_cons ih.no (cl_append (e.kt u) (e.kt t))), e.kq, e.kb, e.kj, e.kr⟩, ih.tt, ih.so⟩

/-- C72: happens-before is transitive: what happens before a step that happens before another, happens before that. -/
theorem C72_transitive {a : HS σ V E L} (h : Reach body pend may ok m a) {r r' : Rec L} (hr : r ∈ a.tr) (hr' : r' ∈ a.tr) (hb : r'.no ∈ r.known) : r'.known ⊆ r.known :=
  (reach_trans h).tt r hr r' hr' hb

omit [DecidableEq L] in
/-- The log is sorted. -/
theorem sorted {P : Rec L → Rec L → Prop} {l : List (Rec L)} (h : l.Pairwise P) (hs : l.Pairwise fun r r' => r'.no < r.no) {r r' : Rec L} (hr : r ∈ l) (hr' : r' ∈ l) (hn : r'.no < r.no) : P r r' := by
  induction h with
  | nil => cases hr
  | cons h1 _ ih =>
    cases hs with
    | cons h2 h3 =>
      rcases List.mem_cons.1 hr with e | hr
      · rcases List.mem_cons.1 hr' with e' | hr'
        · rw [e, e'] at hn; exact absurd hn (Nat.lt_irrefl _)
        · rw [e]; exact h1 _ hr'
      · rcases List.mem_cons.1 hr' with e' | hr'
        · rw [e'] at hn; have := h2 _ hr; omega
        · exact ih h3 hr hr'

/-- C72: all a task has done up to the fork or call that creates another (step `c`, which constructs the new frame's join counter) happens before everything the new task does. -/
theorem C72_child (hd : Mem.Disc body pend dirty) {a : HS σ V E L} (h : Reach body pend may ok m a) {r c q : Rec L} (hr : r ∈ a.tr) (hc : c ∈ a.tr) (hq : q ∈ a.tr)
    (hcnt : c.cnt = some (r.task, true)) (hlt : c.no < r.no) (ht : q.task = c.task) (hle : q.no ≤ c.no) : q.no ∈ r.known := by
  have A := reach_all hd h
  have T := reach_trans h
  have h1 : c.no ∈ r.known := A.bk r hr (sorted A.two T.so hr hc hlt (.inr (.inr hcnt)))
  rcases Nat.lt_or_eq_of_le hle with h2 | h2
  · exact T.tt r hr c hc h1 (sorted (C72_frame hd h) T.so hc hq h2 ht.symm)
  · rw [h2]; exact h1

end Verif.Hb
