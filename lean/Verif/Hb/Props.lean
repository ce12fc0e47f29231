import Verif.Hb.Tree3

/-!
C72: whatever the program orders, the runtime orders.
-/
namespace Verif.Hb
open Verif.Runtime (State Res Fr Pc Loc Link Alive Few forkPar tok upd upd_apply upd_same upd_ne maxU16 Ev)
open Verif.Exn (XS Choice)
open Verif.Mem (MS Act)
variable {σ V E L : Type}

theorem merge_mono (body : σ → Act σ V E L) (w : Nat) (ch : Choice E) (x x' : XS σ V E) (g : Ord) (p : Nat) : g.L p ⊆ (merge body w ch x x' g).L p := by
  have hj : ∀ f, g.L p ⊆ (g.join f).L p := fun f e he => by
    simp only [Ord.join, upd_apply]; split
    · rename_i h; subst h; exact List.mem_append.2 (.inr he)
    · exact he
  have ht : ∀ f, g.L p ⊆ (g.told f).L p := fun f e he => by
    simp only [Ord.told, upd_apply]; split
    · rename_i h; subst h; exact List.mem_append.2 (.inr he)
    · exact he
  unfold merge
  split
  · split
    · split
      · exact hj _
      · exact fun _ h => h
    · exact fun _ h => h
  · exact hj _
  · exact hj _
  · split
    · exact fun _ h => h
    · split
      · exact ht _
      · exact fun _ h => h
  · split
    · exact ht _
    · exact fun _ h => h
  · exact fun _ h => h

/-- `r` is later than `r'`, and that is ordered if it has to be. -/
def Two (r r' : Rec L) : Prop := (r.task = r'.task ∨ Clash r r' ∨ r'.cnt = some (r.task, true)) → r'.no ∈ r.before

structure All (pend : σ → Nat) (a : HS σ V E L) : Prop where
  i : Inv a.s.x a.h a.g
  j : JX a.s.x a.g a.tr
  bk : ∀ r ∈ a.tr, r.before ⊆ r.known
  two : a.tr.Pairwise Two

theorem two_step {x x' : XS σ V E} {h : Clk} {g : Ord} {B : Nat → List Nat} {w : Nat} {ch : Choice E} {body : σ → Act σ V E L} {tr : List (Rec L)}
    (i : I x.c.nf x.c.loc x.c.pc (fun f => (x.c.fr f).stolen) x.c.link h g B) (j : JX x g tr) (F : Fx x) {f : Nat} (hw : who w ch x = some f) {r : Rec L} (ht : r.task = f)
    (hc : r.cnt = counter body w ch x) (hb : r.before = (merge body w ch x x' g).L f) : ∀ r' ∈ tr, Two r r' := by
  intro r' hr' hcase
  rw [hb]
  rcases hcase with hcase | ⟨p, b, b', h1, h2, h3⟩ | hcase
  · have := (j.rt r' hr').2
    rw [← hcase, ht] at this
    exact merge_mono _ _ _ _ _ _ _ this
  · rw [hc] at h1
    obtain ⟨h4, h5⟩ := j.ct r' hr' p b' h2
    have hL : b = false → r'.no ∈ g.L p := fun e => by
      subst e
      rcases h3 with h3 | h3
      · cases h3
      · subst h3
        rcases h5 with h5 | h5
        · exact h5
        · cases h5.1
    unfold counter at h1
    split at h1
    · rename_i q hp
      split at h1
      · cases h1; exact absurd h4 (Nat.lt_irrefl _)
      · cases h1; exact absurd h4 (Nat.lt_irrefl _)
      · cases h1
    · rename_i q hp
      cases h1
      simp only [who, hp, Option.some.injEq] at hw
      subst hw
      exact merge_mono _ _ _ _ _ _ _ (hL rfl)
    · rename_i q hp
      cases h1
      simp only [who, hp, Option.some.injEq] at hw
      subst hw
      exact merge_mono _ _ _ _ _ _ _ (hL rfl)
    · rename_i c b hp
      cases h1
      simp only [who, hp, Option.some.injEq] at hw
      subst hw
      have hpd : Pend p c (x.c.pc w) := .inr ⟨b, hp⟩
      have hlc := F.pend hpd
      have hcn : c < x.c.nf := F.lt (by rw [hlc]; simp)
      refine merge_mono _ _ _ _ _ _ _ (j.cc r' hr' p ?_ c hcn (ended_fork i hcn (F.flink w p c hpd)) (by rw [hlc]; simp))
      rcases h3 with h3 | h3
      · cases h3
      · rw [h2, h3]
    all_goals
      rename_i hp
      first
        | (cases h1
           simp only [who, hp, Option.some.injEq] at hw
           subst hw
           simp only [merge, hp, Ord.join, upd_same]
           exact List.mem_append.2 (h5.symm.imp (fun h => h.2) (fun h => h)))
        | cases h1
  · rw [ht] at hcase
    exact merge_mono _ _ _ _ _ _ _ ((j.ct r' hr' f true hcase).2.elim id fun h => by cases h.1)

variable [Inhabited E] [DecidableEq L] {body : σ → Act σ V E L} {pend : σ → Nat} {dirty : σ → Prop} {may : E → Prop} {ok : (σ → Prop) → σ → Prop} {m : L → E}

theorem reach_x {a : HS σ V E L} (h : Reach body pend may ok m a) : Exn.Reach (Mem.ctl body) pend (fun _ => True) a.s.x := by
  induction h with
  | start y => exact .start y
  | submit t w _ hf hp _ ih => exact .submit w ih hf hp
  | step _ hf _ hs ih =>
    unfold step at hs
    split at hs <;> cases hs
    rename_i s' hs
    obtain ⟨ch', h1⟩ := Mem.step_x hs
    exact .step ih hf (Mem.allowed_any ch') h1
  | wait t f _ hs ih =>
    unfold wait at hs
    split at hs <;> cases hs
    exact ih
  | other t _ ih => exact ih
  | meet t u _ ih => exact ih

theorem reach_all (hd : Mem.Disc body pend dirty) {a : HS σ V E L} (h : Reach body pend may ok m a) : All pend a := by
  induction h with
  | start y =>
    refine ⟨⟨fun _ => [], ?_⟩, ?_, fun _ h => absurd h (by simp [HS.start]), .nil⟩
    · refine ⟨fun f ha => ha.elim, fun f => trivial, fun f ha => ha.elim, fun f ha => ha.elim, fun w p c hp => ?_, (fun f k hk => by cases hk), fun c hc => absurd hc (Nat.not_lt_zero _), fun w p c hp => ?_,
        fun t _ h => h⟩
      · rcases hp with hp | ⟨b, hp⟩ <;> cases hp
      · cases hp
    · refine ⟨fun _ h => absurd h (by simp [HS.start]), fun _ h => absurd h (by simp [HS.start]), fun _ h => absurd h (by simp [HS.start]), fun p ha => ha.elim, fun p _ => rfl, fun c hc => absurd hc (Nat.not_lt_zero _), fun w p c hp => ?_,
        fun c hc => absurd hc (Nat.not_lt_zero _)⟩
      cases hp
  | @submit a c t w h0 hf hp ho ih =>
    have F := fx_of (Mem.disc_ctl hd) (reach_x h0)
    obtain ⟨B, i⟩ := ih.i
    obtain ⟨un, cw, pd⟩ := F.next
    refine ⟨⟨upd B a.s.x.c.nf (a.h.n :: a.h.kt t), ?_⟩, ?_, fun r hr => ?_, ?_⟩
    · have i1 := i.grow { a.h with n := a.h.n + 1, kt := upd a.h.kt t (a.h.n :: a.h.kt t) } (fun _ _ h => h) rfl rfl rfl rfl (fun u e he => by
        simp only [upd_apply]; split
        · rename_i e'; subst e'; exact List.mem_cons_of_mem _ he
        · exact he)
      have i2 := I.new i1 (l := .inbox w) (L := a.h.n :: a.g.T t) (b := a.h.n :: a.h.kt t) (kb := a.h.n :: a.h.kt t) (par := .root) (lk := .root)
        (stolen' := fun p => ((Verif.Runtime.submit a.s.x.c c w).fr p).stolen) un cw pd trivial
        (fun e he => (List.mem_cons.1 he).elim (fun h => by rw [h]; exact List.mem_cons_self ..) fun h => List.mem_cons_of_mem _ (i.tk t h))
        (fun p hpn => by simp only [Verif.Runtime.submit, Verif.Runtime.newFrame, upd_ne _ _ hpn]) (.inr ⟨w, rfl, fun _ h => h⟩)
      obtain ⟨q1, q2, q3, q4, q5, q6, q7, q8, q9⟩ := i2
      refine ⟨?_, q2, q3, q4, ?_, ?_, q7, q8, ?_⟩
      · (simp only [submit, Ord.submit, Ord.thread, upd_same]; exact q1)
      · (simp only [submit, Ord.submit, Ord.thread, upd_same]; exact q5)
      · intro f k hk
        simp only [submit, upd_apply] at hk
        split at hk
        · cases hk
        · have := q6 f k hk
          (simp only [submit, Ord.submit, Ord.thread, upd_same]; exact this)
      · intro u e he
        simp only [submit, Ord.submit, Ord.thread, upd_apply] at he ⊢
        split at he
        · rename_i e'; subst e'
          rw [if_pos rfl]
          exact (List.mem_cons.1 he).elim (fun h => by rw [h]; exact List.mem_cons_self ..) fun h => List.mem_cons_of_mem _ (i.tk u h)
        · rename_i e'
          rw [if_neg e']; exact i.tk u he
    · have j1 := ih.j.new (l := .inbox w) (k := a.h.n :: a.g.T t) (q := .root) un trivial F.npop (fun p hq => by rcases hq with hq | hq <;> cases hq)
      have j2 := j1.at (loc' := upd a.s.x.c.loc a.s.x.c.nf (.inbox w)) (pc' := a.s.x.c.pc) (sl' := fun p => ((Verif.Runtime.submit a.s.x.c c w).fr p).slots = []) (fun _ => Iff.rfl) (fun _ => Iff.rfl) (fun p hp => by
        by_cases e : p = a.s.x.c.nf
        · right; rw [e]; exact upd_same ..
        · left
          simp only [Verif.Runtime.submit, Verif.Runtime.newFrame, upd_ne _ _ e] at hp
          exact hp) (fun _ _ _ h => h)
      have j3 := j2.log (r := ⟨a.h.n, a.s.x.c.nf, a.h.n :: a.h.kt t, a.g.T t, none, some (a.s.x.c.nf, true)⟩) ⟨Nat.lt_succ_self _, by simp only [upd_same]; exact List.mem_cons_self ..⟩
        (fun p b hc => by cases hc; exact ⟨Nat.lt_succ_self _, .inl (by simp only [upd_same]; exact List.mem_cons_self ..)⟩)
        (fun p hc c' h1 h2 h3 => by
          cases hc
          have := j2.pl c' h1 _ (.inl h2)
          omega)
      obtain ⟨q1, q2, q3, q4, q5, q6, q7, q8⟩ := j3
      constructor
      · (simp only [submit, Ord.submit, Ord.thread, upd_same]; exact q1)
      · (simp only [submit, Ord.submit, Ord.thread, upd_same]; exact q2)
      · (simp only [submit, Ord.submit, Ord.thread, upd_same]; exact q3)
      · exact q4
      · exact q5
      · (simp only [submit, Ord.submit, Ord.thread, upd_same]; exact q6)
      · (simp only [submit, Ord.submit, Ord.thread, upd_same]; exact q7)
      · exact q8
    · rcases List.mem_cons.1 hr with rfl | hr
      · exact fun e he => List.mem_cons_of_mem _ (i.tk t he)
      · exact ih.bk r hr
    · refine .cons (fun r' hr' hcase => ?_) ih.two
      exfalso
      rcases hcase with hcase | ⟨p, b, b', h1, h2, _⟩ | hcase
      · have := (ih.j.rt r' hr').1
        rw [← hcase] at this
        exact Nat.lt_irrefl _ this
      · cases h1
        exact Nat.lt_irrefl _ (ih.j.ct r' hr' _ b' h2).1
      · exact Nat.lt_irrefl _ (ih.j.ct r' hr' _ true hcase).1
  | @step a a' w ch h0 hf hch hs ih =>
    have F := fx_of (Mem.disc_ctl hd) (reach_x h0)
    have S := fs_of (Mem.disc_ctl hd) (reach_x h0)
    obtain ⟨B, i⟩ := ih.i
    unfold step at hs
    split at hs <;> cases hs
    rename_i s' hs
    obtain ⟨g1, g2⟩ := good_step i F hf hs
    have jg := jg_step (n := a.h.n) hd i ih.j F S hf hs
    unfold JG at jg
    cases hw : who w ch a.s.x with
    | none =>
      rw [hw] at jg g1
      refine ⟨?_, ?_, ?_, ?_⟩
      · simp only [order, hw]; exact g1
      · simp only [order, log, hw]; exact jg
      · simp only [log, hw]; exact ih.bk
      · simp only [log, hw]; exact ih.two
    | some f =>
      rw [hw] at jg g1
      refine ⟨?_, ?_, ?_, ?_⟩
      · simp only [order, hw]; exact g1
      · simp only [order, log, hw]; exact jg _ rfl rfl rfl
      · intro r hr
        simp only [log, hw] at hr
        rcases List.mem_cons.1 hr with rfl | hr
        · exact g2 f hw
        · exact ih.bk r hr
      · simp only [log, hw]
        exact .cons (two_step i ih.j F hw rfl rfl rfl) ih.two
  | @wait a a' t f h0 hs ih =>
    obtain ⟨B, i⟩ := ih.i
    unfold wait at hs
    split at hs <;> cases hs
    rename_i k hk
    refine ⟨⟨B, ?_⟩, ?_, ih.bk, ih.two⟩
    · obtain ⟨q1, q2, q3, q4, q5, q6, q7, q8, q9⟩ := i
      refine ⟨q1, q2, q3, q4, q5, q6, q7, q8, fun u e he => ?_⟩
      simp only [Ord.saw, Ord.thread, upd_same] at he ⊢
      by_cases hu : u = t
      · subst hu
        rw [upd_same] at he ⊢
        rcases List.mem_cons.1 he with h1 | h1
        · rw [h1]; exact List.mem_cons_self ..
        · rcases List.mem_append.1 h1 with h1 | h1
          · exact List.mem_cons_of_mem _ (List.mem_append.2 (.inl ((q6 f k hk).1 h1)))
          · exact List.mem_cons_of_mem _ (List.mem_append.2 (.inr (q9 u h1)))
      · rw [upd_ne _ _ hu] at he ⊢
        rw [upd_ne _ _ hu] at he
        exact q9 u he
    · obtain ⟨q1, q2, q3, q4, q5, q6, q7, q8⟩ := ih.j
      exact ⟨q1, q2, q3, q4, q5, q6, q7, q8⟩
  | @other a t h0 ih =>
    obtain ⟨B, i⟩ := ih.i
    refine ⟨⟨B, ?_⟩, ?_, ih.bk, ih.two⟩
    · obtain ⟨q1, q2, q3, q4, q5, q6, q7, q8, q9⟩ := i
      refine ⟨q1, q2, q3, q4, q5, q6, q7, q8, fun u e he => ?_⟩
      simp only [other, Ord.thread] at he ⊢
      by_cases hu : u = t
      · subst hu
        rw [upd_same] at he ⊢
        exact (List.mem_cons.1 he).elim (fun h => by rw [h]; exact List.mem_cons_self ..) fun h => List.mem_cons_of_mem _ (q9 u h)
      · rw [upd_ne _ _ hu] at he ⊢
        exact q9 u he
    · obtain ⟨q1, q2, q3, q4, q5, q6, q7, q8⟩ := ih.j
      exact ⟨q1, q2, q3, q4, q5, q6, q7, q8⟩
  | @meet a t v h0 ih =>
    obtain ⟨B, i⟩ := ih.i
    refine ⟨⟨B, ?_⟩, ?_, ih.bk, ih.two⟩
    · obtain ⟨q1, q2, q3, q4, q5, q6, q7, q8, q9⟩ := i
      refine ⟨q1, q2, q3, q4, q5, q6, q7, q8, fun u e he => ?_⟩
      simp only [meet, Ord.thread, upd_same] at he ⊢
      by_cases hu : u = t
      · subst hu
        rw [upd_same] at he ⊢
        rcases List.mem_cons.1 he with h1 | h1
        · rw [h1]; exact List.mem_cons_self ..
        · rcases List.mem_append.1 h1 with h1 | h1
          · exact List.mem_cons_of_mem _ (List.mem_append.2 (.inl (q9 v h1)))
          · exact List.mem_cons_of_mem _ (List.mem_append.2 (.inr (q9 u h1)))
      · rw [upd_ne _ _ hu] at he ⊢
        rw [upd_ne _ _ hu] at he
        exact q9 u he
    · obtain ⟨q1, q2, q3, q4, q5, q6, q7, q8⟩ := ih.j
      exact ⟨q1, q2, q3, q4, q5, q6, q7, q8⟩

/-- C72: what the program puts before a step of a task happens before it, in the sense of the C++ memory model: the order of the statements of a task, forks and calls
before the child's steps, the callee's before the caller's next, the children's before those after the join, what the submitting thread did before the task's. -/
theorem C72_ordered (hd : Mem.Disc body pend dirty) {a : HS σ V E L} (h : Reach body pend may ok m a) : ∀ r ∈ a.tr, r.before ⊆ r.known := (reach_all hd h).bk

/-- C72: what a thread has waited for, or otherwise put before its next step, happens before it. -/
theorem C72_threads (hd : Mem.Disc body pend dirty) {a : HS σ V E L} (h : Reach body pend may ok m a) (t : Nat) : a.g.T t ⊆ a.h.kt t := by
  obtain ⟨_, i⟩ := (reach_all hd h).i
  exact i.tk t

/-- C72: any two steps of a task are ordered, whoever executes them, so what the runtime and the task's body keep in its frame without synchronisation
is not raced for: of two steps in the log (newest first) for one task the earlier happens before the later. -/
theorem C72_frame (hd : Mem.Disc body pend dirty) {a : HS σ V E L} (h : Reach body pend may ok m a) :
    a.tr.Pairwise fun r r' => r.task = r'.task → r'.no ∈ r.known := by
  have A := reach_all hd h
  have : ∀ {l : List (Rec L)}, (∀ r ∈ l, r.before ⊆ r.known) → l.Pairwise Two → l.Pairwise fun r r' => r.task = r'.task → r'.no ∈ r.known := by
    intro l h1 h2
    induction h2 with
    | nil => exact .nil
    | cons h3 _ ih => exact .cons (fun r' hr' e => h1 _ (List.mem_cons_self ..) (h3 r' hr' (.inl e))) (ih fun r hr => h1 r (List.mem_cons_of_mem _ hr))
  exact this A.bk A.two

/-- C72: the join counter is constructed with a plain write, at first and again after every join. That is never a data race: it is ordered with every other access to the counter. -/
theorem C72_counter (hd : Mem.Disc body pend dirty) {a : HS σ V E L} (h : Reach body pend may ok m a) :
    a.tr.Pairwise fun r r' => Clash r r' → r'.no ∈ r.known := by
  have A := reach_all hd h
  have : ∀ {l : List (Rec L)}, (∀ r ∈ l, r.before ⊆ r.known) → l.Pairwise Two → l.Pairwise fun r r' => Clash r r' → r'.no ∈ r.known := by
    intro l h1 h2
    induction h2 with
    | nil => exact .nil
    | cons h3 _ ih => exact .cons (fun r' hr' e => h1 _ (List.mem_cons_self ..) (h3 r' hr' (.inr (.inl e)))) (ih fun r hr => h1 r (List.mem_cons_of_mem _ hr))
  exact this A.bk A.two

omit [Inhabited E] [DecidableEq L] in
theorem call_gone {x : XS σ V E} {g : Ord} {h : Clk} {B : Nat → List Nat} (i : I x.c.nf x.c.loc x.c.pc (fun f => (x.c.fr f).stolen) x.c.link h g B) (F : Fx x) {p c : Nat} (hc : c < x.c.nf)
    (hp : g.par c = .call p) (hw : x.c.loc p ≠ .callwait c) : x.c.loc c = .gone := by
  have hlk : x.c.link c = .call p := by
    have := i.par c hc
    rw [hp] at this
    cases hl : x.c.link c <;> rw [hl] at this <;> first | exact this.elim | (cases this; rfl)
  have hna : ¬ Alive (x.c.loc c) := fun ha => by
    have := (F.callw p c).2 ⟨hlk, ha⟩
    exact hw this
  cases hl : x.c.loc c with
  | gone => rfl
  | unborn => have := (F.loc.fresh c).1 hl; omega
  | finishing v =>
    exfalso
    obtain ⟨q, hq⟩ := (F.loc.fin v c).1 hl
    have := F.flink v q c hq
    rw [hlk] at this; cases this
  | _ => rw [hl] at hna; exact absurd trivial hna

omit [Inhabited E] [DecidableEq L] in
/-- Everything below a task that is gone is in its order. -/
theorem under_gone {x : XS σ V E} {g : Ord} {tr : List (Rec L)} {h : Clk} {B : Nat → List Nat} (i : I x.c.nf x.c.loc x.c.pc (fun f => (x.c.fr f).stolen) x.c.link h g B) (j : JX x g tr) (F : Fx x) {f c : Nat}
    (hu : Under g.par f c) (hf : x.c.loc f = .gone) : c < x.c.nf → x.c.loc c = .gone ∧ g.L c ⊆ g.L f := by
  induction hu with
  | self => exact fun _ => ⟨hf, fun _ h => h⟩
  | @fork c p hp _ ih =>
    intro hc
    obtain ⟨h1, h2⟩ := ih (by have := j.pl c hc p (.inl hp); omega)
    have hg : x.c.loc c = .gone := by
      by_cases h3 : x.c.loc c = .gone
      · exact h3
      · exfalso
        have := F.kid c p (par_fork i hc hp) (fun e => by have := (F.loc.fresh c).1 e; omega) h3
        rw [h1] at this; exact this
    refine ⟨hg, fun e he => ?_⟩
    rcases (j.go c hc hg).1 p hp e he with h3 | h3
    · rw [j.de p (by rw [h1]; exact fun h => h)] at h3; cases h3
    · exact h2 h3
  | @call c p hp _ ih =>
    intro hc
    obtain ⟨h1, h2⟩ := ih (by have := j.pl c hc p (.inr hp); omega)
    have hg := call_gone i F hc hp (by rw [h1]; simp)
    exact ⟨hg, fun e he => h2 ((j.go c hc hg).2 p hp he)⟩

/-- C72: when a thread comes back from waiting for a root task, everything that task and all tasks below it have done happens before what it does next. -/
theorem C72_wait (hd : Mem.Disc body pend dirty) {a a' : HS σ V E L} (h : Reach body pend may ok m a) {t f : Nat} (hw : wait a t f = .ok a') :
    ∀ r ∈ a.tr, Under a.g.par f r.task → r.no ∈ a'.h.kt t := by
  have A := reach_all hd h
  have F := fx_of (Mem.disc_ctl hd) (reach_x h)
  obtain ⟨B, i⟩ := A.i
  intro r hr hu
  unfold wait at hw
  split at hw <;> cases hw
  rename_i k hk
  obtain ⟨h1, h2⟩ := i.root f k hk
  obtain ⟨h3, h4⟩ := A.j.rt r hr
  have := (under_gone i A.j F hu h2 h3).2 h4
  simp only [upd_same]
  exact List.mem_cons_of_mem _ (List.mem_append.2 (.inl (h1 this)))

/-- C72: when a task has no forks to join, at its start or after a join, everything it and all tasks below it have done so far happens before what it does next,
whichever workers did it. -/
theorem C72_join (hd : Mem.Disc body pend dirty) {a : HS σ V E L} (h : Reach body pend may ok m a) {w f : Nat} (hw : a.s.x.c.pc w = .run f) (h0 : pend (a.s.x.c.fr f).st = 0) :
    ∀ r ∈ a.tr, Under a.g.par f r.task → r.no ∈ a.h.kn w := by
  have A := reach_all hd h
  have F := fx_of (Mem.disc_ctl hd) (reach_x h)
  have S := fs_of (Mem.disc_ctl hd) (reach_x h)
  obtain ⟨B, i⟩ := A.i
  have hs : (a.s.x.c.fr f).slots = [] := List.length_eq_zero_iff.1 (by rw [← S.pd w f hw]; exact h0)
  have hl := (F.loc.run w f).2 (.inl hw)
  have key : ∀ c, Under a.g.par f c → c < a.s.x.c.nf → c = f ∨ (a.s.x.c.loc c = .gone ∧ a.g.L c ⊆ a.g.L f) := by
    intro c hu
    induction hu with
    | self => exact fun _ => .inl rfl
    | @fork c p hp hu ih =>
      intro hc
      right
      have hc' : p < a.s.x.c.nf := by have := A.j.pl c hc p (.inl hp); omega
      rcases ih hc' with rfl | ⟨h1, h2⟩
      · have hg : a.s.x.c.loc c = .gone := by
          by_cases h3 : a.s.x.c.loc c = .gone
          · exact h3
          · exact absurd hs (S.slot c p (par_fork i hc hp) (fun e => by have := (F.loc.fresh c).1 e; omega) h3)
        refine ⟨hg, fun e he => ?_⟩
        rcases (A.j.go c hc hg).1 p hp e he with h3 | h3
        · rw [A.j.dn p (by rw [hl]; trivial) hs] at h3; cases h3
        · exact h3
      · obtain ⟨h3, h4⟩ := under_gone i A.j F (.fork hp .self) h1 hc
        exact ⟨h3, fun e he => h2 (h4 he)⟩
    | @call c p hp hu ih =>
      intro hc
      right
      have hc' : p < a.s.x.c.nf := by have := A.j.pl c hc p (.inr hp); omega
      rcases ih hc' with rfl | ⟨h1, h2⟩
      · have hg : a.s.x.c.loc c = .gone := by
          exact call_gone i F hc hp (by rw [hl]; simp)
        exact ⟨hg, (A.j.go c hc hg).2 p hp⟩
      · obtain ⟨h3, h4⟩ := under_gone i A.j F (.call hp .self) h1 hc
        exact ⟨h3, fun e he => h2 (h4 he)⟩
  intro r hr hu
  obtain ⟨h3, h4⟩ := A.j.rt r hr
  have h5 : r.no ∈ a.g.L f := (key _ hu h3).elim (fun h => h ▸ h4) fun h => h.2 h4
  have h6 := i.hk f
  rw [hl] at h6
  exact h6 (i.lb f (by rw [hl]; trivial) h5)

end Verif.Hb
