import Verif.Hb.Moves

/-!
Every step of a worker keeps the invariant, and what the program puts before the step happens before it.
-/
namespace Verif.Hb
open Verif.Runtime (State Res Fr Pc Loc Link Alive Few forkPar upd upd_apply upd_same upd_ne maxU16)
open Verif.Exn (XS Choice)
open Verif.Mem (MS Act)

variable {σ V E L : Type}

/-- What a step does. -/
def Good (x x' : XS σ V E) (body : σ → Act σ V E L) (w : Nat) (ch : Choice E) (h : Clk) (g : Ord) : Prop :=
  (∃ B, I x'.c.nf x'.c.loc x'.c.pc (fun f => (x'.c.fr f).stolen) x'.c.link (sync body w ch x h)
    (post body w ch x (match who w ch x with | some f => (merge body w ch x x' g).act h.n f | none => merge body w ch x x' g)) B) ∧
  ∀ f, who w ch x = some f → (merge body w ch x x' g).L f ⊆ (sync body w ch x h).kn w

theorem stolen_upd {W : Type} (fr : Nat → Fr σ W) (f : Nat) {k : Fr σ W} (hk : k.stolen = (fr f).stolen) : (fun p => (upd fr f k p).stolen) = fun p => (fr p).stolen := by
  funext p; rw [upd_apply]; split
  · rename_i e; rw [e, hk]
  · rfl

theorem plain_ok {x x' : XS σ V E} {r : Res (State σ (Except E V))} (e : Exn.plain x r = .ok x') : ∃ c, r = .ok c ∧ x' = { x with c := c } := by
  cases r with
  | ok c => exact ⟨c, rfl, (Res.ok.inj e).symm⟩
  | ub => cases e
  | no => cases e

theorem tick_mem (h : Clk) (w : Nat) : h.n ∈ (h.tick w).kn w := by simp [Clk.tick, upd_same]

theorem pend_of {p c : Nat} {q : Pc} (hp : Pend p c q) : (∃ a b, q = .finPop a b) ∨ ∃ a b d, q = .finDec a b d := by
  rcases hp with hp | ⟨b, hp⟩
  · exact .inl ⟨p, c, hp⟩
  · exact .inr ⟨p, c, b, hp⟩

theorem not_pend {q : Pc} (h1 : ∀ a b, q ≠ .finPop a b) (h2 : ∀ a b d, q ≠ .finDec a b d) (p c : Nat) : ¬ Pend p c q := fun hp => by
  rcases pend_of hp with ⟨a, b, e⟩ | ⟨a, b, d, e⟩
  · exact h1 a b e
  · exact h2 a b d e

section
variable {x x' : XS σ V E} {h : Clk} {g : Ord} {B : Nat → List Nat} {w : Nat} {ch : Choice E} {body : σ → Act σ V E L}

/-- A task that is alive is not ending. -/
theorem Fx.quiet (F : Fx x) {f : Nat} (hf : Alive (x.c.loc f)) (v p : Nat) : ¬ Pend p f (x.c.pc v) := fun hp => by
  have := (F.loc.fin v f).2 ⟨p, hp⟩
  rw [this] at hf; exact hf

theorem Fx.pend (F : Fx x) {v p c : Nat} (hp : Pend p c (x.c.pc v)) : x.c.loc c = .finishing v := (F.loc.fin v c).2 ⟨p, hp⟩

/-- The beginning of every step for a task that the worker has. -/
theorem I.begin (i : I x.c.nf x.c.loc x.c.pc (fun f => (x.c.fr f).stolen) x.c.link h g B) {f : Nat} (F : Fx x) (hs : Has w (x.c.loc f)) :
    I x.c.nf x.c.loc x.c.pc (fun f => (x.c.fr f).stolen) x.c.link (h.tick w) (g.act h.n f) (upd B f ((h.tick w).kn w)) ∧ g.L f ⊆ (h.tick w).kn w := by
  have i2 := (i.tick w).hold (f := f) hs
  have := i2.lb f hs.alive
  rw [upd_same] at this
  exact ⟨i2.act hs (upd_same ..) (F.quiet hs.alive) (tick_mem h w), this⟩

theorem good_take (i : I x.c.nf x.c.loc x.c.pc (fun f => (x.c.fr f).stolen) x.c.link h g B) (F : Fx x) (hp : x.c.pc w = .idle)
    (e : Exn.plain x (Runtime.take x.c w) = .ok x') : Good x x' body w (.go .take) h g := by
  obtain ⟨c, e1, rfl⟩ := plain_ok e
  unfold Runtime.take at e1
  cases hb : x.c.inbox w with
  | nil => rw [hb] at e1; cases e1
  | cons f r =>
    rw [hb] at e1
    simp only at e1
    split at e1
    · cases e1
      have hl : x.c.loc f = .inbox w := (F.loc.inb w f).2 (by rw [hb]; exact List.mem_cons_self ..)
      have i1 := (i.tick w).acquire w ((h.tick w).kb f)
      have hk := i1.hk f
      rw [hl] at hk
      have i2 := i1.move (f := f) (l := .running w) (by rw [hl]; simp) (by simp) (by rw [hl]; trivial)
        (fun y hy => by simp only [Clk.acquire, upd_same]; exact List.mem_append.2 (.inl (hk hy)))
        (fun hj => by
          rcases i1.kj f (by rw [hl]; trivial) hj with h1 | ⟨v, h1⟩ | ⟨v, c, h1, _⟩
          · exact .inl h1
          · rw [hl] at h1; cases h1
          · rw [hl] at h1; cases h1) (fun _ _ hc => by cases hc)
      have i3 := i2.hold (w := w) (f := f) (by rw [upd_same]; rfl)
      have hL := i3.lb f (by rw [upd_same]; trivial)
      rw [upd_same] at hL
      have i4 := i3.act (w := w) (f := f) (n := h.n) (by rw [upd_same]; rfl) (upd_same ..) (F.quiet (by rw [hl]; trivial))
        (by simp only [Clk.acquire, upd_same]; exact List.mem_append.2 (.inr (tick_mem h w)))
      have i5 := i4.goto (w := w) (q := .run f) (not_pend (by rw [hp]; simp) (by rw [hp]; simp)) (not_pend (by simp) (by simp))
      refine ⟨?_, fun f' hf' => ?_⟩
      · simp only [sync, who, merge, post, hp, hb]
        exact ⟨_, i5⟩
      · simp only [who, hp, hb, Option.some.injEq] at hf'
        subst hf'
        simp only [sync, merge, hp, hb]
        exact hL
    · cases e1

theorem good_steal (i : I x.c.nf x.c.loc x.c.pc (fun f => (x.c.fr f).stolen) x.c.link h g B) (F : Fx x) (hp : x.c.pc w = .idle) {v : Nat}
    (e : Exn.plain x (Runtime.steal x.c w v) = .ok x') : Good x x' body w (.go (.steal v)) h g := by
  obtain ⟨c, e1, rfl⟩ := plain_ok e
  unfold Runtime.steal at e1
  cases hb : (x.c.q v).getLast? with
  | none => rw [hb] at e1; cases e1
  | some y =>
    obtain ⟨p, k⟩ := y
    rw [hb] at e1
    simp only at e1
    split at e1
    · cases e1
      have hl : x.c.loc p = .queued v k := (F.loc.queue v p k).2 (List.mem_of_getLast? hb)
      have i1 := (i.tick w).acquire w ((h.tick w).kq p)
      have hk := i1.hk p
      rw [hl] at hk
      have i2 := i1.move (f := p) (l := .stolenBy w) (by rw [hl]; simp) (by simp) (by rw [hl]; trivial)
        (fun y hy => by simp only [Clk.acquire, upd_same]; exact List.mem_append.2 (.inl (hk.1 hy)))
        (fun _ => .inr (.inl ⟨w, rfl⟩)) (fun _ _ hc => by cases hc)
      have i5 := i2.goto (w := w) (q := .stole p) (not_pend (by rw [hp]; simp) (by rw [hp]; simp)) (not_pend (by simp) (by simp))
      refine ⟨?_, fun f' hf' => ?_⟩
      · simp only [sync, who, merge, post, hp, hb]
        exact ⟨_, i5⟩
      · simp only [who, hp] at hf'
        cases hf'
    · split at e1 <;> cases e1

theorem good_joinLoad (i : I x.c.nf x.c.loc x.c.pc (fun f => (x.c.fr f).stolen) x.c.link h g B) (F : Fx x) {f : Nat} (hp : x.c.pc w = .joinLoad f)
    (e : Exn.plain x (Runtime.joinLoad x.c w f) = .ok x') : Good x x' body w ch h g := by
  obtain ⟨c, e1, rfl⟩ := plain_ok e
  have hl : x.c.loc f = .running w := (F.loc.run w f).2 (.inr (.inl hp))
  have hs : Has w (x.c.loc f) := by rw [hl]; rfl
  obtain ⟨i1, h1⟩ := i.begin F hs
  have np : ∀ p c, ¬ Pend p c (x.c.pc w) := not_pend (by rw [hp]; simp) (by rw [hp]; simp)
  unfold Runtime.joinLoad at e1
  simp only at e1
  split at e1
  · rename_i hc
    cases e1
    have i2 := i1.acquire w ((h.tick w).kj f)
    have i3 := i2.move (f := f) (l := .winning w) (by rw [hl]; simp) (by simp) (by rw [hl]; trivial)
      (by
        have := i2.hk f
        rw [hl] at this
        exact ⟨this, fun y hy => by simp only [Clk.acquire, upd_same]; exact List.mem_append.2 (.inl hy)⟩)
      (fun hj => by
        rcases i2.kj f (by rw [hl]; trivial) hj with h1 | ⟨v, h1⟩ | ⟨v, c, h1, _⟩
        · exact .inl h1
        · rw [hl] at h1; cases h1
        · rw [hl] at h1; cases h1) (fun _ _ hc => by cases hc)
    have i5 := i3.goto (w := w) (q := .joinTake f) np (not_pend (by simp) (by simp))
    refine ⟨?_, fun f' hf' => ?_⟩
    · simp only [sync, who, merge, post, hp, if_pos hc]
      exact ⟨_, i5⟩
    · simp only [who, hp, Option.some.injEq] at hf'
      subst hf'
      simp only [sync, merge, hp, if_pos hc, Clk.acquire, upd_same]
      exact fun y hy => List.mem_append.2 (.inr (h1 hy))
  · rename_i hc
    cases e1
    have i5 := i1.goto (w := w) (q := .joinSub f) np (not_pend (by simp) (by simp))
    refine ⟨?_, fun f' hf' => ?_⟩
    · simp only [sync, who, merge, post, hp, if_neg hc]
      exact ⟨_, i5⟩
    · simp only [who, hp, Option.some.injEq] at hf'
      subst hf'
      simp only [sync, merge, hp, if_neg hc]
      exact h1

theorem I.ext_clk {h h' : Clk} {nf : Nat} {loc : Nat → Loc} {pc : Nat → Pc} {stolen : Nat → Nat} {link : Nat → Link} {g : Ord} {B : Nat → List Nat}
    (i : I nf loc pc stolen link h g B) (h1 : h'.kn = h.kn) (h2 : h'.kt = h.kt) (h3 : h'.kq = h.kq) (h4 : h'.kb = h.kb) (h5 : h'.kj = h.kj) (h6 : h'.kr = h.kr) :
    I nf loc pc stolen link h' g B :=
  i.grow _ (fun w => by rw [h1]; exact fun _ h => h) h3 h4 h5 h6 (fun t => by rw [h2]; exact fun _ h => h)

theorem good_joinSub (i : I x.c.nf x.c.loc x.c.pc (fun f => (x.c.fr f).stolen) x.c.link h g B) (F : Fx x) {f : Nat} (hp : x.c.pc w = .joinSub f)
    (e : Exn.plain x (Runtime.joinSub x.c w f) = .ok x') : Good x x' body w ch h g := by
  obtain ⟨c, e1, rfl⟩ := plain_ok e
  have hl : x.c.loc f = .running w := (F.loc.run w f).2 (.inr (.inr hp))
  have hs : Has w (x.c.loc f) := by rw [hl]; rfl
  obtain ⟨i1, h1⟩ := i.begin F hs
  have np : ∀ p c, ¬ Pend p c (x.c.pc w) := not_pend (by rw [hp]; simp) (by rw [hp]; simp)
  have hst : ∀ j, (fun p => (upd x.c.fr f { x.c.fr f with join := j } p).stolen) = fun p => (x.c.fr p).stolen := fun j => stolen_upd x.c.fr f rfl
  have hn := F.js w f hp
  have i2 := i1.decr (f := f) ((h.tick w).kn w) (by rw [hl]; simp) (.inl hn)
  unfold Runtime.joinSub at e1
  simp only at e1
  split at e1
  · rename_i hc
    cases e1
    have i3 := i2.acquire w ((h.tick w).kj f)
    have i4 := i3.move (f := f) (l := .winning w) (by rw [hl]; simp) (by simp) (by rw [hl]; trivial)
      (by
        have := i3.hk f
        rw [hl] at this
        refine ⟨this, fun y hy => ?_⟩
        simp only [Clk.acquire, upd_same] at hy ⊢
        simp only [List.mem_append] at hy ⊢
        exact hy.symm)
      (fun _ => .inl hn) (fun _ _ hc => by cases hc)
    have i5 := i4.goto (w := w) (q := .joinTake f) np (not_pend (by simp) (by simp))
    have i6 := i5.grow ((h.tick w).sub w f true) (fun v y hy => by
      simp only [Clk.sub, Clk.acquire, if_true] at hy ⊢
      rw [upd_apply] at hy ⊢
      split
      · rename_i hv
        rw [if_pos hv] at hy
        simp only [List.mem_append] at hy ⊢
        exact hy.symm
      · rename_i hv
        rw [if_neg hv] at hy
        exact hy) rfl rfl rfl rfl (fun _ _ h => h)
    refine ⟨?_, fun f' hf' => ?_⟩
    · simp only [sync, who, merge, post, hp, decide_eq_true hc, hst]
      exact ⟨_, i6⟩
    · simp only [who, hp, Option.some.injEq] at hf'
      subst hf'
      simp only [sync, merge, hp, decide_eq_true hc, Clk.sub, if_true, upd_same]
      exact fun y hy => List.mem_append.2 (.inl (h1 hy))
  · rename_i hc
    cases e1
    have i4 := i2.move (f := f) (l := .parked) (by rw [hl]; simp) (by simp) (by rw [hl]; trivial)
      (by
        have := i1.hk f
        rw [hl] at this
        intro y hy
        simp only [upd_same]
        exact List.mem_append.2 (.inl (this hy)))
      (fun _ => .inl hn) (fun _ _ hc => by cases hc)
    have i5 := i4.goto (w := w) (q := .selfSteal) np (not_pend (by simp) (by simp))
    refine ⟨?_, fun f' hf' => ?_⟩
    · simp only [sync, who, merge, post, hp, decide_eq_false hc, hst]
      exact ⟨_, i5⟩
    · simp only [who, hp, Option.some.injEq] at hf'
      subst hf'
      simp only [sync, merge, hp, decide_eq_false hc]
      exact h1

theorem I.cong {nf : Nat} {loc loc' : Nat → Loc} {pc pc' : Nat → Pc} {stolen stolen' : Nat → Nat} {link link' : Nat → Link} {nf' : Nat} {h : Clk} {g : Ord} {B : Nat → List Nat}
    (i : I nf loc pc stolen link h g B) (h1 : nf' = nf) (h2 : loc' = loc) (h3 : pc' = pc) (h4 : stolen' = stolen) (h5 : link' = link) :
    I nf' loc' pc' stolen' link' h g B := by subst h1 h2 h3 h4 h5; exact i

/-- The winner of a join knows what the children did. -/
theorem drained (i : I x.c.nf x.c.loc x.c.pc (fun f => (x.c.fr f).stolen) x.c.link h g B) (F : Fx x) {f : Nat} (hl : x.c.loc f = .winning w) : g.D f ⊆ h.kn w := by
  intro e he
  have hk := i.hk f
  rw [hl] at hk
  rcases i.dd f (by rw [hl]; trivial) e he with h1 | h1 | ⟨v, c, h1, _⟩
  · exact hk.2 h1
  · exact hk.1 h1
  · exfalso
    have h3 := F.pend h1
    rcases F.win w f c hl (F.flink v f c h1) with h4 | h4 <;> rw [h3] at h4 <;> cases h4

theorem passJoin_eq {bd : σ → Exn.Act σ V E} {s s' : XS σ V E} {f : Nat} (e : Exn.passJoin bd s w f = .ok s') :
    s'.c.nf = s.c.nf ∧ s'.c.loc = upd s.c.loc f (.running w) ∧ s'.c.pc = upd s.c.pc w (.run f) ∧
    (fun p => (s'.c.fr p).stolen) = (fun p => (s.c.fr p).stolen) ∧ s'.c.link = s.c.link := by
  unfold Exn.passJoin at e
  simp only at e
  split at e
  · split at e
    · cases e; exact ⟨rfl, rfl, rfl, stolen_upd _ _ rfl, rfl⟩
    · cases e; exact ⟨rfl, rfl, rfl, stolen_upd _ _ rfl, rfl⟩
    · cases e
  · cases e

/-- A worker that has won a join passes it. -/
theorem pass_won (i : I x.c.nf x.c.loc x.c.pc (fun f => (x.c.fr f).stolen) x.c.link h g B) (F : Fx x) {f : Nat} (hl : x.c.loc f = .winning w)
    (hp : x.c.pc w = .joinTake f ∨ ∃ b, x.c.pc w = .finWin f b) (h1 : x'.c.nf = x.c.nf) (h2 : x'.c.loc = upd x.c.loc f (.running w)) (h3 : x'.c.pc = upd x.c.pc w (.run f))
    (h4 : ∀ p, p ≠ f → (x'.c.fr p).stolen = (x.c.fr p).stolen) (h5 : x'.c.link = x.c.link) : Good x x' body w ch h g := by
  have hs : Has w (x.c.loc f) := by rw [hl]; rfl
  have np : ∀ p c, ¬ Pend p c (x.c.pc w) := by
    rcases hp with hp | ⟨b, hp⟩ <;> exact not_pend (by rw [hp]; simp) (by rw [hp]; simp)
  have i1 := (i.tick w).hold (f := f) hs
  have i2 := i1.join hs (upd_same ..) (F.quiet hs.alive) (drained (i.tick w) F hl)
  have hL := i2.lb f hs.alive
  rw [upd_same] at hL
  have i3 := i2.act hs (upd_same ..) (F.quiet hs.alive) (tick_mem h w)
  have i4 := i3.store hs (show upd g.D f [] f = [] from upd_same ..)
  have i5 := i4.move (f := f) (l := .running w) (by rw [hl]; simp) (by simp) (by rw [hl]; trivial)
    (by simp only [HK, upd_same]; exact fun _ h => h)
    (fun hj => absurd (by simp [Clk.store, upd_same]) hj) (fun _ _ hc => by cases hc)
  have i6 := i5.goto (w := w) (q := .run f) np (not_pend (by simp) (by simp))
  have i7 := i6.setStolen (stolen' := fun p => (x'.c.fr p).stolen) (f := f) h4 (.inl (by simp [Clk.store, upd_same]))
  have i8 := i7.cong h1 h2 h3 rfl h5
  refine ⟨?_, fun f' hf' => ?_⟩
  · rcases hp with hp | ⟨b, hp⟩ <;> simp only [sync, who, merge, post, hp] <;> exact ⟨_, i8⟩
  · rcases hp with hp | ⟨b, hp⟩ <;> simp only [who, hp, Option.some.injEq] at hf' <;> subst hf' <;> simp only [sync, merge, hp] <;> exact hL

theorem good_joinTake {bd : σ → Exn.Act σ V E} (i : I x.c.nf x.c.loc x.c.pc (fun f => (x.c.fr f).stolen) x.c.link h g B) (F : Fx x) {f : Nat} (hp : x.c.pc w = .joinTake f)
    (e : Exn.joinTake bd x w f = .ok x') : Good x x' body w ch h g := by
  have hl : x.c.loc f = .winning w := (F.loc.win w f).2 (.inl hp)
  unfold Exn.joinTake at e
  split at e
  · obtain ⟨h1, h2, h3, h4, h5⟩ := passJoin_eq e
    refine pass_won i F hl (.inl hp) h1 h2 h3 (fun p hpf => ?_) h5
    rw [congrFun h4 p]
    simp only [upd_ne _ _ hpf]
  · cases e

theorem good_finWin {bd : σ → Exn.Act σ V E} (i : I x.c.nf x.c.loc x.c.pc (fun f => (x.c.fr f).stolen) x.c.link h g B) (F : Fx x) {f : Nat} {b : Bool} (hp : x.c.pc w = .finWin f b)
    (e : Exn.finWin bd x w f b = .ok x') : Good x x' body w ch h g := by
  have hl : x.c.loc f = .winning w := (F.loc.win w f).2 (.inr ⟨b, hp⟩)
  unfold Exn.finWin at e
  simp only at e
  split at e
  · split at e
    · obtain ⟨h1, h2, h3, h4, h5⟩ := passJoin_eq e
      refine pass_won i F hl (.inr ⟨b, hp⟩) h1 h2 h3 (fun p hpf => ?_) h5
      rw [congrFun h4 p]
      simp only [upd_ne _ _ hpf]
    · split at e
      · obtain ⟨h1, h2, h3, h4, h5⟩ := passJoin_eq e
        refine pass_won i F hl (.inr ⟨b, hp⟩) h1 h2 h3 (fun p hpf => ?_) h5
        rw [congrFun h4 p]
        simp only [upd_ne _ _ hpf]
      · cases e
  · cases e

theorem wake_eq {bd : σ → Exn.Act σ V E} {s s' : XS σ V E} {p : Nat} (e : Exn.wake bd s p = .ok s') :
    s'.c.nf = s.c.nf ∧ s'.c.loc = s.c.loc ∧ s'.c.pc = s.c.pc ∧ (∀ q, (s'.c.fr q).stolen = (s.c.fr q).stolen ∧ (s'.c.fr q).steal = (s.c.fr q).steal) ∧ s'.c.link = s.c.link := by
  unfold Exn.wake at e
  split at e
  · cases e
    refine ⟨rfl, rfl, rfl, fun q => ?_, rfl⟩
    simp only [Exn.goOn, upd_apply]
    split
    · rename_i e; subst e; exact ⟨rfl, rfl⟩
    · exact ⟨rfl, rfl⟩
  · cases e

theorem upd_comm {α : Type} (f : Nat → α) {i j : Nat} (a b : α) (hij : i ≠ j) : upd (upd f i a) j b = upd (upd f j b) i a := by
  funext k; simp only [upd_apply]; by_cases e1 : k = i <;> by_cases e2 : k = j <;> simp_all

theorem good_finPop {bd : σ → Exn.Act σ V E} (i : I x.c.nf x.c.loc x.c.pc (fun f => (x.c.fr f).stolen) x.c.link h g B) (F : Fx x) {p c : Nat} (hp : x.c.pc w = .finPop p c)
    {y : Nat × Nat} {r : List (Nat × Nat)} (hq : x.c.q w = y :: r)
    (e : Exn.Res.bind (Exn.plain x (Runtime.finPop x.c w p c)) (Exn.wake bd · p) = .ok x') : Good x x' body w ch h g := by
  cases e0 : Exn.plain x (Runtime.finPop x.c w p c) with
  | ub => rw [e0] at e; cases e
  | no => rw [e0] at e; cases e
  | ok x1 =>
    rw [e0] at e
    obtain ⟨c1, e1, rfl⟩ := plain_ok e0
    obtain ⟨w1, w2, w3, w4, w5⟩ := wake_eq e
    obtain ⟨p', c'⟩ := y
    have hc' : c' = c := F.head w p c (p', c') hp (by rw [hq]; rfl)
    subst hc'
    unfold Runtime.finPop at e1
    rw [hq] at e1
    simp only at e1
    split at e1
    · rename_i hc
      obtain ⟨rfl, _⟩ := hc
      have hpd : Pend p' c' (x.c.pc w) := .inl hp
      have hlc := F.pend hpd
      have hlp : x.c.loc p' = .queued w c' := (F.loc.queue w p' c').2 (by rw [hq]; exact List.mem_cons_self ..)
      have hne : p' ≠ c' := by rintro rfl; rw [hlc] at hlp; cases hlp
      cases e1
      have i1 := i.tick w
      have hk := i1.hk p'
      rw [hlp] at hk
      have i2 := i1.move (f := p') (l := .running w) (by rw [hlp]; simp) (by simp) (by rw [hlp]; trivial) hk.2
        (fun hj => by
          rcases i1.kj p' (by rw [hlp]; trivial) hj with h1 | ⟨v, h1⟩ | ⟨v, c, h1, h2⟩
          · exact .inl h1
          · rw [hlp] at h1; cases h1
          · rw [hlp] at h1
            cases h1
            rw [hlc] at h2; cases h2) (fun _ _ hc => by cases hc)
      have hs : Has w (upd x.c.loc p' (.running w) p') := by rw [upd_same]; rfl
      have i3 := i2.hold (w := w) (f := p') hs
      have hqu : ∀ v q, ¬ Pend q p' (x.c.pc v) := F.quiet (by rw [hlp]; trivial)
      have hkid : g.kid p' = c' := i1.kid w p' c' hlp
      have i4 : I x.c.nf (upd x.c.loc p' (.running w)) x.c.pc (fun f => (x.c.fr f).stolen) x.c.link (h.tick w) (if answer p' x x' then g.told p' else g) (upd B p' ((h.tick w).kn w)) := by
        split
        · exact i3.told hs (upd_same ..) hqu (by rw [hkid]; exact i1.fin w p' c' hpd)
        · exact i3
      have hL := i4.lb p' hs.alive
      rw [upd_same] at hL
      have i5 := i4.act hs (upd_same ..) hqu (tick_mem h w)
      have i6 := i5.gotoR (w := w) (p := p') (q := .run p') (not_pend (by simp) (by simp)) (fun y hy => .inr (by rw [upd_same]; exact hy))
        (fun q k hqk => by rcases hqk with hqk | ⟨b, hqk⟩ <;> rw [hp] at hqk <;> cases hqk <;> rfl)
      have i7 := i6.leave (c := c') (l := .gone) (by rw [upd_ne _ _ (Ne.symm hne), hlc]; simp) (fun h => h)
      have i8 := i7.cong (w1.trans rfl) (w2.trans (upd_comm _ _ _ (Ne.symm hne))) (w3.trans rfl) (funext fun q => ((w4 q).1.trans (by
        simp only [Runtime.report, upd]
        split
        · next e => rw [e]
        · rfl))) (w5.trans rfl)
      refine ⟨?_, fun f' hf' => ?_⟩
      · simp only [sync, who, merge, post, hp, hq, if_false, reduceCtorEq]
        exact ⟨_, i8⟩
      · simp only [who, hp, hq, if_false, reduceCtorEq, Option.some.injEq] at hf'
        subst hf'
        simp only [sync, merge, hp, hq, if_false, reduceCtorEq]
        exact hL
    · cases e1

theorem good_finPop0 (i : I x.c.nf x.c.loc x.c.pc (fun f => (x.c.fr f).stolen) x.c.link h g B) (F : Fx x) {p c : Nat} (hp : x.c.pc w = .finPop p c)
    (hq : x.c.q w = []) (e : Exn.plain x (Runtime.finPop x.c w p c) = .ok x') : Good x x' body w ch h g := by
  obtain ⟨c1, e1, rfl⟩ := plain_ok e
  unfold Runtime.finPop at e1
  rw [hq] at e1
  simp only at e1
  split at e1
  · cases e1
    have hpd : Pend p c (x.c.pc w) := .inl hp
    have hlc := F.pend hpd
    have i1 := i.tick w
    have hL := i1.fin w p c hpd
    have i2 := i1.actC (n := h.n) hpd (by rw [hlc]; exact fun h => h) (by rw [hlc]; simp) (tick_mem h w)
      (fun v q hv => by have := F.pend hv; rw [hlc] at this; cases this; rfl)
    have i3 := i2.gotoP (w := w) (q := .finDec p c (decide (x.c.stk p = x.c.wk w))) (.inr ⟨_, rfl⟩) (i2.fin w p c hpd)
      (fun q k hqk => by rcases hqk with hqk | ⟨b, hqk⟩ <;> rw [hp] at hqk <;> cases hqk <;> exact ⟨rfl, rfl⟩)
    refine ⟨?_, fun f' hf' => ?_⟩
    · simp only [sync, who, merge, post, hp, hq, if_true]
      exact ⟨_, i3⟩
    · simp only [who, hp, hq, if_true, Option.some.injEq] at hf'
      subst hf'
      simp only [sync, merge, hp, hq, if_true]
      exact hL
  · cases e1

theorem ended_fork (i : I x.c.nf x.c.loc x.c.pc (fun f => (x.c.fr f).stolen) x.c.link h g B) {p c : Nat} (hc : c < x.c.nf) (hl : forkPar (x.c.link c) = some p) : g.par c = .fork p := by
  have := i.par c hc
  cases h1 : g.par c <;> cases h2 : x.c.link c <;> rw [h1, h2] at this <;> rw [h2] at hl <;> simp_all [ParOk, forkPar]

theorem good_finDec (i : I x.c.nf x.c.loc x.c.pc (fun f => (x.c.fr f).stolen) x.c.link h g B) (F : Fx x) (hf : Few x.c) {p c : Nat} {b : Bool} (hp : x.c.pc w = .finDec p c b)
    (e : Exn.plain x (Runtime.finDec x.c w p c b) = .ok x') : Good x x' body w ch h g := by
  obtain ⟨c1, e1, rfl⟩ := plain_ok e
  have hpd : Pend p c (x.c.pc w) := .inr ⟨b, hp⟩
  have hlc := F.pend hpd
  have hlk := F.flink w p c hpd
  have hap := F.kid c p hlk (by rw [hlc]; simp) (by rw [hlc]; simp)
  have hne : p ≠ c := by rintro rfl; rw [hlc] at hap; exact hap
  have hcn : c < x.c.nf := by
    rcases Nat.lt_or_ge c x.c.nf with h1 | h1
    · exact h1
    · have := (F.loc.fresh c).2 h1; rw [hlc] at this; cases this
  have hpar : (g.act h.n c).par c = .fork p := ended_fork i hcn hlk
  have i1 := i.tick w
  have hL := i1.fin w p c hpd
  have i2 := i1.actC (n := h.n) hpd (by rw [hlc]; exact fun h => h) (by rw [hlc]; simp) (tick_mem h w)
    (fun v q hv => by have := F.pend hv; rw [hlc] at this; cases this; rfl)
  have i3 : I x.c.nf x.c.loc x.c.pc (fun f => (x.c.fr f).stolen) x.c.link (h.tick w) ((g.act h.n c).ended c) B := by
    unfold Ord.ended
    rw [hpar]
    exact i2.setD hpd (i2.fin w p c hpd)
  have i4 := i3.leave (c := c) (l := .gone) (by rw [hlc]; simp) (fun h => h)
  have nw : ∀ v, x.c.loc p ≠ .winning v := fun v hv => by
    rcases F.win v p c hv hlk with h1 | h1 <;> rw [hlc] at h1 <;> cases h1
  have hk : (fun f => (x.c.fr f).stolen) p ≠ 0 ∨ (∃ v, upd x.c.loc c .gone p = .stolenBy v) ∨
      ∃ v c', upd x.c.loc c .gone p = .queued v c' ∧ upd x.c.loc c .gone c' = .gone := by
    rw [upd_ne _ _ hne]
    rcases F.dec w p c b hp with h1 | h1 | ⟨v, c', h1, h2⟩
    · exact .inl h1
    · exact .inr (.inl h1)
    · refine .inr (.inr ⟨v, c', h1, ?_⟩)
      rw [upd_apply]
      split
      · rfl
      · rcases h2 with h2 | h2
        · exact absurd h2 ‹_›
        · exact h2
  have i5 := i4.decr (f := p) ((h.tick w).kn w) (fun v => by rw [upd_ne _ _ hne]; exact nw v) hk
  have old : ∀ p' c', Pend p' c' (x.c.pc w) → p' = p := fun q k hqk => by rcases hqk with hqk | ⟨b, hqk⟩ <;> rw [hp] at hqk <;> cases hqk <;> rfl
  have hst : ∀ k j d, (fun q => (upd (upd x.c.fr p { x.c.fr p with kids := k }) p { x.c.fr p with kids := k, join := j, joined := d } q).stolen) = fun q => (x.c.fr q).stolen := fun k j d => by
    funext q; simp only [upd_apply]; split
    · rename_i e; rw [e]
    · rfl
  unfold Runtime.finDec Runtime.report at e1
  simp only [upd_same] at e1
  split at e1
  · split at e1
    · rename_i h1
      cases e1
      have hpk := F.one hf w p c b hp h1
      have i6 := i5.acquire w ((h.tick w).kj p)
      have i7 := i6.gotoR (w := w) (p := p) (q := .finWin p b) (not_pend (by simp) (by simp)) (fun y hy => .inl (by
        simp only [Clk.acquire, upd_same] at hy ⊢
        simp only [List.mem_append] at hy ⊢
        exact hy.symm)) old
      have i8 := i7.move (f := p) (l := .winning w) (by rw [upd_ne _ _ hne, hpk]; simp) (by simp) (by rw [upd_ne _ _ hne, hpk]; trivial)
        (by
          have := i7.hk p
          rw [upd_ne _ _ hne, hpk] at this
          have hj : ∀ y ∈ upd (h.tick w).kj p ((h.tick w).kn w ++ (h.tick w).kj p) p, y ∈ upd (h.tick w).kn w ((h.tick w).kj p ++ (h.tick w).kn w) w := fun y hy => by
            simp only [upd_same, List.mem_append] at hy ⊢
            exact hy.symm
          exact ⟨fun y hy => hj y (this hy), hj⟩)
        (fun _ => by
          rcases i5.kj p (by rw [upd_ne _ _ hne, hpk]; trivial) (by simp [upd_same, Clk.tick]) with h2 | ⟨v, h2⟩ | ⟨v, c', h2, _⟩
          · exact .inl h2
          · rw [upd_ne _ _ hne, hpk] at h2; cases h2
          · rw [upd_ne _ _ hne, hpk] at h2; cases h2) (fun _ _ hc => by cases hc)
      have i9 := i8.grow ((h.tick w).sub w p true) (fun v y hy => by
        simp only [Clk.sub, Clk.acquire, if_true] at hy ⊢
        rw [upd_apply] at hy ⊢
        split
        · rename_i hv
          rw [if_pos hv] at hy
          simp only [List.mem_append] at hy ⊢
          exact hy.symm
        · rename_i hv
          rw [if_neg hv] at hy
          exact hy) rfl rfl rfl rfl (fun _ _ h => h)
      refine ⟨?_, fun f' hf' => ?_⟩
      · simp only [sync, who, merge, post, hp, decide_eq_true h1, hst]
        exact ⟨_, i9⟩
      · simp only [who, hp, Option.some.injEq] at hf'
        subst hf'
        simp only [sync, merge, hp, decide_eq_true h1, Clk.sub, if_true, upd_same]
        exact fun y hy => List.mem_append.2 (.inl (hL hy))
    · rename_i h1
      cases e1
      have i7 := i5.gotoR (w := w) (p := p) (q := .finLose b) (not_pend (by simp) (by simp)) (fun y hy => .inl (by
        simp only [upd_same]
        exact List.mem_append.2 (.inl hy))) old
      refine ⟨?_, fun f' hf' => ?_⟩
      · simp only [sync, who, merge, post, hp, decide_eq_false h1, hst]
        exact ⟨_, i7⟩
      · simp only [who, hp, Option.some.injEq] at hf'
        subst hf'
        simp only [sync, merge, hp, decide_eq_false h1]
        exact hL
  · cases e1

theorem good_finLose (i : I x.c.nf x.c.loc x.c.pc (fun f => (x.c.fr f).stolen) x.c.link h g B) {b : Bool} (hp : x.c.pc w = .finLose b)
    (e : Exn.plain x (Runtime.finLose x.c w b) = .ok x') : Good x x' body w ch h g := by
  obtain ⟨c1, e1, rfl⟩ := plain_ok e
  have i5 := (i.tick w).goto (w := w) (q := .idle) (not_pend (by rw [hp]; simp) (by rw [hp]; simp)) (not_pend (by simp) (by simp))
  unfold Runtime.finLose at e1
  simp only at e1
  cases b <;> simp only [if_true, if_false, reduceCtorEq, Bool.false_eq_true] at e1 <;> split at e1 <;> cases e1
  all_goals
    refine ⟨?_, fun f' hf' => ?_⟩
    · simp only [sync, who, merge, post, hp]
      exact ⟨_, i5⟩
    · simp only [who, hp] at hf'
      cases hf'

theorem good_switchRel (i : I x.c.nf x.c.loc x.c.pc (fun f => (x.c.fr f).stolen) x.c.link h g B) {b : Bool} (hp : x.c.pc w = .switchRel b)
    (e : Exn.plain x (Runtime.switchRel x.c w b) = .ok x') : Good x x' body w ch h g := by
  obtain ⟨c1, e1, rfl⟩ := plain_ok e
  have i5 := (i.tick w).goto (w := w) (q := .selfSteal) (not_pend (by rw [hp]; simp) (by rw [hp]; simp)) (not_pend (by simp) (by simp))
  unfold Runtime.switchRel at e1
  simp only at e1
  cases b <;> simp only [if_true, if_false, reduceCtorEq, Bool.false_eq_true] at e1 <;> split at e1 <;> cases e1
  all_goals
    refine ⟨?_, fun f' hf' => ?_⟩
    · simp only [sync, who, merge, post, hp]
      exact ⟨_, i5⟩
    · simp only [who, hp] at hf'
      cases hf'

theorem good_selfSteal (i : I x.c.nf x.c.loc x.c.pc (fun f => (x.c.fr f).stolen) x.c.link h g B) (F : Fx x) (hp : x.c.pc w = .selfSteal)
    (e : Exn.plain x (Runtime.selfSteal x.c w) = .ok x') : Good x x' body w ch h g := by
  obtain ⟨c1, e1, rfl⟩ := plain_ok e
  have np : ∀ p c, ¬ Pend p c (x.c.pc w) := not_pend (by rw [hp]; simp) (by rw [hp]; simp)
  unfold Runtime.selfSteal at e1
  cases hq : x.c.q w with
  | nil =>
    rw [hq] at e1
    simp only at e1
    split at e1 <;> cases e1
    have i5 := (i.tick w).goto (w := w) (q := .idle) np (not_pend (by simp) (by simp))
    refine ⟨?_, fun f' hf' => ?_⟩
    · simp only [sync, who, merge, post, hp]
      exact ⟨_, i5⟩
    · simp only [who, hp] at hf'
      cases hf'
  | cons y r =>
    obtain ⟨p, c⟩ := y
    rw [hq] at e1
    cases e1
    have hlp : x.c.loc p = .queued w c := (F.loc.queue w p c).2 (by rw [hq]; exact List.mem_cons_self ..)
    have i1 := i.tick w
    have hk := i1.hk p
    rw [hlp] at hk
    have i2 := i1.move (f := p) (l := .stolenBy w) (by rw [hlp]; simp) (by simp) (by rw [hlp]; trivial) hk.2 (fun _ => .inr (.inl ⟨w, rfl⟩)) (fun _ _ hc => by cases hc)
    have i5 := i2.goto (w := w) (q := .stole p) np (not_pend (by simp) (by simp))
    refine ⟨?_, fun f' hf' => ?_⟩
    · simp only [sync, who, merge, post, hp]
      exact ⟨_, i5⟩
    · simp only [who, hp] at hf'
      cases hf'

theorem good_stole {bd : σ → Exn.Act σ V E} (i : I x.c.nf x.c.loc x.c.pc (fun f => (x.c.fr f).stolen) x.c.link h g B) (F : Fx x) {p : Nat} (hp : x.c.pc w = .stole p)
    (e : Exn.Res.bind (Exn.plain x (Runtime.stole x.c w p)) (Exn.wake bd · p) = .ok x') : Good x x' body w ch h g := by
  cases e0 : Exn.plain x (Runtime.stole x.c w p) with
  | ub => rw [e0] at e; cases e
  | no => rw [e0] at e; cases e
  | ok x1 =>
    rw [e0] at e
    obtain ⟨c1, e1, rfl⟩ := plain_ok e0
    obtain ⟨w1, w2, w3, w4, w5⟩ := wake_eq e
    unfold Runtime.stole at e1
    split at e1 <;> cases e1
    have hl : x.c.loc p = .stolenBy w := (F.loc.sto w p).2 hp
    have hs : Has w (x.c.loc p) := by rw [hl]; rfl
    obtain ⟨i1, h1⟩ := i.begin F hs
    have ha : answer p x x' = false := by
      unfold answer
      rw [F.aw p (.inr ⟨w, hl⟩)]
      simp only [(w4 p).2, upd_same, decide_eq_false_iff_not, Runtime.U16]
      omega
    have i2 := i1.setStolen (stolen' := fun q => (x'.c.fr q).stolen) (f := p) (fun q hq => by
      show (x'.c.fr q).stolen = _
      rw [(w4 q).1]; simp only [upd_ne _ _ hq]) (.inr (by
      show (x'.c.fr p).stolen ≠ 0
      rw [(w4 p).1]; simp [upd_same]))
    have i3 := i2.move (f := p) (l := .running w) (by rw [hl]; simp) (by simp) (by rw [hl]; trivial)
      (by simp only [HK, upd_same]; exact fun _ h => h)
      (fun _ => .inl (by
        show (x'.c.fr p).stolen ≠ 0
        rw [(w4 p).1]; simp [upd_same])) (fun _ _ hc => by cases hc)
    have i4 := i3.goto (w := w) (q := .run p) (not_pend (by rw [hp]; simp) (by rw [hp]; simp)) (not_pend (by simp) (by simp))
    have i5 := i4.cong w1 w2 w3 rfl w5
    refine ⟨?_, fun f' hf' => ?_⟩
    · simp only [sync, who, merge, post, hp, ha, if_false, Bool.false_eq_true]
      exact ⟨_, i5⟩
    · simp only [who, hp, Option.some.injEq] at hf'
      subst hf'
      simp only [sync, merge, hp, ha, if_false, Bool.false_eq_true]
      exact h1

end
end Verif.Hb
