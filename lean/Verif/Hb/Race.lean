import Verif.Hb.Follow
import Verif.Mem.Order

/-!
In an execution of a program without data races all conflicting accesses are ordered.
-/
namespace Verif.Hb
open Verif.Runtime (State Res Fr Pc Loc Link Alive Few forkPar upd upd_apply upd_same upd_ne maxU16 Ev status)
open Verif.Exn (XS Choice)
open Verif.Mem (MS Act FJ XR modeOf Mono RaceFree)
variable {σ V E L : Type}

/-- The tasks whose next statement does not come after step `n`. -/
def U (a : HS σ V E L) (n f : Nat) : Prop := f < a.s.x.c.nf ∧ n ∉ a.g.L f

/-- The locations that have not been written by `n` or after it. -/
def C (a : HS σ V E L) (n : Nat) (l : L) : Prop := ∀ r ∈ a.tr, r.acc = some (l, true) → n ≠ r.no ∧ n ∉ r.before

/-- A task in the state `y` is about to make the access. -/
def Does (body : σ → Act σ V E L) (y : σ) (l : L) : Bool → Prop
  | false => ∃ k, body y = .load l k
  | true => ∃ d k, body y = .store l d k

variable [Inhabited E] [DecidableEq L] {body : σ → Act σ V E L} {pend : σ → Nat} {dirty : σ → Prop} {may : E → Prop} {ok : (σ → Prop) → σ → Prop} {m : L → E}

section
variable {a : HS σ V E L} {w : Nat} {ch : Choice E} {x' : XS σ V E}

theorem post_mono {g : Ord} {p : Nat} (hp : p ≠ a.s.x.c.nf) : g.L p ⊆ (post body w ch a.s.x g).L p := by
  have en : ∀ f, g.L p ⊆ (g.ended f).L p := fun f => by
    unfold Ord.ended
    split
    · exact fun _ h => h
    · exact fun _ h => h
    · intro e he
      simp only [upd_apply]; split
      · rename_i e'; subst e'; exact List.mem_append.2 (.inr he)
      · exact he
  unfold post
  repeat' split
  all_goals first | exact en _ | exact fun _ h => h | (simp only [Ord.fork, Ord.call, upd_ne _ _ hp]; exact fun _ h => h)

theorem merge_order {p : Nat} (hp : p ≠ a.s.x.c.nf) : (merge body w ch a.s.x x' a.g).L p ⊆ (order body w ch a x').L p := by
  unfold order
  dsimp only
  refine fun e he => post_mono hp ?_
  split
  · simp only [Ord.act, upd_apply]; split
    · rename_i e'; subst e'; exact List.mem_cons_of_mem _ he
    · exact he
  · exact he

theorem pop_eq {x : XS σ V E} (e : Exn.step (Mem.ctl body) w ch x = .ok x') {f b p c : Nat} {l : List (Nat × Nat)} (hp : x.c.pc w = .finPop f b) (hq : x.c.q w = (p, c) :: l) : p = f := by
  unfold Exn.step at e
  rw [hp] at e
  simp only [hq] at e
  cases e0 : Exn.plain x (Runtime.finPop x.c w f b) with
  | ub => rw [e0] at e; cases e
  | no => rw [e0] at e; cases e
  | ok x1 =>
    obtain ⟨c1, e1, _⟩ := plain_ok e0
    unfold Runtime.finPop at e1
    rw [hq] at e1
    simp only at e1
    split at e1
    · rename_i h1; exact h1.1
    · cases e1

/-- A new task starts after what its parent has done. -/
theorem order_new {f : Nat} {o : Runtime.Choice} (hp : a.s.x.c.pc w = .run f) (hf : f < a.s.x.c.nf)
    (hb : (∃ c k z, body (a.s.x.c.fr f).st = .fork c k z) ∨ ∃ c k z, body (a.s.x.c.fr f).st = .call c k z) :
    (order body w (.go o) a x').L f = (order body w (.go o) a x').L a.s.x.c.nf := by
  have hne : f ≠ a.s.x.c.nf := by omega
  rcases hb with ⟨c, k, z, hb⟩ | ⟨c, k, z, hb⟩
  · simp only [order, merge, who, post, hp, hb, Ord.fork, Ord.act, upd_same, upd_ne _ _ hne]
  · simp only [order, merge, who, post, hp, hb, Ord.call, Ord.act, upd_same, upd_ne _ _ hne]

/-- A caller goes on after the callee. -/
theorem order_end {f p : Nat} {o : Runtime.Choice} (hp : a.s.x.c.pc w = .run f) (hc : a.g.par f = .call p)
    (hb : (∃ v, body (a.s.x.c.fr f).st = .ret v) ∨ ∃ v, body (a.s.x.c.fr f).st = .throw v) :
    (order body w (.go o) a x').L f ⊆ (order body w (.go o) a x').L p := by
  have hq : (a.g.act a.h.n f).par f = .call p := hc
  have : (order body w (.go o) a x') = (a.g.act a.h.n f).ended f := by
    rcases hb with ⟨v, hb⟩ | ⟨v, hb⟩ <;> simp only [order, merge, who, post, hp, hb]
  rw [this]
  simp only [Ord.ended, hq]
  intro e he
  simp only [upd_apply] at he ⊢
  split at he
  · rw [if_pos trivial]; exact he
  · rw [if_pos trivial]; exact List.mem_append.2 (.inl he)

/-- A join goes on after the children. -/
theorem order_join (hd : Mem.Disc body pend dirty) (h : Reach body pend may ok m a) 
    (e : Exn.step (Mem.ctl body) w ch a.s.x = .ok x') {A A' : FJ σ V E L} (hr : XR a.s.x A) (hr' : XR x' A') {f : Nat} (hat : Mem.At a.s.x w f) (st : FJ.Step body may f A A')
    {k : List V → σ} {z : E → List (Option V) → σ} (hm : A.mode f = .run) (hb : body (A.st f) = .join k z) {c : Nat} (hc : c ∈ A.kids f) :
    c < a.s.x.c.nf ∧ a.g.L c ⊆ (order body w ch a x').L f := by
  have F := fx_of (Mem.disc_ctl hd) (reach_x h)
  have T := Mem.facts (Mem.disc_ctl hd) (reach_x h)
  obtain ⟨B, i⟩ := (reach_all hd h).i
  have j := (reach_all hd h).j
  have hf : f < a.s.x.c.nf := by
    rcases Nat.lt_or_ge f a.s.x.c.nf with h1 | h1
    · exact h1
    · rw [hr.un f h1] at hm; cases hm
  obtain ⟨n, hn'⟩ := List.getElem?_of_mem hc
  obtain ⟨hcn, hlk, _, _⟩ := hr.kid f hf n c hn'
  have hfp : forkPar (a.s.x.c.link c) = some f := by rw [hlk]; rfl
  have hpar : a.g.par c = .fork f := ended_fork i hcn hfp
  refine ⟨hcn, ?_⟩
  have hun : a.s.x.c.loc c ≠ .unborn := fun hu => by have := (F.loc.fresh c).1 hu; omega
  have hgo : a.s.x.c.loc c = .unborn ∨ a.s.x.c.loc c = .gone → ∀ y ∈ a.g.L c, y ∈ (a.g.join f).L f := fun h1 y hy => by
    have := (j.go c hcn (h1.resolve_left hun)).1 f hpar y hy
    simp only [Ord.join, upd_same]
    exact List.mem_append.2 this
  have fin : merge body w ch a.s.x x' a.g = a.g.join f → a.s.x.c.loc c = .unborn ∨ a.s.x.c.loc c = .gone → a.g.L c ⊆ (order body w ch a x').L f := fun h1 h2 y hy => by
    refine merge_order (by omega) ?_
    rw [h1]
    exact hgo h2 y hy
  have win : a.s.x.c.loc f = .winning w → a.s.x.c.loc c = .unborn ∨ a.s.x.c.loc c = .gone := fun hl => F.win w f c hl hfp
  rcases hat with hp | hp | ⟨b, hp⟩ | hp | ⟨b, hp, hq⟩
  · have hst := hr.st f hf
    rw [hst] at hb
    have hl : a.s.x.c.loc f = .running w := (F.loc.run w f).2 (.inl hp)
    have e0 := e
    unfold Exn.step at e
    rw [hp] at e
    simp only at e
    unfold Exn.run at e
    cases ch with
    | fail y b => simp only [Mem.ctl, hb] at e; cases e
    | ready => simp only [Mem.ctl, hb] at e; cases e
    | go o =>
      simp only [Mem.ctl, hb] at e
      by_cases hs : (a.s.x.c.fr f).steal = 0
      · refine fin ?_ (F.run0 w f c hp (by rw [← F.steal f (by rw [hl]; trivial)]; exact hs) hfp)
        simp only [merge, hp, hb, hs, if_true]
      · exfalso
        unfold Exn.doJoin at e
        simp only [if_neg hs] at e
        cases e
        have h1 := hr'.len f hf
        have h2 := hr.len f hf
        have h3 : A'.kids f = [] := by
          rw [← hst] at hb
          cases st <;> simp_all [FJ.on, set_same]
        rw [h3] at h1
        simp only [List.length_nil] at h1
        rw [← h1] at h2
        rw [List.eq_nil_of_length_eq_zero h2] at hc
        cases hc
  · exact fin (by simp only [merge, hp]) (win ((F.loc.win w f).2 (.inl hp)))
  · exact fin (by simp only [merge, hp]) (win ((F.loc.win w f).2 (.inr ⟨b, hp⟩)))
  · exfalso
    obtain ⟨_, c', h2⟩ := T.sto w f hp
    rw [hr.mode f hf, Mem.mode_of_status h2] at hm
    cases hm
  · exfalso
    cases hq' : a.s.x.c.q w with
    | nil => exact hq hq'
    | cons y l =>
      obtain ⟨p, c'⟩ := y
      have : p = f := pop_eq e hp hq'
      subst this
      obtain ⟨_, h2⟩ := T.pop w p b c' l hp hq'
      rw [hr.mode p hf, Mem.mode_of_status h2] at hm
      cases hm

/-- A fork that answers that the child has completed goes on after the child. -/
theorem order_told (hd : Mem.Disc body pend dirty) (h : Reach body pend may ok m a)
    (e : Exn.step (Mem.ctl body) w ch a.s.x = .ok x') {A A' : FJ σ V E L} (hr : XR a.s.x A) (hr' : XR x' A') {f n : Nat} (hat : Mem.At a.s.x w f)
    {c : σ} {k : Bool → σ} {z : E → σ} (hm : A.mode f = .forked n) (hb : body (A.st f) = .fork c k z) :
    n < a.s.x.c.nf ∧ a.g.L n ⊆ (order body w ch a x').L f ∨ A'.st f = k false := by
  have F := fx_of (Mem.disc_ctl hd) (reach_x h)
  have T := Mem.facts (Mem.disc_ctl hd) (reach_x h)
  obtain ⟨B, i⟩ := (reach_all hd h).i
  have hf : f < a.s.x.c.nf := by
    rcases Nat.lt_or_ge f a.s.x.c.nf with h1 | h1
    · exact h1
    · rw [hr.un f h1] at hm; cases hm
  rw [hr.st f hf] at hb
  have hmo := hr.mode f hf
  rw [hm] at hmo
  have wk : ∀ {s1 : XS σ V E}, Exn.wake (Mem.ctl body) s1 f = .ok x' → (s1.c.fr f).st = (a.s.x.c.fr f).st → s1.aw f = a.s.x.aw f → s1.c.nf = a.s.x.c.nf → A'.st f = k (answer f a.s.x x') := by
    intro s1 e1 h1 h2 h3
    obtain ⟨w1, _, _, w4, _⟩ := wake_eq e1
    rw [hr'.st f (by rw [w1, h3]; exact hf)]
    have h5 := (w4 f).2
    unfold Exn.wake at e1
    rw [h1] at e1
    simp only [Mem.ctl, hb] at e1
    split at e1
    · rename_i pre c' k' z' h4 h6
      cases h6
      cases e1
      simp only [Exn.goOn, upd_same]
      unfold answer
      rw [← h2, h4]
      simp only [upd_same]
    · cases e1
  rcases hat with hp | hp | ⟨b, hp⟩ | hp | ⟨b, hp, hq⟩
  · rw [(T.run w f hp).2] at hmo; cases hmo
  · rw [Mem.mode_of_status (T.win w f (.inl hp)).2] at hmo; cases hmo
  · rw [Mem.mode_of_status (T.win w f (.inr ⟨b, hp⟩)).2] at hmo; cases hmo
  · right
    unfold Exn.step at e
    rw [hp] at e
    simp only at e
    cases e0 : Exn.plain a.s.x (Runtime.stole a.s.x.c w f) with
    | ub => rw [e0] at e; cases e
    | no => rw [e0] at e; cases e
    | ok x1 =>
      rw [e0] at e
      obtain ⟨c1, e1, rfl⟩ := plain_ok e0
      obtain ⟨w1, w2, w3, w4, w5⟩ := wake_eq e
      unfold Runtime.stole at e1
      split at e1 <;> cases e1
      have hl : a.s.x.c.loc f = .stolenBy w := (F.loc.sto w f).2 hp
      have ha : answer f a.s.x x' = false := by
        unfold answer
        rw [F.aw f (.inr ⟨w, hl⟩)]
        simp only [(w4 f).2, upd_same, decide_eq_false_iff_not, Runtime.U16]
        omega
      rw [wk e (by simp only [upd_same]) rfl rfl, ha]
  · cases hq' : a.s.x.c.q w with
    | nil => exact absurd hq' hq
    | cons y l =>
      obtain ⟨p, c'⟩ := y
      have hc' : c' = b := F.head w f b (p, c') hp (by rw [hq']; rfl)
      subst hc'
      unfold Exn.step at e
      rw [hp] at e
      simp only [hq'] at e
      cases e0 : Exn.plain a.s.x (Runtime.finPop a.s.x.c w f c') with
      | ub => rw [e0] at e; cases e
      | no => rw [e0] at e; cases e
      | ok x1 =>
        rw [e0] at e
        obtain ⟨c1, e1, rfl⟩ := plain_ok e0
        unfold Runtime.finPop at e1
        rw [hq'] at e1
        simp only at e1
        split at e1
        · rename_i h1
          obtain ⟨rfl, _⟩ := h1
          cases e1
          have hlp : a.s.x.c.loc p = .queued w c' := (F.loc.queue w p c').2 (by rw [hq']; exact List.mem_cons_self ..)
          have hkid : a.g.kid p = c' := i.kid w p c' hlp
          have h2 := (T.pop w p c' c' l hp hq').2
          rw [Mem.mode_of_status h2] at hmo
          cases hmo
          have hA := wk e (by simp only [Runtime.report, upd_same]) rfl rfl
          cases ha : answer p a.s.x x' with
          | false => right; rw [hA, ha]
          | true =>
            left
            refine ⟨F.lt (F.qborn w p n (by rw [hq']; exact List.mem_cons_self ..)), fun y hy => merge_order (by omega) ?_⟩
            simp only [merge, hp, hq', if_false, reduceCtorEq, ha, if_true, Ord.told, hkid, upd_same]
            exact List.mem_append.2 (.inl hy)
        · cases e1


/-- The fork/join machine without the steps that come after step `n`, the access of task `f` in the state `y`. -/
def Without (body : σ → Act σ V E L) (may : E → Prop) (ok : (σ → Prop) → σ → Prop) (m : L → E) (a : HS σ V E L) (n f : Nat) (y : σ) (A : FJ σ V E L) : Prop :=
  ∃ B, FJ.Reach body may ok m B ∧ Cut (U a n) (C a n) f y A B

/-- A step of the runtime that is no access. -/
theorem follow (hd : Mem.Disc body pend dirty) (h : Reach body pend may ok m a) (hn : ∀ f, a.s.x.c.pc w = .run f → Mem.NoAcc body (a.s.x.c.fr f).st)
    (e : Exn.step (Mem.ctl body) w ch a.s.x = .ok x') {A A' : FJ σ V E L} (hr : XR a.s.x A) (hr' : XR x' A') (hm : A'.m = A.m) (hh : A'.hist = A.hist)
    (pa : Mem.Path body may (Mem.At a.s.x w) (Mem.Ends a.s.x w) A A') {a' : HS σ V E L} (hx : a'.s.x = x') (hg : a'.g = order body w ch a x')
    (hC : ∀ n l, C a' n l → C a n l) {n f : Nat} {y : σ} (hb : Without body may ok m a n f y A) : Without body may ok m a' n f y A' := by
  have T := Mem.facts (Mem.disc_ctl hd) (reach_x h)
  obtain ⟨Bi, i⟩ := (reach_all hd h).i
  obtain ⟨B, hB, cut⟩ := hb
  have hnf := nf_step hn e
  have old : ∀ g, g < a.s.x.c.nf → U a' n g → U a n g := fun g hg' hu => ⟨hg', fun h1 => hu.2 (by rw [hg]; exact order_mono (by omega) h1)⟩
  have ex : ∀ g, U a' n g → A'.mode g ≠ .none := fun g hu e1 => by
    have := (xr_mode hr' g).1 e1
    have h2 := hu.1
    rw [hx] at h2
    omega
  have old' : ∀ g, A.mode g ≠ .none → U a' n g → U a n g := fun g h1 hu => old g (by
    rcases Nat.lt_or_ge g a.s.x.c.nf with h2 | h2
    · exact h2
    · exact absurd ((xr_mode hr g).2 h2) h1) hu
  have hU : ∀ g, U a' n g → U a n g ∨ (A.mode g = .none ∧ A'.mode g ≠ .none) := fun g hu => by
    by_cases h1 : A.mode g = .none
    · exact .inr ⟨h1, ex g hu⟩
    · exact .inl (old' g h1 hu)
  cases pa with
  | stay =>
    refine ⟨B, hB, ?_⟩
    have : ∀ g, U a' n g → U a n g := fun g hu => old' g (ex g hu) hu
    exact ⟨fun g hu => cut.un g (this g hu), fun g hu => cut.ex g (this g hu), cut.none, fun l hl => cut.mem l (hC n l hl), cut.rts, fun hu => cut.fz.1 (this f hu), cut.fz.2⟩
  | @one q _ hat st =>
    have hq : q < a.s.x.c.nf := by
      rcases Nat.lt_or_ge q a.s.x.c.nf with h1 | h1
      · exact h1
      · exact absurd ((xr_mode hr q).2 h1) (step_run st)
    by_cases ht : n ∈ a'.g.L q
    · -- It comes after the access.
      refine ⟨B, hB, cut.skip st (fun g hu => ⟨?_, by rintro rfl; exact hu.2 ht⟩) (fun l hl => ⟨hC n l hl, by rw [hm]⟩)⟩
      by_cases h1 : g < a.s.x.c.nf
      · exact old g h1 hu
      · exfalso
        have h2 := hu.1
        rw [hx] at h2
        rcases hnf with h3 | ⟨p, o, hp, rfl, hbd⟩
        · omega
        · have hpq : p = q := by
            rcases hat with h4 | h4 | ⟨b, h4⟩ | h4 | ⟨b, h4, _⟩ <;> rw [hp] at h4 <;> cases h4
            rfl
          subst hpq
          have h5 : x'.c.nf = a.s.x.c.nf + 1 := by
            unfold Exn.step at e
            rw [hp] at e
            simp only at e
            unfold Exn.run at e
            rcases hbd with ⟨c, k, z, hbd⟩ | ⟨c, k, z, hbd⟩ <;> simp only [Mem.ctl, hbd] at e <;> cases e <;> rfl
          have h6 : g = a.s.x.c.nf := by omega
          have h7 := order_new (x' := x') (o := o) hp hq hbd
          rw [← hg] at h7
          exact hu.2 (by rw [h6, ← h7]; exact ht)
    · have huq : U a n q := ⟨hq, fun h1 => ht (by rw [hg]; exact order_mono (by omega) h1)⟩
      have hnl : ∀ l k, body (A.st q) ≠ .load l k := by
        intro l k hb
        cases st <;> simp_all
      have hmo := hr.mode q hq
      obtain ⟨B', st', cut'⟩ := cut.go (U' := U a' n) (C' := C a' n) st huq hU (hC n) (fun l k hb => absurd hb (hnl l k))
        (fun k z h1 h2 c hc => by
          obtain ⟨h3, h4⟩ := order_join hd h e hr hr' hat st h1 h2 hc
          exact ⟨h3, fun h5 => ht (by rw [hg]; exact h4 h5)⟩)
        (fun c hc => by
          exfalso
          rw [hmo] at hc
          rcases hat with hp | hp | ⟨b, hp⟩ | hp | ⟨b, hp, hq'⟩
          · rw [(T.run w q hp).2] at hc; cases hc
          · rw [Mem.mode_of_status (T.win w q (.inl hp)).2] at hc; cases hc
          · rw [Mem.mode_of_status (T.win w q (.inr ⟨b, hp⟩)).2] at hc; cases hc
          · obtain ⟨_, c', h2⟩ := T.sto w q hp
            rw [Mem.mode_of_status h2] at hc; cases hc
          · cases hy : a.s.x.c.q w with
            | nil => exact hq' hy
            | cons y l =>
              obtain ⟨p, c'⟩ := y
              have := pop_eq e hp hy
              subst this
              rw [Mem.mode_of_status (T.pop w p b c' l hp hy).2] at hc; cases hc)
        (fun c d k z h1 h2 => by
          rcases order_told hd h e hr hr' hat h1 h2 with ⟨h3, h4⟩ | h3
          · exact .inl ⟨h3, fun h5 => ht (by rw [hg]; exact h4 h5)⟩
          · exact .inr h3)
      exact ⟨B', .step q hB st', cut'⟩
  | @two q p r _ hat hQ hcl st st2 =>
    have hq : q < a.s.x.c.nf := (T.run w q hQ.1).1
    have hmo : A.mode q = .run := by rw [hr.mode q hq]; exact (T.run w q hQ.1).2
    have hbd : (∃ v, body (A.st q) = .ret v) ∨ ∃ v, body (A.st q) = .throw v := by
      generalize hA : ({ A with mode := Mem.set A.mode q (.ended r) } : FJ σ V E L) = A1 at st
      have h1 : A1.mode q = .ended r := by rw [← hA]; exact set_same ..
      cases st with
      | ret v _ h2 => exact .inl ⟨v, h2⟩
      | throw v _ h2 => exact .inr ⟨v, h2⟩
      | _ => simp [FJ.on, FJ.new, set_same] at h1
    have hbx := hbd
    rw [hr.st q hq] at hbx
    obtain ⟨o, rfl⟩ : ∃ o, ch = .go o := by
      unfold Exn.step at e
      rw [hQ.1] at e
      simp only at e
      unfold Exn.run at e
      cases ch with
      | go o => exact ⟨o, rfl⟩
      | fail y b => rcases hbx with ⟨v, hb⟩ | ⟨v, hb⟩ <;> simp only [Mem.ctl, hb] at e <;> cases e
      | ready => rcases hbx with ⟨v, hb⟩ | ⟨v, hb⟩ <;> simp only [Mem.ctl, hb] at e <;> cases e
    have hpar : a.g.par q = .call p := by
      have h1 := i.par q hq
      have h2 := hQ.2
      simp only [h2] at h1
      unfold ParOk at h1
      split at h1 <;> first | exact h1.elim | skip
      all_goals simp_all
    have hsub : a'.g.L q ⊆ a'.g.L p := by rw [hg]; exact order_end hQ.1 hpar hbx
    have hpn : p < a.s.x.c.nf := by
      rcases Nat.lt_or_ge p a.s.x.c.nf with h1 | h1
      · exact h1
      · rw [hr.un p h1] at hcl; cases hcl
    have hne : p ≠ q := by rintro rfl; rw [hmo] at hcl; cases hcl
    have hcl1 : Mem.set A.mode q (.ended r) p = .called q := by rw [set_ne _ _ hne]; exact hcl
    have hbp : ∃ c k z, body (A.st p) = .call c k z := by
      generalize hA : ({ A with mode := Mem.set A.mode q (.ended r) } : FJ σ V E L) = A1 at st2
      have h1 : A1.mode p = .called q := by rw [← hA]; exact hcl1
      have h3 : A1.st = A.st := by rw [← hA]
      cases st2 with
      | back _ _ c k z _ _ h2 => rw [h3] at h2; exact ⟨c, k, z, h2⟩
      | _ => simp_all
    have all : ∀ g, U a' n g → U a n g := fun g hu => by
      refine old g ?_ hu
      have h2 := hu.1
      rw [hx] at h2
      rcases hnf with h3 | ⟨p', o', hp', _, hb'⟩
      · omega
      · rw [hQ.1] at hp'; cases hp'
        rcases hbx with ⟨v, hb⟩ | ⟨v, hb⟩ <;> rw [hb] at hb' <;> rcases hb' with ⟨_, _, _, hb'⟩ | ⟨_, _, _, hb'⟩ <;> cases hb'
    by_cases ht : n ∈ a'.g.L q
    · have c1 := cut.skip (U' := U a' n) (C' := C a' n) st (fun g hu => ⟨all g hu, by rintro rfl; exact hu.2 ht⟩) (fun l hl => ⟨hC n l hl, rfl⟩)
      exact ⟨B, hB, c1.skip st2 (fun g hu => ⟨hu, by rintro rfl; exact hu.2 (hsub ht)⟩) (fun l hl => ⟨hl, by rw [hm]⟩)⟩
    · have huq : U a n q := ⟨hq, fun h1 => ht (by rw [hg]; exact order_mono (by omega) h1)⟩
      obtain ⟨B1, st', c1⟩ := cut.go (U' := U a n) (C' := C a n) st huq (fun g hu => .inl hu) (fun l hl => hl)
        (fun l k hb => by rcases hbd with ⟨v, hb'⟩ | ⟨v, hb'⟩ <;> rw [hb'] at hb <;> cases hb)
        (fun k z _ hb => by rcases hbd with ⟨v, hb'⟩ | ⟨v, hb'⟩ <;> rw [hb'] at hb <;> cases hb)
        (fun c hc => by rw [hmo] at hc; cases hc) (fun c d k z hc => by rw [hmo] at hc; cases hc)
      by_cases htp : n ∈ a'.g.L p
      · exact ⟨B1, .step q hB st', c1.skip st2 (fun g hu => ⟨all g hu, by rintro rfl; exact hu.2 htp⟩) (fun l hl => ⟨hC n l hl, by rw [hm]⟩)⟩
      · obtain ⟨c, k, z, hbp⟩ := hbp
        obtain ⟨B2, st2', c2⟩ := c1.go (U' := U a' n) (C' := C a' n) st2 ⟨hpn, fun h1 => htp (by rw [hg]; exact order_mono (by omega) h1)⟩ (fun g hu => .inl (all g hu)) (hC n)
          (fun l k hb => by rw [hbp] at hb; cases hb) (fun k z h1 _ => by cases hcl1.symm.trans h1) (fun c hc => by cases hcl1.symm.trans hc; exact huq)
          (fun c d k z hc => by cases hcl1.symm.trans hc)
        exact ⟨B2, .step p (.step q hB st') st2', c2⟩

end
end Verif.Hb
