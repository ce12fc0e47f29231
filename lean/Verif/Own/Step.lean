import Verif.Own.Inv
import Verif.Hb.Run

/-!
Every step keeps the invariant, and every access to a stack by the step comes after all earlier ones.
-/
set_option linter.unusedSectionVars false
namespace Verif.Own
open Verif.Runtime (State Res Fr Pc Loc Link Alive Zomb Few upd upd_apply upd_same upd_ne maxU16)
open Verif.Exn (XS Choice)
open Verif.Mem (MS Act)
open Verif.Hb (HS Clk Ord I Fx sync plain_ok)
open Verif.Cactus (Ab isTop_iff)

variable {σ V E L : Type}

def Fine (tr : List Acc) (c' : State σ (Except E V)) (h' : Clk) (w n : Nat) (S : List Nat) : Prop :=
  KI c' h' (S.map (fun k => (⟨n, k, h'.kn w⟩ : Acc)) ++ tr) ∧ ∀ k ∈ S, Knows tr k (h'.kn w)

theorem now {n : Nat} {l : List Nat} {P : Nat → Prop} {S : List Nat} (h : ∀ k ∈ S, P k) : Now n P (S.map fun k => (⟨n, k, l⟩ : Acc)) := by
  intro r hr
  obtain ⟨k, hk, rfl⟩ := List.mem_map.1 hr
  exact ⟨rfl, h k hk⟩

variable {c c' : State σ (Except E V)} {h h' : Clk} {tr : List Acc} {w n : Nat} {q : Pc} {S : List Nat}

theorem Fine.keep (i : KI c h tr) (ab : Ab c) (hz : ¬ Zomb (c.pc w)) (hpc : c'.pc = upd c.pc w q) (hwk : c'.wk = c.wk) (hal : ∀ k, k ≠ c.wk w → c'.al k = c.al k) (hns : c'.ns = c.ns)
    (hkn : ∀ v, h.kn v ⊆ h'.kn v) (hn : n ∈ h'.kn w) (hT : ∀ k ∈ S, k = c.wk w)
    (hP : ∀ p k, k ≠ c.wk w → (c.al k).head? = some p → Pub c h p ⊆ Pub c' h' p)
    (hq : Zomb q → ∃ p, (c'.al (c.wk w)).head? = some p ∧ h'.kn w ⊆ Pub c' h' p) : Fine tr c' h' w n S :=
  ⟨i.keep ab hz hpc hwk hal hns hkn hn (now hT) hP hq, fun k hk => by rw [hT k hk]; exact (i.own w hz).sub (hkn w)⟩

theorem Fine.take (i : KI c h tr) (ab : Ab c) (hz : ¬ Zomb (c.pc w)) (hpc : c'.pc = upd c.pc w q) (hzq : ¬ Zomb q) {k : Nat} (hwk : c'.wk = upd c.wk w k) (hal : c'.al = c.al)
    (hns : c'.ns = c.ns) (hkn : ∀ v, h.kn v ⊆ h'.kn v) (hn : n ∈ h'.kn w) (hT : ∀ j ∈ S, j = c.wk w ∨ j = k) (hl : ∀ v, ¬ Zomb (c.pc v) → c.wk v ≠ k)
    {f : Nat} (hf : (c.al k).head? = some f) (he : c.al (c.wk w) = [])
    (hk : Pub c h f ⊆ h'.kn w) (hP : ∀ p j, j ≠ k → (c.al j).head? = some p → Pub c h p ⊆ Pub c' h' p) : Fine tr c' h' w n S :=
  ⟨i.take ab hz hpc hzq hwk hal hns hkn hn (now hT) hl hf he hk hP, fun j hj => by
    rcases hT j hj with e | e
    · rw [e]; exact (i.own w hz).sub (hkn w)
    · rw [e]; exact (i.pub k f hf hl).sub hk⟩

theorem Fine.renew (i : KI c h tr) (ab : Ab c) (hz : Zomb (c.pc w)) (hpc : c'.pc = upd c.pc w q) (hwk : c'.wk = upd c.wk w (2 * c.ns)) (hal : c'.al = c.al)
    (hns : c'.ns = c.ns + 1) (hkn : ∀ v, h.kn v ⊆ h'.kn v) (hn : n ∈ h'.kn w) (hT : ∀ k ∈ S, k = 2 * c.ns)
    (hP : ∀ p k, (c.al k).head? = some p → Pub c h p ⊆ Pub c' h' p) : Fine tr c' h' w n S :=
  ⟨i.renew ab hz hpc hwk hal hns hkn hn (now hT) hP, fun k hk r hr e => absurd (e.trans (hT k hk)) (i.fresh _ (Nat.le_refl _) r hr)⟩

theorem kn_tick (h : Clk) (w v : Nat) : h.kn v ⊆ (h.tick w).kn v := fun e he => by
  simp only [Clk.tick, upd_apply]; split <;> simp_all

theorem kn_acq (h : Clk) (w v : Nat) (k : List Nat) : h.kn v ⊆ (h.acquire w k).kn v := fun e he => by
  simp only [Clk.acquire, upd_apply]; split <;> simp_all

theorem kn_sub (h : Clk) (w f v : Nat) (b : Bool) : h.kn v ⊆ (h.sub w f b).kn v := fun e he => by
  simp only [Clk.sub]
  split
  · simp only [upd_apply]; split
    · rename_i e; subst e; exact List.mem_append.2 (.inl he)
    · exact he
  · exact he

theorem tick_mem (h : Clk) (w : Nat) : h.n ∈ (h.tick w).kn w := Hb.tick_mem h w

/-- The relation of the clocks of a step, but for the counters and lists that are made anew. -/
structure Up (h h' : Clk) (w : Nat) : Prop where
  kn : ∀ v, h.kn v ⊆ h'.kn v
  n : h.n ∈ h'.kn w

theorem up_tick (h : Clk) (w : Nat) : Up h (h.tick w) w := ⟨kn_tick h w, tick_mem h w⟩

theorem Up.acq {h h' : Clk} (u : Up h h' w) (k : List Nat) : Up h (h'.acquire w k) w := ⟨fun v e he => kn_acq h' w v k (u.kn v he), kn_acq h' w w k u.n⟩

theorem Up.sub {h h' : Clk} (u : Up h h' w) (f : Nat) (b : Bool) : Up h (h'.sub w f b) w := ⟨fun v e he => kn_sub h' w f v b (u.kn v he), kn_sub h' w f w b u.n⟩

theorem kj_sub (h : Clk) (w f p : Nat) (b : Bool) : h.kj p ⊆ (h.sub w f b).kj p := fun e he => by
  simp only [Clk.sub, upd_apply]; split
  · rename_i e; subst e; exact List.mem_append.2 (.inr he)
  · exact he

section
variable {x x' : XS σ V E} {h : Clk} {ch : Choice E} {body : σ → Act σ V E L}
variable (i : KI x.c h tr) (ab : Ab x.c) (ow : Ow x.c) (F : Fx x)
include i ab ow F

theorem fine_take (hp : x.c.pc w = .idle) (e : Exn.plain x (Runtime.take x.c w) = .ok x') :
    Fine tr x'.c (sync body w (.go .take) x h) w h.n (touch body w (.go .take) x.c) := by
  obtain ⟨c1, e1, rfl⟩ := plain_ok e
  have hz : ¬ Zomb (x.c.pc w) := by rw [hp]; exact id
  unfold Runtime.take at e1
  cases hb : x.c.inbox w with
  | nil => rw [hb] at e1; cases e1
  | cons f r =>
    rw [hb] at e1
    simp only at e1
    split at e1
    · rename_i hc
      have hl : x.c.loc f = .inbox w := (F.loc.inb w f).2 (by rw [hb]; exact List.mem_cons_self ..)
      have u := (up_tick h w).acq (h.kb f)
      simp only [sync, touch, hp, hb]
      by_cases h0 : (x.c.fr f).steal = 0
      · rw [if_pos h0] at e1
        cases e1
        rw [if_pos h0]
        refine Fine.take (q := .run f) (k := x.c.stk f) (f := f) i ab hz rfl id rfl rfl rfl u.kn u.n (by simp) (ow.inb w f hl h0) (isTop_iff.1 (hc.2.2.2 h0)) (ab.id w hp) ?_ ?_
        · unfold Pub
          rw [hl]
          simp only [if_pos h0]
          exact fun e he => by simp only [Clk.acquire, upd_same]; exact List.mem_append.2 (.inl he)
        · intro p j hj hpj
          have hne : p ≠ f := by rintro rfl; exact hj (ow.mem _ _ (List.mem_of_head? hpj)).symm
          exact pub_mono (.inr ⟨upd_ne _ _ hne, rfl⟩) (fun _ h => h) (fun _ h => h)
      · rw [if_neg h0] at e1
        cases e1
        rw [if_neg h0]
        refine Fine.keep (q := .run f) i ab hz rfl rfl (fun _ _ => rfl) rfl u.kn u.n (by simp) ?_ (fun hq => hq.elim)
        intro p j hj hpj
        by_cases hne : p = f
        · subst hne
          have e1 : Pub x.c h p = h.kj p := by unfold Pub; rw [hl]; simp only [if_neg h0]
          rw [e1, pub_ni (fun d => by show upd x.c.loc p _ p ≠ _; rw [upd_same]; simp)]
          exact fun _ h => h
        · exact pub_mono (.inr ⟨upd_ne _ _ hne, rfl⟩) (fun _ h => h) (fun _ h => h)
    · cases e1

theorem fine_steal (hp : x.c.pc w = .idle) {v : Nat} (e : Exn.plain x (Runtime.steal x.c w v) = .ok x') :
    Fine tr x'.c (sync body w (.go (.steal v)) x h) w h.n (touch body w (.go (.steal v)) x.c) := by
  obtain ⟨c1, e1, rfl⟩ := plain_ok e
  have hz : ¬ Zomb (x.c.pc w) := by rw [hp]; exact id
  unfold Runtime.steal at e1
  cases hb : (x.c.q v).getLast? with
  | none => rw [hb] at e1; cases e1
  | some y =>
    obtain ⟨p, k⟩ := y
    rw [hb] at e1
    simp only at e1
    split at e1
    · cases e1
      have hl : x.c.loc p = .queued v k := (F.loc.queue v p k).2 (List.mem_of_getLast? hb)
      have u := (up_tick h w).acq (h.kq p)
      simp only [sync, touch, hp, hb]
      refine Fine.keep (q := .stole p) i ab hz rfl rfl (fun _ _ => rfl) rfl u.kn u.n (by simp) ?_ (fun hq => hq.elim)
      intro f j hj hpj
      refine pub_mono ?_ (fun _ h => h) (fun _ h => h)
      by_cases hne : f = p
      · subst hne
        exact .inl ⟨fun d => by rw [hl]; simp, fun d => by show upd x.c.loc f _ f ≠ _; rw [upd_same]; simp⟩
      · exact .inr ⟨upd_ne _ _ hne, rfl⟩
    · split at e1 <;> cases e1

theorem fine_joinLoad {f : Nat} (hp : x.c.pc w = .joinLoad f) (e : Exn.plain x (Runtime.joinLoad x.c w f) = .ok x') :
    Fine tr x'.c (sync body w ch x h) w h.n (touch body w ch x.c) := by
  obtain ⟨c1, e1, rfl⟩ := plain_ok e
  have hz : ¬ Zomb (x.c.pc w) := by rw [hp]; exact id
  have hl : x.c.loc f = .running w := (F.loc.run w f).2 (.inr (.inl hp))
  unfold Runtime.joinLoad at e1
  simp only at e1
  split at e1
  · rename_i hc
    cases e1
    have u := (up_tick h w).acq (h.kj f)
    simp only [sync, touch, hp, if_pos hc]
    refine Fine.keep (q := .joinTake f) i ab hz rfl rfl (fun _ _ => rfl) rfl u.kn u.n (by simp) ?_ (fun hq => hq.elim)
    intro p j hj hpj
    refine pub_mono ?_ (fun _ h => h) (fun _ h => h)
    by_cases hne : p = f
    · subst hne
      exact .inl ⟨fun d => by rw [hl]; simp, fun d => by show upd x.c.loc p _ p ≠ _; rw [upd_same]; simp⟩
    · exact .inr ⟨upd_ne _ _ hne, rfl⟩
  · rename_i hc
    cases e1
    have u := up_tick h w
    simp only [sync, touch, hp, if_neg hc]
    exact Fine.keep (q := .joinSub f) i ab hz rfl rfl (fun _ _ => rfl) rfl u.kn u.n (by simp) (fun p j _ _ => pub_mono (.inr ⟨rfl, rfl⟩) (fun _ h => h) (fun _ h => h)) (fun hq => hq.elim)

theorem fine_joinSub {f : Nat} (hp : x.c.pc w = .joinSub f) (e : Exn.plain x (Runtime.joinSub x.c w f) = .ok x') :
    Fine tr x'.c (sync body w ch x h) w h.n (touch body w ch x.c) := by
  obtain ⟨c1, e1, rfl⟩ := plain_ok e
  have hz : ¬ Zomb (x.c.pc w) := by rw [hp]; exact id
  have hl : x.c.loc f = .running w := (F.loc.run w f).2 (.inr (.inr hp))
  have u := (up_tick h w).sub f (decide ((x.c.fr f).steal = maxU16 - (x.c.fr f).join))
  unfold Runtime.joinSub at e1
  simp only at e1
  simp only [sync, touch, hp]
  split at e1
  all_goals
    cases e1
    refine Fine.keep i ab hz rfl rfl (fun _ _ => rfl) rfl u.kn u.n (by simp) ?_ (fun hq => hq.elim)
    intro p j hj hpj
    refine pub_mono ?_ (fun _ h => h) (kj_sub (h.tick w) _ _ _ _)
    by_cases hne : p = f
    · subst hne
      exact .inl ⟨fun d => by rw [hl]; simp, fun d => by show upd x.c.loc p _ p ≠ _; rw [upd_same]; simp⟩
    · exact .inr ⟨upd_ne _ _ hne, by simp only [upd_ne _ _ hne]⟩

omit i ab ow F in
theorem passJoin_own {bd : σ → Exn.Act σ V E} {s s' : XS σ V E} {f : Nat} (e : Exn.passJoin bd s w f = .ok s') :
    s'.c.al = s.c.al ∧ s'.c.wk = s.c.wk ∧ s'.c.ns = s.c.ns ∧ s'.c.pc = upd s.c.pc w (.run f) ∧ s'.c.loc = upd s.c.loc f (.running w) ∧ ∀ p, p ≠ f → s'.c.fr p = s.c.fr p := by
  unfold Exn.passJoin at e
  simp only at e
  split at e
  · split at e
    · cases e; exact ⟨rfl, rfl, rfl, rfl, rfl, fun p hp => upd_ne _ _ hp⟩
    · cases e; exact ⟨rfl, rfl, rfl, rfl, rfl, fun p hp => upd_ne _ _ hp⟩
    · cases e
  · cases e

omit i ab ow F in
theorem up_store {h h' : Clk} (u : Up h h' w) (f : Nat) : Up h (h'.store f) w := ⟨u.kn, u.n⟩

theorem won_take {bd : σ → Exn.Act σ V E} {s1 : XS σ V E} {f : Nat} (hz : ¬ Zomb (x.c.pc w)) (hl : x.c.loc f = .winning w) (hj : h.kj f ⊆ h.kn w) (hlone : ∀ v, ¬ Zomb (x.c.pc v) → x.c.wk v ≠ x.c.stk f)
    (htop : x.c.isTop f = true) (he : x.c.wkEmpty w = true)
    (hs : s1 = { x with c := { x.c with wk := upd x.c.wk w (x.c.stk f), fr := upd x.c.fr f (Runtime.reset (x.c.fr f)) } }) (e : Exn.passJoin bd s1 w f = .ok x') :
    Fine tr x'.c ((h.tick w).store f) w h.n [x.c.wk w, x.c.stk f] := by
  obtain ⟨e1, e2, e3, e4, e5, e6⟩ := passJoin_own e
  subst hs
  have u := up_store (up_tick h w) f
  refine Fine.take (q := .run f) (k := x.c.stk f) (f := f) i ab hz e4 id e2 e1 e3 u.kn u.n (by simp) hlone (isTop_iff.1 htop) (List.isEmpty_iff.1 he) ?_ ?_
  · rw [pub_ni (fun d => by rw [hl]; simp)]
    exact fun y hy => kn_tick h w w (hj hy)
  · intro p j hj hpj
    have hne : p ≠ f := by rintro rfl; exact hj (ow.mem _ _ (List.mem_of_head? hpj)).symm
    refine pub_mono (.inr ⟨?_, ?_⟩) (fun _ h => h) ?_
    · rw [e5]; exact upd_ne _ _ hne
    · rw [e6 p hne]; exact congrArg _ (upd_ne _ _ hne)
    · intro y hy
      show y ∈ upd h.kj f [] p
      rw [upd_ne _ _ hne]; exact hy

theorem fine_joinTake {bd : σ → Exn.Act σ V E} {f : Nat} (hwin : ∀ w p, x.c.loc p = .winning w → h.kj p ⊆ h.kn w) (hp : x.c.pc w = .joinTake f) (e : Exn.joinTake bd x w f = .ok x') :
    Fine tr x'.c (sync body w ch x h) w h.n (touch body w ch x.c) := by
  have hl : x.c.loc f = .winning w := (F.loc.win w f).2 (.inl hp)
  unfold Exn.joinTake at e
  split at e
  case isFalse => cases e
  rename_i hc
  simp only [sync, touch, hp]
  exact won_take i ab ow F (by rw [hp]; exact id) hl (hwin w f hl) (ow.jt w f hp) hc.2.2 hc.2.1 rfl e

theorem fine_finWin {bd : σ → Exn.Act σ V E} {f : Nat} {b : Bool} (hwin : ∀ w p, x.c.loc p = .winning w → h.kj p ⊆ h.kn w) (hp : x.c.pc w = .finWin f b) (e : Exn.finWin bd x w f b = .ok x') :
    Fine tr x'.c (sync body w ch x h) w h.n (touch body w ch x.c) := by
  have hl : x.c.loc f = .winning w := (F.loc.win w f).2 (.inr ⟨_, hp⟩)
  have hz : ¬ Zomb (x.c.pc w) := by rw [hp]; exact id
  unfold Exn.finWin at e
  split at e
  case isFalse => cases e
  cases b with
  | true =>
    simp only [if_true] at e
    simp only [sync, touch, hp]
    obtain ⟨e1, e2, e3, e4, e5, e6⟩ := passJoin_own e
    have u := up_store (up_tick h w) f
    refine Fine.keep (q := .run f) i ab hz e4 e2 (fun k _ => by rw [e1]) e3 u.kn u.n (by simp) ?_ (fun hq => hq.elim)
    intro p j hj hpj
    have hne : p ≠ f := by rintro rfl; exact hj ((ow.mem _ _ (List.mem_of_head? hpj)).symm.trans (ow.wo w _ hp).symm)
    refine pub_mono (.inr ⟨?_, ?_⟩) (fun _ h => h) ?_
    · rw [e5]; exact upd_ne _ _ hne
    · rw [e6 p hne]; exact congrArg _ (upd_ne _ _ hne)
    · intro y hy
      show y ∈ upd h.kj f [] p
      rw [upd_ne _ _ hne]; exact hy
  | false =>
    simp only [Bool.false_eq_true, if_false] at e
    split at e
    case isFalse => cases e
    rename_i hc
    simp only [sync, touch, hp]
    exact won_take i ab ow F hz hl (hwin w f hl) (ow.we w f hp) hc.2 hc.1 rfl e

omit i ab ow F in
theorem wake_own {bd : σ → Exn.Act σ V E} {s s' : XS σ V E} {p : Nat} (e : Exn.wake bd s p = .ok s') :
    s'.c.al = s.c.al ∧ s'.c.wk = s.c.wk ∧ s'.c.ns = s.c.ns ∧ s'.c.pc = s.c.pc ∧ s'.c.loc = s.c.loc ∧ ∀ f, (s'.c.fr f).steal = (s.c.fr f).steal := by
  unfold Exn.wake at e
  split at e
  · cases e
    refine ⟨rfl, rfl, rfl, rfl, rfl, fun q => ?_⟩
    simp only [Exn.goOn, upd_apply]
    split
    · rename_i e; subst e; rfl
    · rfl
  · cases e

theorem fine_finPop0 {p k : Nat} (hp : x.c.pc w = .finPop p k) (hq : x.c.q w = []) (e : Exn.plain x (Runtime.finPop x.c w p k) = .ok x') :
    Fine tr x'.c (sync body w ch x h) w h.n (touch body w ch x.c) := by
  obtain ⟨c1, e1, rfl⟩ := plain_ok e
  have hz : ¬ Zomb (x.c.pc w) := by rw [hp]; exact id
  unfold Runtime.finPop at e1
  rw [hq] at e1
  simp only at e1
  split at e1
  case isFalse => cases e1
  cases e1
  have u := up_tick h w
  simp only [sync, touch, hp, hq, if_true]
  exact Fine.keep i ab hz rfl rfl (fun _ _ => rfl) rfl u.kn u.n (by simp) (fun p j _ _ => pub_mono (.inr ⟨rfl, rfl⟩) (fun _ h => h) (fun _ h => h)) (fun hq => hq.elim)

theorem fine_finPop {bd : σ → Exn.Act σ V E} {p k : Nat} {y : Nat × Nat} {l : List (Nat × Nat)} (hp : x.c.pc w = .finPop p k) (hq : x.c.q w = y :: l)
    (e : Exn.Res.bind (Exn.plain x (Runtime.finPop x.c w p k)) (Exn.wake bd · p) = .ok x') : Fine tr x'.c (sync body w ch x h) w h.n (touch body w ch x.c) := by
  have hz : ¬ Zomb (x.c.pc w) := by rw [hp]; exact id
  have hlk : x.c.loc k = .finishing w := (F.loc.fin w k).2 ⟨p, .inl hp⟩
  unfold Runtime.finPop at e
  rw [hq] at e
  obtain ⟨p', k'⟩ := y
  simp only at e
  split at e
  case isFalse => cases e
  rename_i hc
  obtain ⟨rfl, -⟩ := hc
  obtain ⟨e1, e2, e3, e4, e5, e6⟩ := wake_own e
  have hl : x.c.loc p' = .queued w k' := (F.loc.queue w p' k').2 (by rw [hq]; exact List.mem_cons_self ..)
  have u := up_tick h w
  simp only [sync, touch, hp]
  rw [if_neg (by rw [hq]; simp)]
  refine Fine.keep (q := .run p') i ab hz e4 e2 (fun k _ => by rw [e1]; rfl) e3 u.kn u.n (by simp) ?_ (fun hq => hq.elim)
  intro f j hj hpj
  refine pub_mono ?_ (fun _ h => h) (fun _ h => h)
  rw [e5, e6]
  simp only [Runtime.report, upd_apply]
  by_cases h1 : f = p'
  · subst h1
    rw [if_pos rfl]
    exact .inl ⟨fun d => by rw [hl]; simp, fun d => by simp⟩
  · simp only [if_neg h1]
    by_cases h2 : f = k
    · subst h2
      rw [if_pos rfl]
      exact .inl ⟨fun d => by rw [hlk]; simp, fun d => by simp⟩
    · simp only [if_neg h2]
      exact .inr ⟨by trivial, by trivial⟩

theorem fine_finDec (hf : Few x.c) {p k : Nat} {b : Bool} (hp : x.c.pc w = .finDec p k b) (e : Exn.plain x (Runtime.finDec x.c w p k b) = .ok x') :
    Fine tr x'.c (sync body w ch x h) w h.n (touch body w ch x.c) := by
  obtain ⟨c1, e1, rfl⟩ := plain_ok e
  have hz : ¬ Zomb (x.c.pc w) := by rw [hp]; exact id
  have hlk : x.c.loc k = .finishing w := (F.loc.fin w k).2 ⟨p, .inr ⟨_, hp⟩⟩
  have hfl := F.flink w p k (.inr ⟨b, hp⟩)
  have ha : Alive (x.c.loc p) := F.kid k p hfl (by rw [hlk]; simp) (by rw [hlk]; simp)
  have hpk : p ≠ k := by rintro rfl; rw [hlk] at ha; exact ha
  have hni : NI (x.c.loc p) ∨ (x.c.fr p).steal ≠ 0 := by
    rcases F.dec w p k b hp with h1 | ⟨v, h1⟩ | ⟨v, c', h1, _⟩
    · right; rw [F.steal p ha]; exact h1
    · left; intro d; rw [h1]; simp
    · left; intro d; rw [h1]; simp
  have u := (up_tick h w).sub p (decide ((x.c.fr p).join = 1))
  unfold Runtime.finDec at e1
  split at e1
  case isFalse => cases e1
  simp only [Runtime.report] at e1
  simp only [sync, touch, hp]
  split at e1
  · rename_i hj1
    cases e1
    refine Fine.keep i ab hz rfl rfl (fun _ _ => rfl) rfl u.kn u.n (by simp) ?_ (fun hq => hq.elim)
    intro f j hj hpj
    refine pub_mono ?_ (fun _ h => h) (kj_sub (h.tick w) _ _ _ _)
    by_cases h1 : f = p
    · subst h1
      have hpk' := F.one hf w f k b hp hj1
      exact .inl ⟨fun d => by rw [hpk']; simp, fun d => by show upd (upd x.c.loc k _) f _ f ≠ _; rw [upd_same]; simp⟩
    · by_cases h2 : f = k
      · subst h2
        exact .inl ⟨fun d => by rw [hlk]; simp, fun d => by show upd (upd x.c.loc f _) p _ f ≠ _; rw [upd_ne _ _ h1, upd_same]; simp⟩
      · exact .inr ⟨by show upd (upd x.c.loc k _) p _ f = _; rw [upd_ne _ _ h1, upd_ne _ _ h2], by simp only [upd_ne _ _ h1]⟩
  · cases e1
    have hfp : ∀ f, (upd x.c.loc k .gone f = x.c.loc f ∧ ((upd (upd x.c.fr p { x.c.fr p with kids := (x.c.fr p).kids.erase k }) p
        { upd x.c.fr p { x.c.fr p with kids := (x.c.fr p).kids.erase k } p with join := ((upd x.c.fr p { x.c.fr p with kids := (x.c.fr p).kids.erase k } p).join + Runtime.U16 - 1) % Runtime.U16, joined := (upd x.c.fr p { x.c.fr p with kids := (x.c.fr p).kids.erase k } p).joined + 1 }) f).steal = (x.c.fr f).steal) ∨ f = k := by
      intro f
      by_cases h2 : f = k
      · exact .inr h2
      · left
        refine ⟨upd_ne _ _ h2, ?_⟩
        by_cases h1 : f = p
        · subst h1; simp only [upd_same]
        · simp only [upd_ne _ _ h1]
    refine Fine.keep i ab hz rfl rfl (fun _ _ => rfl) rfl u.kn u.n (by simp) ?_ ?_
    · intro f j hj hpj
      refine pub_mono ?_ (fun _ h => h) (kj_sub (h.tick w) _ _ _ _)
      rcases hfp f with h1 | h1
      · exact .inr h1
      · subst h1
        exact .inl ⟨fun d => by rw [hlk]; simp, fun d => by show upd x.c.loc f _ f ≠ _; rw [upd_same]; simp⟩
    · intro hq
      cases b with
      | false => exact hq.elim
      | true =>
        have hd := ab.dO w p k hp
        refine ⟨p, by rw [hd.1]; exact hd.2, ?_⟩
        have hkj : ((h.tick w).sub w p (decide ((x.c.fr p).join = 1))).kn w ⊆ ((h.tick w).sub w p (decide ((x.c.fr p).join = 1))).kj p := by
          intro y hy
          simp only [Clk.sub, upd_same] at hy ⊢
          split at hy
          · rw [upd_same] at hy; exact hy
          · exact List.mem_append.2 (.inl hy)
        intro y hy
        have hy := hkj hy
        unfold Pub
        rcases hfp p with ⟨h1, h2⟩ | h1
        · split
          · rename_i d hd'
            rcases hni with hni | hni
            · exact absurd (h1.symm.trans hd') (hni d)
            · rw [if_neg (fun h0 => hni (h2.symm.trans h0))]; exact hy
          · exact hy
        · exact absurd h1 hpk

theorem fine_finLose {b : Bool} (hp : x.c.pc w = .finLose b) (e : Exn.plain x (Runtime.finLose x.c w b) = .ok x') :
    Fine tr x'.c (sync body w ch x h) w h.n (touch body w ch x.c) := by
  obtain ⟨c1, e1, rfl⟩ := plain_ok e
  have u := up_tick h w
  have hP : ∀ q : Pc, ∀ p k, (x.c.al k).head? = some p → Pub x.c h p ⊆ Pub x.c (h.tick w) p := fun _ p k _ => pub_mono (.inr ⟨rfl, rfl⟩) (fun _ h => h) (fun _ h => h)
  unfold Runtime.finLose at e1
  simp only [sync, touch, hp]
  cases b with
  | true =>
    simp only [if_true] at e1 ⊢
    split at e1
    case isFalse => cases e1
    cases e1
    exact Fine.renew (q := .idle) i ab (by rw [hp]; trivial) rfl rfl rfl rfl u.kn u.n (by simp [Runtime.release, upd_same]) (fun p k _ => pub_mono (.inr ⟨rfl, rfl⟩) (fun _ h => h) (fun _ h => h))
  | false =>
    simp only [Bool.false_eq_true, if_false] at e1 ⊢
    split at e1
    case isFalse => cases e1
    cases e1
    exact Fine.keep (q := .idle) i ab (by rw [hp]; exact id) rfl rfl (fun _ _ => rfl) rfl u.kn u.n (by simp) (fun p k _ _ => pub_mono (.inr ⟨rfl, rfl⟩) (fun _ h => h) (fun _ h => h)) (fun hq => hq.elim)

theorem fine_switchRel {b : Bool} (hp : x.c.pc w = .switchRel b) (e : Exn.plain x (Runtime.switchRel x.c w b) = .ok x') :
    Fine tr x'.c (sync body w ch x h) w h.n (touch body w ch x.c) := by
  obtain ⟨c1, e1, rfl⟩ := plain_ok e
  have u := up_tick h w
  unfold Runtime.switchRel at e1
  simp only [sync, touch, hp]
  cases b with
  | true =>
    simp only [if_true] at e1 ⊢
    split at e1
    case isFalse => cases e1
    cases e1
    exact Fine.renew (q := .selfSteal) i ab (by rw [hp]; trivial) rfl rfl rfl rfl u.kn u.n (by simp [Runtime.release, upd_same]) (fun p k _ => pub_mono (.inr ⟨rfl, rfl⟩) (fun _ h => h) (fun _ h => h))
  | false =>
    simp only [Bool.false_eq_true, if_false] at e1 ⊢
    split at e1
    case isFalse => cases e1
    cases e1
    exact Fine.keep (q := .selfSteal) i ab (by rw [hp]; exact id) rfl rfl (fun _ _ => rfl) rfl u.kn u.n (by simp) (fun p k _ _ => pub_mono (.inr ⟨rfl, rfl⟩) (fun _ h => h) (fun _ h => h)) (fun hq => hq.elim)

theorem fine_selfSteal (hp : x.c.pc w = .selfSteal) (e : Exn.plain x (Runtime.selfSteal x.c w) = .ok x') :
    Fine tr x'.c (sync body w ch x h) w h.n (touch body w ch x.c) := by
  obtain ⟨c1, e1, rfl⟩ := plain_ok e
  have hz : ¬ Zomb (x.c.pc w) := by rw [hp]; exact id
  have u := up_tick h w
  unfold Runtime.selfSteal at e1
  simp only [sync, touch, hp]
  split at e1
  · rename_i p k r hq
    cases e1
    have hl : x.c.loc p = .queued w k := (F.loc.queue w p k).2 (by rw [hq]; exact List.mem_cons_self ..)
    rw [if_neg (by rw [hq]; simp)]
    refine Fine.keep (q := .stole p) i ab hz rfl rfl (fun _ _ => rfl) rfl u.kn u.n (by simp) ?_ (fun hq => hq.elim)
    intro f j hj hpj
    refine pub_mono ?_ (fun _ h => h) (fun _ h => h)
    by_cases hne : f = p
    · subst hne
      exact .inl ⟨fun d => by rw [hl]; simp, fun d => by show upd x.c.loc f _ f ≠ _; rw [upd_same]; simp⟩
    · exact .inr ⟨upd_ne _ _ hne, rfl⟩
  · rename_i hq
    split at e1
    case isFalse => cases e1
    cases e1
    rw [if_pos hq]
    exact Fine.keep (q := .idle) i ab hz rfl rfl (fun _ _ => rfl) rfl u.kn u.n (by simp) (fun p k _ _ => pub_mono (.inr ⟨rfl, rfl⟩) (fun _ h => h) (fun _ h => h)) (fun hq => hq.elim)

theorem fine_stole {bd : σ → Exn.Act σ V E} {p : Nat} (hp : x.c.pc w = .stole p) (e : Exn.Res.bind (Exn.plain x (Runtime.stole x.c w p)) (Exn.wake bd · p) = .ok x') :
    Fine tr x'.c (sync body w ch x h) w h.n (touch body w ch x.c) := by
  have hz : ¬ Zomb (x.c.pc w) := by rw [hp]; exact id
  have hl : x.c.loc p = .stolenBy w := (F.loc.sto w p).2 hp
  unfold Runtime.stole at e
  split at e
  case isFalse => cases e
  obtain ⟨e1, e2, e3, e4, e5, e6⟩ := wake_own e
  have u := up_tick h w
  simp only [sync, touch, hp]
  refine Fine.keep (q := .run p) i ab hz e4 e2 (fun k _ => by rw [e1]) e3 u.kn u.n (by simp) ?_ (fun hq => hq.elim)
  intro f j hj hpj
  refine pub_mono ?_ (fun _ h => h) (fun _ h => h)
  rw [e5, e6]
  by_cases h1 : f = p
  · subst h1
    exact .inl ⟨fun d => by rw [hl]; simp, fun d => by show upd x.c.loc f _ f ≠ _; rw [upd_same]; simp⟩
  · exact .inr ⟨upd_ne _ _ h1, by simp only [upd_ne _ _ h1]⟩

end
end Verif.Own
