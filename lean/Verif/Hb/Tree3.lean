import Verif.Hb.Tree2

/-!
Every step of a task keeps what Verif.Hb.Tree says.
-/
namespace Verif.Hb
open Verif.Runtime (State Res Fr Pc Loc Link Alive Few forkPar tok upd upd_apply upd_same upd_ne maxU16)
open Verif.Exn (XS Choice)
open Verif.Mem (MS Act)
variable {σ V E L : Type}
variable {x x' : XS σ V E} {h : Clk} {g : Ord} {B : Nat → List Nat} {w n : Nat} {ch : Choice E} {body : σ → Act σ V E L} {tr : List (Rec L)}

theorem jg_stay (j : JX x g tr) (F : Fx x) {f : Nat} (hp : x.c.pc w = .run f)
    (hm : merge body w ch x x' g = g) (hpo : ∀ g', post body w ch x g' = g') (hc : counter body w ch x = none)
    (h1 : x'.c.nf = x.c.nf) (h2 : x'.c.loc = x.c.loc) (h3 : x'.c.pc = x.c.pc) (h4 : ∀ p, (x'.c.fr p).slots = (x.c.fr p).slots) :
    JG x x' body w ch n g tr := by
  have hl : x.c.loc f = .running w := (F.loc.run w f).2 (.inl hp)
  have ha : Alive (x.c.loc f) := by rw [hl]; trivial
  exact jg_act j F ha (by simp only [who, hp]) hm j hpo (fun p b hc' => by rw [hc] at hc'; cases hc') h1 (fun _ => by rw [h2]) (fun _ => by rw [h2]) (fun _ _ _ h => by rw [h3] at h; exact h)
    (fun p hp => .inl (by rw [h4 p] at hp; exact hp))

theorem J.setKid {nf : Nat} {loc : Nat → Loc} {pc : Nat → Pc} {sl : Nat → Prop} (j : J nf loc pc sl g tr) (k : Nat → Nat) : J nf loc pc sl { g with kid := k } tr :=
  ⟨j.rt, j.ct, j.cc, j.dn, j.de, j.go, j.fp, j.pl⟩

theorem Fx.npop (F : Fx x) (v p c : Nat) (hv : x.c.pc v = .finPop p c) : p ≠ x.c.nf ∧ c ≠ x.c.nf := by
  obtain ⟨un, _, pd⟩ := F.next
  refine ⟨fun e => ?_, fun e => ?_⟩
  · subst e
    have hl := F.pend (.inl hv : Pend _ c (x.c.pc v))
    have := F.kid c _ (F.flink v _ c (.inl hv)) (by rw [hl]; simp) (by rw [hl]; simp)
    rw [un] at this; exact this
  · subst e; exact pd v p (.inl hv)

theorem jg_new {f : Nat} (j : JX x g tr) (F : Fx x) (hp : x.c.pc w = .run f) {q : Par} (hq : q = .fork f ∨ q = .call f) {l : Loc} (hal : Alive l) {kid : Nat → Nat}
    (hm : merge body w ch x x' g = g) (hpo : post body w ch x (g.act n f) = { g.act n f with L := upd (g.act n f).L x.c.nf ((g.act n f).L f), D := upd g.D x.c.nf [], par := upd g.par x.c.nf q, kid := kid })
    (hc : counter body w ch x = some (x.c.nf, true)) (h1 : x'.c.nf = x.c.nf + 1) (h2 : x'.c.loc = upd (upd x.c.loc f l) x.c.nf (.running w))
    (h3 : x'.c.pc = upd x.c.pc w (.run x.c.nf)) (h4 : ∀ p, p ≠ x.c.nf → (x'.c.fr p).slots = [] → (x.c.fr p).slots = []) : JG x x' body w ch n g tr := by
  have hl : x.c.loc f = .running w := (F.loc.run w f).2 (.inl hp)
  have ha : Alive (x.c.loc f) := by rw [hl]; trivial
  obtain ⟨un, cw, pd⟩ := F.next
  have hne : f ≠ x.c.nf := by rintro e; rw [e] at hl; rw [un] at hl; cases hl
  have hlt := F.lt (f := f) (by rw [hl]; simp)
  have j1 := j.act (f := f) n (alive_gone ha) (F.nopop ha)
  have j2 := j1.new (l := .running w) (k := (g.act n f).L f) (q := q) un trivial F.npop (fun p hp' => by
    rcases hq with hq | hq <;> subst hq <;> rcases hp' with hp' | hp' <;> cases hp' <;> exact ⟨hlt, fun _ h => h⟩)
  have hf' : Alive (upd x.c.loc x.c.nf (.running w) f) := by rw [upd_ne _ _ hne]; exact ha
  have j3 := j2.at (loc' := upd (upd x.c.loc x.c.nf (.running w)) f l) (pc' := upd x.c.pc w (.run x.c.nf)) (sl' := fun p => (x'.c.fr p).slots = [])
    (upd_alive hf' hal) (upd_gone (alive_gone hf') (alive_gone hal)) (fun p hp => by
      by_cases e : p = x.c.nf
      · right; rw [e]; exact upd_same ..
      · exact .inl (h4 p e hp)) (upd_pop (by simp))
  rw [upd_comm _ _ _ (Ne.symm hne)] at j3
  unfold JG
  rw [show who w ch x = some f by simp only [who, hp]]
  intro r hr hrt hrc
  rw [hm, hpo, h1, h2, h3]
  refine (j3.setKid kid).log ⟨by rw [hrt]; omega, ?_⟩ (fun p b hp' => ?_) (fun p hp' c h5 h6 h7 => ?_)
  · rw [hr, hrt]
    simp only [upd_ne _ _ hne, Ord.act, upd_same]
    exact List.mem_cons_self ..
  · rw [hrc, hc] at hp'; cases hp'
    refine ⟨by omega, .inl ?_⟩
    rw [hr]
    simp only [Ord.act, upd_same]
    exact List.mem_cons_self ..
  · rw [hrc, hc] at hp'; cases hp'
    have := j3.pl c h5 x.c.nf (.inl h6)
    omega

theorem J.gone {nf : Nat} {loc : Nat → Loc} {pc : Nat → Pc} {sl : Nat → Prop} (j : J nf loc pc sl g tr) {c : Nat} (ha : Alive (loc c)) (hD : g.D c = [])
    (h1 : ∀ p, g.par c = .fork p → ∀ e ∈ g.L c, e ∈ g.D p ∨ e ∈ g.L p) (h2 : ∀ p, g.par c = .call p → g.L c ⊆ g.L p) : J nf (upd loc c .gone) pc sl g tr := by
  have j1 := (j.drop (c := c) (l := .finishing 0) ha (fun h => h) (by simp) hD).leave (c := c) (by rw [upd_same]; exact fun h => h) h1 h2
  have : upd (upd loc c (.finishing 0)) c .gone = upd loc c .gone := by funext p; simp only [upd_apply]; split <;> rfl
  rw [this] at j1
  exact j1

theorem jg_end {bd : σ → Exn.Act σ V E} {pend : σ → Nat} (i : I x.c.nf x.c.loc x.c.pc (fun f => (x.c.fr f).stolen) x.c.link h g B) (j : JX x g tr) (F : Fx x) (S : Fs pend x) {f : Nat} (hp : x.c.pc w = .run f)
    (hpd : pend (x.c.fr f).st = 0) {r : Except E V} (hm : merge body w ch x x' g = g) (hpo : ∀ g', post body w ch x g' = g'.ended f) (hc : counter body w ch x = none)
    (e : Exn.doEnd bd x w f r = .ok x') : JG x x' body w ch n g tr := by
  have hl : x.c.loc f = .running w := (F.loc.run w f).2 (.inl hp)
  have ha : Alive (x.c.loc f) := by rw [hl]; trivial
  have hlt := F.lt (f := f) (by rw [hl]; simp)
  have hD : g.D f = [] := j.dn f ha (by
    have := S.pd w f hp
    rw [hpd] at this
    exact List.eq_nil_of_length_eq_zero this.symm)
  have j1 := j.act (f := f) n (alive_gone ha) (F.nopop ha)
  have hn : n ∈ (g.act n f).L f := by simp [Ord.act, upd_same]
  have hpar := i.par f hlt
  have fin : ∀ {nf : Nat} {loc : Nat → Loc} {pc : Nat → Pc} {sl : Nat → Prop} {g' : Ord}, J nf loc pc sl g' tr → f < nf → n ∈ g'.L f →
      ∀ r : Rec L, r.no = n → r.task = f → r.cnt = counter body w ch x → J nf loc pc sl g' (r :: tr) := by
    intro nf loc pc sl g' j' h1 h2 r hr hrt hrc
    rw [hc] at hrc
    exact j'.log ⟨by rw [hrt]; exact h1, by rw [hr, hrt]; exact h2⟩ (fun p b hp => by rw [hrc] at hp; cases hp) (fun p hp => by rw [hrc] at hp; cases hp)
  unfold JG
  rw [show who w ch x = some f by simp only [who, hp]]
  simp only
  rw [hm, hpo]
  unfold Exn.doEnd at e
  simp only at e
  split at e
  case isFalse => cases e
  split at e
  · rename_i hlk
    split at e
    case h_2 => cases e
    rename_i s1 hd
    obtain ⟨d1, d2, d3⟩ := destroy_eq hd
    split at e <;> cases e
    have hpr : (g.act n f).par f = .root := by
      rw [hlk] at hpar
      show g.par f = .root
      cases h1 : g.par f <;> rw [h1] at hpar <;> first | rfl | exact hpar.elim
    have j2 := j1.gone (c := f) ha hD (fun p hp => by rw [hpr] at hp; cases hp) (fun p hp => by rw [hpr] at hp; cases hp)
    have j3 := j2.at (loc' := upd x.c.loc f .gone) (pc' := upd x.c.pc w .idle) (sl' := fun p => (s1.fr p).slots = []) (fun _ => Iff.rfl) (fun _ => Iff.rfl) (fun p hp => .inl (by rw [d3] at hp; exact hp)) (upd_pop (by simp))
    simp only [Ord.ended, hpr, d1]
    exact fin j3 hlt hn
  · rename_i p hlk
    split at e
    case isFalse => cases e
    split at e
    case h_2 => cases e
    rename_i s1 _ _ hd
    obtain ⟨d1, d2, d3⟩ := destroy_eq hd
    cases e
    have hpr : (g.act n f).par f = .call p := by
      rw [hlk] at hpar
      show g.par f = .call p
      cases h1 : g.par f <;> rw [h1] at hpar <;> first | exact hpar.elim | (cases hpar; rfl)
    have hlp : x.c.loc p = .callwait f := (F.callw p f).2 ⟨hlk, ha⟩
    have hap : Alive (x.c.loc p) := by rw [hlp]; trivial
    have hne : p ≠ f := by rintro rfl; rw [hlp] at hl; cases hl
    have j2 := j1.grow (f := p) (l := (g.act n f).L f ++ (g.act n f).L p) (fun _ h => List.mem_append.2 (.inr h)) (alive_gone hap) (F.nopop hap)
    have j3 := j2.gone (c := f) ha hD (fun q hq => by
        have hq : (g.act n f).par f = .fork q := hq
        rw [hpr] at hq; cases hq) (fun q hq => by
      have hq : (g.act n f).par f = .call q := hq
      rw [hpr] at hq; cases hq
      simp only [upd_ne _ _ (Ne.symm hne), upd_same]
      exact fun _ h => List.mem_append.2 (.inl h))
    have hap' : Alive (upd x.c.loc f .gone p) := by rw [upd_ne _ _ hne]; exact hap
    simp only [Ord.ended, hpr, d1]
    refine fin (j3.at (upd_alive hap' trivial) (upd_gone (alive_gone hap') (by simp)) (fun q hq => .inl ((slots_upd (by rfl) q).symm.trans hq)) (upd_pop (by simp))) hlt ?_
    simp only [upd_ne _ _ (Ne.symm hne)]
    exact hn
  · rename_i p k hlk
    split at e
    case isFalse => cases e
    split at e
    case h_2 => cases e
    rename_i s1 hd
    obtain ⟨d1, d2, d3⟩ := destroy_eq hd
    cases e
    have hpr : (g.act n f).par f = .fork p := by
      rw [hlk] at hpar
      show g.par f = .fork p
      cases h1 : g.par f <;> rw [h1] at hpar <;> first | exact hpar.elim | (cases hpar; rfl)
    have hfp : forkPar (x.c.link f) = some p := by rw [hlk]; rfl
    have hap : Alive (x.c.loc p) := F.kid f p hfp (by rw [hl]; simp) (by rw [hl]; simp)
    have hne : f ≠ p := by
      intro e
      have := F.older f p hlt hfp
      omega
    have hns := S.slot f p hfp (by rw [hl]; simp) (by rw [hl]; simp)
    have j2 := j1.give (p := p) ((g.act n f).L f) hns hap
    have j3 := j2.drop (c := f) (l := .finishing w) ha (fun h => h) (by simp) (by
      show upd g.D p _ f = []
      rw [upd_ne _ _ hne]; exact hD)
    have j4 := j3.pop (w := w) (p := p) (c := f) (fun y hy => .inl (by
      simp only [upd_same]
      exact List.mem_append.2 (.inl hy)))
    simp only [Ord.ended, hpr, d1]
    refine fin (j4.at (fun _ => Iff.rfl) (fun _ => Iff.rfl) (fun q hq => .inl ?_) (fun _ _ _ h => h)) hlt hn
    rw [upd_apply] at hq
    split at hq
    · rename_i e
      subst e
      simp only at hq
      cases r with
      | ok v =>
        simp only at hq
        exact List.eq_nil_of_length_eq_zero (by have := congrArg List.length hq; simpa using this)
      | error v => exact hq
    · exact hq

theorem failed_slots {f : Nat} {c z : σ} {b : Bool} (e : Exn.failed x w f c z b = .ok x') (p : Nat) : (x'.c.fr p).slots = (x.c.fr p).slots := by
  unfold Exn.failed at e
  cases b <;> simp only [if_true, if_false, Bool.false_eq_true] at e
  · cases e; exact slots_upd (by rfl) p
  · split at e <;> cases e
    exact slots_upd (by rfl) p

theorem jg_join {bd : σ → Exn.Act σ V E} (j : JX x g tr) (F : Fx x) {f : Nat} (hp : x.c.pc w = .run f) {k : List V → σ}
    {z : E → List (Option V) → σ} {o : Runtime.Choice} (hb : body (x.c.fr f).st = .join k z) (e : Exn.doJoin bd x w f = .ok x') : JG x x' body w (.go o) n g tr := by
  have hl : x.c.loc f = .running w := (F.loc.run w f).2 (.inl hp)
  have ha : Alive (x.c.loc f) := by rw [hl]; trivial
  have hcn : ∀ p b, counter body w (.go o) x ≠ some (p, b) := fun p b hc => by simp only [counter, hp, hb] at hc; cases hc
  unfold Exn.doJoin at e
  simp only at e
  split at e
  · rename_i h0
    obtain ⟨h1, h2, h3, h4, h5⟩ := passJoin_eq e
    refine jg_act j F ha (by simp only [who, hp]) (g1 := g.join f) (by simp only [merge, hp, hb, if_pos h0]) (j.join (alive_gone ha) (F.nopop ha)) (fun _ => by simp only [post, hp, hb])
      (fun p b hc => absurd hc (hcn p b)) h1 (by rw [h2]; exact upd_alive ha trivial) (by rw [h2]; exact upd_gone (alive_gone ha) (by simp)) (by rw [h3]; exact upd_pop (by simp)) (fun p hp' => ?_)
    by_cases e' : p = f
    · subst e'; exact .inr (upd_same ..)
    · rw [passJoin_slots e p e'] at hp'; exact .inl hp'
  · rename_i h0
    cases e
    exact jg_act j F ha (by simp only [who, hp]) (g1 := g) (by simp only [merge, hp, hb, if_neg h0]) j (fun _ => by simp only [post, hp, hb])
      (fun p b hc => absurd hc (hcn p b)) rfl (fun _ => Iff.rfl) (fun _ => Iff.rfl) (upd_pop (by simp)) (fun p hp => .inl hp)

theorem jg_run [Inhabited E] {pend : σ → Nat} {dirty : σ → Prop} (hd : Mem.Disc body pend dirty) (i : I x.c.nf x.c.loc x.c.pc (fun f => (x.c.fr f).stolen) x.c.link h g B) (j : JX x g tr) (F : Fx x) (S : Fs pend x) {f : Nat}
    (hp : x.c.pc w = .run f) (hn : Mem.NoAcc body (x.c.fr f).st) (e : Exn.run (Mem.ctl body) x w f ch = .ok x') : JG x x' body w ch n g tr := by
  have hl : x.c.loc f = .running w := (F.loc.run w f).2 (.inl hp)
  have ha : Alive (x.c.loc f) := by rw [hl]; trivial
  unfold Exn.run at e
  cases ch with
  | go o =>
    cases hb : body (x.c.fr f).st with
    | ret v =>
      simp only [Mem.ctl, hb] at e
      exact jg_end i j F S hp (hd.ret _ _ hb).1 (by simp only [merge, hp, hb]) (fun g' => by simp only [post, hp, hb]) (by simp only [counter, hp, hb]) e
    | throw v =>
      simp only [Mem.ctl, hb] at e
      exact jg_end i j F S hp (hd.throw _ _ hb).1 (by simp only [merge, hp, hb]) (fun g' => by simp only [post, hp, hb]) (by simp only [counter, hp, hb]) e
    | fork c k z =>
      simp only [Mem.ctl, hb] at e
      cases e
      refine jg_new j F hp (.inl rfl) (l := .queued w x.c.nf) trivial (kid := upd g.kid f x.c.nf) (by simp only [merge, hp, hb]) (by simp only [post, hp, hb]; rfl)
        (by simp only [counter, hp, hb]) rfl rfl rfl (fun p hpn hs => ?_)
      simp only [Exn.fork, Runtime.doFork, Runtime.newFrame, upd_apply] at hs
      split at hs
      · simp at hs
      · simpa [hpn] using hs
    | call c k z =>
      simp only [Mem.ctl, hb] at e
      cases e
      refine jg_new j F hp (.inr rfl) (l := .callwait x.c.nf) trivial (kid := g.kid) (by simp only [merge, hp, hb]) (by simp only [post, hp, hb]; rfl)
        (by simp only [counter, hp, hb]) rfl rfl rfl (fun p hpn hs => ?_)
      simp only [Exn.call, Runtime.doCall, Runtime.newFrame, upd_apply] at hs
      rw [if_neg hpn] at hs; exact hs
    | join k z =>
      simp only [Mem.ctl, hb] at e
      exact jg_join j F hp hb e
    | switch d k z =>
      simp only [Mem.ctl, hb] at e
      obtain ⟨c1, e1, rfl⟩ := plain_ok e
      unfold Runtime.doSwitch at e1
      simp only at e1
      split at e1 <;> cases e1
      exact jg_act j F ha (by simp only [who, hp]) (g1 := g) (by simp only [merge, hp, hb]) j (fun _ => by simp only [post, hp, hb])
        (fun p b hc => by simp only [counter, hp, hb] at hc; cases hc) rfl (upd_alive ha trivial) (upd_gone (alive_gone ha) (by simp)) (upd_pop (by simp))
        (fun p hp => .inl ((slots_upd (by rfl) p).symm.trans hp))
    | load l k => exact absurd hb (hn.1 l k)
    | store l d k => exact absurd hb (hn.2 l d k)
  | fail y b =>
    cases hb : body (x.c.fr f).st with
    | fork c k z =>
      simp only [Mem.ctl, hb] at e
      obtain ⟨h1, h2, h3, h4, h5⟩ := failed_eq e
      exact jg_stay j F hp (by simp only [merge, hp]) (fun g' => by simp only [post, hp]) (by simp only [counter, hp]) h1 h2 h3 (failed_slots e)
    | call c k z =>
      simp only [Mem.ctl, hb] at e
      obtain ⟨h1, h2, h3, h4, h5⟩ := failed_eq e
      exact jg_stay j F hp (by simp only [merge, hp]) (fun g' => by simp only [post, hp]) (by simp only [counter, hp]) h1 h2 h3 (failed_slots e)
    | switch d k z =>
      simp only [Mem.ctl, hb] at e
      cases e
      exact jg_stay j F hp (by simp only [merge, hp]) (fun g' => by simp only [post, hp]) (by simp only [counter, hp]) rfl rfl rfl (fun p => slots_upd (by rfl) p)
    | load l k => exact absurd hb (hn.1 l k)
    | store l d k => exact absurd hb (hn.2 l d k)
    | _ => simp only [Mem.ctl, hb] at e; cases e
  | ready =>
    cases hb : body (x.c.fr f).st with
    | switch d k z =>
      simp only [Mem.ctl, hb] at e
      cases e
      exact jg_stay j F hp (by simp only [merge, hp]) (fun g' => by simp only [post, hp]) (by simp only [counter, hp]) rfl rfl rfl (fun p => slots_upd (by rfl) p)
    | load l k => exact absurd hb (hn.1 l k)
    | store l d k => exact absurd hb (hn.2 l d k)
    | _ => simp only [Mem.ctl, hb] at e; cases e

theorem jg_control [Inhabited E] {pend : σ → Nat} {dirty : σ → Prop} (hd : Mem.Disc body pend dirty) (i : I x.c.nf x.c.loc x.c.pc (fun f => (x.c.fr f).stolen) x.c.link h g B) (j : JX x g tr) (F : Fx x) (S : Fs pend x)
    (hf : Few x.c) (hn : ∀ f, x.c.pc w = .run f → Mem.NoAcc body (x.c.fr f).st) (e : Exn.step (Mem.ctl body) w ch x = .ok x') : JG x x' body w ch n g tr := by
  unfold Exn.step at e
  split at e
  · rename_i hp
    split at e
    · exact jg_take j F hp e
    · exact jg_steal j F hp e
    · cases e
  · rename_i hp; exact jg_run hd i j F S hp (hn _ hp) e
  · rename_i hp; exact jg_joinLoad j F hp e
  · rename_i hp; exact jg_joinSub j F hp e
  · rename_i hp; exact jg_joinTake i j F hp e
  · rename_i hp
    split at e
    · rename_i hq; exact jg_finPop0 j F hp hq e
    · rename_i hq; exact jg_finPop i j F hp hq e
  · rename_i hp; exact jg_finDec i j F S hf hp e
  · rename_i hp; exact jg_finWin i j F hp e
  · rename_i hp; exact jg_finLose j hp e
  · rename_i hp; exact jg_selfSteal j F hp e
  · rename_i hp; exact jg_stole j F hp e
  · rename_i hp; exact jg_switchRel j hp e

theorem jg_step [Inhabited E] [DecidableEq L] {pend : σ → Nat} {dirty : σ → Prop} (hd : Mem.Disc body pend dirty) {s s' : MS σ V E L}
    (i : I s.x.c.nf s.x.c.loc s.x.c.pc (fun f => (s.x.c.fr f).stolen) s.x.c.link h g B) (j : JX s.x g tr) (F : Fx s.x) (S : Fs pend s.x) (hf : Few s.x.c)
    (e : Mem.step body w ch s = .ok s') : JG s.x s'.x body w ch n g tr := by
  have hc : (∀ f, s.x.c.pc w = .run f → Mem.NoAcc body (s.x.c.fr f).st) → Mem.control body w ch s = .ok s' → JG s.x s'.x body w ch n g tr := by
    intro hn e
    unfold Mem.control at e
    cases hx : Exn.step (Mem.ctl body) w ch s.x with
    | ok x => rw [hx] at e; cases e; exact jg_control hd i j F S hf hn hx
    | no => rw [hx] at e; cases e
    | ub => rw [hx] at e; cases e
  unfold Mem.step at e
  split at e
  · rename_i f hp
    split at e
    · rename_i l k hb
      cases e
      exact jg_stay j F hp (by cases ch <;> simp only [merge, hp, hb]) (fun g' => by cases ch <;> simp only [post, hp, hb]) (by cases ch <;> simp only [counter, hp, hb]) rfl rfl rfl (fun p => slots_upd (by rfl) p)
    · rename_i l d k hb
      cases e
      exact jg_stay j F hp (by cases ch <;> simp only [merge, hp, hb]) (fun g' => by cases ch <;> simp only [post, hp, hb]) (by cases ch <;> simp only [counter, hp, hb]) rfl rfl rfl (fun p => slots_upd (by rfl) p)
    · rename_i hn1 hn2
      exact hc (fun f' hf' => by rw [hp] at hf'; cases hf'; exact ⟨fun l k h => hn1 l k h, fun l d k h => hn2 l d k h⟩) e
  · rename_i hnr
    exact hc (fun f' hf' => absurd hf' (hnr f')) e

end Verif.Hb
