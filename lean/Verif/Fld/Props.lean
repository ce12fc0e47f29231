import Verif.Fld.Step2
import Verif.Own.Props

/-!
C76: no data race on the members of frames.
-/
namespace Verif.Fld
open Verif.Runtime (State Res Fr Pc Loc Link Alive Few forkPar upd upd_apply upd_same upd_ne maxU16)
open Verif.Exn (XS Choice)
open Verif.Mem (MS Act)
open Verif.Hb (HS Clk Ord Par I Fx JX All who sync order reach_x reach_all fx_of)

variable {σ V E L : Type} [Inhabited E] [DecidableEq L] {body : σ → Act σ V E L} {pend : σ → Nat} {dirty : σ → Prop} {may : E → Prop} {ok : (σ → Prop) → σ → Prop} {m : L → E}

theorem reach_hb {o : FS σ V E L} (h : Reach body pend may ok m o) : Hb.Reach body pend may ok m o.a := by
  induction h with
  | start y => exact .start y
  | submit t w _ hf hp ho ih => exact .submit t w ih hf hp ho
  | step _ hf ha hs ih =>
    unfold step at hs
    split at hs <;> cases hs
    rename_i a' hs
    exact .step ih hf ha hs
  | wait t f _ hs ih => exact .wait t f ih hs
  | other t _ ih => exact .other t ih
  | meet t u _ ih => exact .meet t u ih

/-- The children of a task that has nothing to join are gone, and the task comes after them. -/
theorem kids_done (hd : Mem.Disc body pend dirty) {a : HS σ V E L} (h : Hb.Reach body pend may ok m a) {w f : Nat} (hw : a.s.x.c.pc w = .run f) (h0 : pend (a.s.x.c.fr f).st = 0) {c : Nat}
    (hc : c < a.s.x.c.nf) (hk : Kid a.g c f) : a.s.x.c.loc c = .gone ∧ a.g.L c ⊆ a.g.L f := by
  have A := reach_all hd h
  have F := fx_of (Mem.disc_ctl hd) (reach_x h)
  have S := Hb.fs_of (Mem.disc_ctl hd) (reach_x h)
  obtain ⟨B, i⟩ := A.i
  have hs : (a.s.x.c.fr f).slots = [] := List.length_eq_zero_iff.1 (by rw [← S.pd w f hw]; exact h0)
  have hl := (F.loc.run w f).2 (.inl hw)
  rcases hk with hp | hp
  · have hg : a.s.x.c.loc c = .gone := by
      by_cases h3 : a.s.x.c.loc c = .gone
      · exact h3
      · exact absurd hs (S.slot c f (Hb.par_fork i hc hp) (fun e => by have := (F.loc.fresh c).1 e; omega) h3)
    refine ⟨hg, fun e he => ?_⟩
    rcases (A.j.go c hc hg).1 f hp e he with h3 | h3
    · rw [A.j.dn f (by rw [hl]; trivial) hs] at h3; cases h3
    · exact h3
  · have hg := Hb.call_gone i F hc hp (by rw [hl]; simp)
    exact ⟨hg, (A.j.go c hc hg).2 f hp⟩

theorem knows_run (hd : Mem.Disc body pend dirty) {a : HS σ V E L} (h : Hb.Reach body pend may ok m a) {w f : Nat} (hw : a.s.x.c.pc w = .run f) : a.g.L f ⊆ a.h.kn w := by
  have F := fx_of (Mem.disc_ctl hd) (reach_x h)
  obtain ⟨B, i⟩ := (reach_all hd h).i
  have hl := (F.loc.run w f).2 (.inl hw)
  have h6 := i.hk f
  rw [hl] at h6
  exact fun e he => h6 (i.lb f (by rw [hl]; trivial) he)

theorem kid_of {x : XS σ V E} {g : Ord} {h : Clk} {B : Nat → List Nat} (i : I x.c.nf x.c.loc x.c.pc (fun f => (x.c.fr f).stolen) x.c.link h g B) {t p : Nat} (ht : t < x.c.nf)
    (hl : x.c.link t = .call p ∨ forkPar (x.c.link t) = some p) : Kid g t p := by
  rcases hl with hl | hl
  · have := i.par t ht
    rw [hl] at this
    right
    cases hq : g.par t with
    | root => rw [hq] at this; exact this.elim
    | fork q => rw [hq] at this; exact this.elim
    | call q => rw [hq] at this; rw [show q = p from this]
  · exact .inl (Hb.ended_fork i ht hl)

theorem who_life {x : XS σ V E} (F : Fx x) {w t : Nat} {ch : Choice E} (h : who w ch x = some t) : x.c.loc t ≠ .gone := by
  unfold who at h
  split at h
  · split at h
    · cases h
      rename_i hb
      rw [(F.loc.inb w t).2 (by rw [hb]; exact List.mem_cons_self ..)]; simp
    · cases h
  · cases h; rename_i hp; rw [(F.loc.run w t).2 (.inl hp)]; simp
  · cases h; rename_i hp; rw [(F.loc.run w t).2 (.inr (.inl hp))]; simp
  · cases h; rename_i hp; rw [(F.loc.run w t).2 (.inr (.inr hp))]; simp
  · cases h; rename_i hp; rw [(F.loc.win w t).2 (.inl hp)]; simp
  · cases h; rename_i b hp; rw [(F.loc.win w t).2 (.inr ⟨b, hp⟩)]; simp
  · cases h; rename_i hp; rw [(F.loc.sto w t).2 hp]; simp
  · rename_i p c hp
    have hl := (F.loc.fin w c).2 ⟨p, .inl hp⟩
    split at h
    · cases h; rw [hl]; simp
    · cases h
      have := F.kid c t (F.flink w t c (.inl hp)) (by rw [hl]; simp) (by rw [hl]; simp)
      exact Hb.alive_gone this
  · cases h; rename_i p b hp; rw [(F.loc.fin w t).2 ⟨p, .inr ⟨b, hp⟩⟩]; simp
  · cases h
  · cases h
  · cases h

omit [Inhabited E] [DecidableEq L] in
theorem new_par {a : HS σ V E L} {x' : XS σ V E} {w f p : Nat} {ch : Choice E} (h : New body w ch a.s.x f) (hk : Kid (order body w ch a x') a.s.x.c.nf p) : p = f := by
  obtain ⟨hp, ⟨o, rfl⟩, hb⟩ := h
  unfold Kid at hk
  rcases hb with ⟨c, k, z, hb⟩ | ⟨c, k, z, hb⟩
  · simp only [order, who, Hb.merge, Hb.post, hp, hb, Ord.fork, Ord.act, upd_same] at hk
    rcases hk with hk | hk <;> cases hk
    rfl
  · simp only [order, who, Hb.merge, Hb.post, hp, hb, Ord.call, Ord.act, upd_same] at hk
    rcases hk with hk | hk <;> cases hk
    rfl

theorem fi_step (hd : Mem.Disc body pend dirty) {o o' : FS σ V E L} {w : Nat} {ch : Choice E} (hr : Reach body pend may ok m o) (hf : Few o.a.s.x.c) (hal : Mem.Allowed may ch)
    (hs : step body w ch o = .ok o') (i : FI o.a.s.x o.a.g o.tr) :
    FI o'.a.s.x o'.a.g o'.tr ∧ ∀ y ∈ touch body w ch o.a.s.x, ∀ r ∈ o.tr, Clash ⟨o.a.h.n, y.1, y.2.1, y.2.2, (sync body w ch o.a.s.x o.a.h).kn w⟩ r → r.no ∈ (sync body w ch o.a.s.x o.a.h).kn w := by
  have hr' := reach_hb (Reach.step hr hf hal hs)
  have hb := reach_hb hr
  have A := reach_all hd hb
  have A' := reach_all hd hr'
  have F := fx_of (Mem.disc_ctl hd) (reach_x hb)
  obtain ⟨B, iI⟩ := A.i
  unfold step at hs
  split at hs <;> cases hs
  rename_i a' hs
  unfold Hb.step at hs
  split at hs <;> cases hs
  rename_i s' hs
  have M := mv_step (pend := pend) hd F hs
  simp only at hr' A' ⊢
  generalize hg' : order body w ch o.a s'.x = g' at *
  have mono : ∀ p, p < o.a.s.x.c.nf → o.a.g.L p ⊆ g'.L p := fun p hp => by rw [← hg']; exact Hb.order_mono (Nat.ne_of_lt hp)
  have par : ∀ c p, c < o.a.s.x.c.nf → (Kid g' c p ↔ Kid o.a.g c p) := fun c p hc => by unfold Kid; rw [← hg', Hb.order_par (Nat.ne_of_lt hc)]
  have nfle : o.a.s.x.c.nf ≤ s'.x.c.nf := by rcases M.nf with h | ⟨h, _⟩ <;> omega
  have runlt : ∀ f, o.a.s.x.c.pc w = .run f → f < o.a.s.x.c.nf := fun f hp => by
    rcases Nat.lt_or_ge f o.a.s.x.c.nf with h | h
    · exact h
    · have := (F.loc.fresh f).2 h
      rw [(F.loc.run w f).2 (.inl hp)] at this; cases this
  -- the step's task
  have task : ∀ t, who w ch o.a.s.x = some t → t < o.a.s.x.c.nf ∧ o.a.h.n ∈ g'.L t ∧ o.a.g.L t ⊆ (sync body w ch o.a.s.x o.a.h).kn w := by
    intro t ht
    have hm : (⟨o.a.h.n, t, (sync body w ch o.a.s.x o.a.h).kn w, (Hb.merge body w ch o.a.s.x s'.x o.a.g).L t, Hb.access body w o.a.s.x, Hb.counter body w ch o.a.s.x⟩ : Hb.Rec L) ∈
        Hb.log body w ch o.a s'.x := by
      unfold Hb.log
      rw [ht]
      exact List.mem_cons_self ..
    obtain ⟨h1, h2⟩ := A'.j.rt _ hm
    refine ⟨?_, h2, fun e he => A'.bk _ hm (Hb.merge_mono _ _ _ _ _ _ _ he)⟩
    rcases M.nf with h | ⟨h, f, hN⟩
    · rw [← h]; exact h1
    · have : t = f := by
        have := hN.1
        simp only [who, this] at ht
        cases ht; rfl
      rw [this]; exact runlt f hN.1
  -- new kids
  have newL : ∀ f, New body w ch o.a.s.x f → g'.L f = g'.L o.a.s.x.c.nf := fun f hN => by
    obtain ⟨hp, ⟨q, rfl⟩, hb⟩ := hN
    rw [← hg']
    exact Hb.order_new hp (runlt f hp) hb
  have kids : ∀ c p, c < s'.x.c.nf → Kid g' c p → s'.x.c.loc c ≠ .gone →
      (c < o.a.s.x.c.nf ∧ Kid o.a.g c p ∧ o.a.s.x.c.loc c ≠ .gone) ∨ (p < o.a.s.x.c.nf ∧ g'.L p = g'.L c) := by
    intro c p hc hk hl
    rcases Nat.lt_or_ge c o.a.s.x.c.nf with h | h
    · exact .inl ⟨h, (par c p h).1 hk, fun e => hl (M.gone c e)⟩
    · rcases M.nf with h1 | ⟨h1, f, hN⟩
      · omega
      · obtain rfl : c = o.a.s.x.c.nf := by omega
        rw [← hg'] at hk
        obtain rfl := new_par hN hk
        exact .inr ⟨runlt p hN.1, newL p hN⟩
  -- the end of a join, or of a task
  have done : ∀ t, Pass body w ch o.a.s.x t ∨ End body w ch o.a.s.x t → ∀ c, c < s'.x.c.nf → Kid g' c t →
      s'.x.c.loc c = .gone ∧ g'.L c ⊆ g'.L t ∧ (c < o.a.s.x.c.nf → o.a.g.L c ⊆ (sync body w ch o.a.s.x o.a.h).kn w) := by
    intro t ht c hc hk
    rcases ht with ht | ht
    · obtain ⟨h1, h2⟩ := M.pass t ht
      obtain ⟨h3, h4⟩ := kids_done hd hr' h1 h2 hc hk
      exact ⟨h3, h4, fun hc e he => knows_run hd hr' h1 (h4 (mono c hc he))⟩
    · obtain ⟨hp, ⟨q, rfl⟩, hb'⟩ := ht
      have h0 : pend (o.a.s.x.c.fr t).st = 0 := by
        rcases hb' with ⟨v, hb'⟩ | ⟨v, hb'⟩
        · exact (hd.ret _ _ hb').1
        · exact (hd.throw _ _ hb').1
      have nN : ∀ f, ¬ New body w (.go q) o.a.s.x f := fun f hN => by
        obtain ⟨h1, _, h2⟩ := hN
        rw [hp] at h1; cases h1
        rcases hb' with ⟨v, hb'⟩ | ⟨v, hb'⟩ <;> rcases h2 with ⟨_, _, _, h2⟩ | ⟨_, _, _, h2⟩ <;> (rw [hb'] at h2; cases h2)
      have hnf : s'.x.c.nf = o.a.s.x.c.nf := M.nf.elim id fun ⟨_, f, hN⟩ => absurd hN (nN f)
      rw [hnf] at hc
      obtain ⟨h3, h4⟩ := kids_done hd hb hp h0 hc ((par c t hc).1 hk)
      have hw : who w (.go q) o.a.s.x = some t := by simp only [who, hp]
      have hLc : g'.L c = o.a.g.L c := by
        have hne : c ≠ t := by rintro rfl; rw [(F.loc.run w c).2 (.inl hp)] at h3; cases h3
        have hpl := A.j.pl c hc t ((par c t hc).1 hk)
        have hgo : g' = (o.a.g.act o.a.h.n t).ended t := by
          rw [← hg']
          rcases hb' with ⟨v, hb'⟩ | ⟨v, hb'⟩ <;> simp only [order, Hb.merge, who, Hb.post, hp, hb']
        rw [hgo]
        unfold Ord.ended
        split
        · exact upd_ne _ _ hne
        · exact upd_ne _ _ hne
        · rename_i p hpp
          have hp1 : o.a.g.par t = .call p := hpp
          have := A.j.pl t (runlt t hp) p (.inr hp1)
          show upd (upd o.a.g.L t _) p _ c = _
          rw [upd_ne _ _ (by omega), upd_ne _ _ hne]
      refine ⟨M.gone c h3, ?_, fun _ e he => (task t hw).2.2 (h4 he)⟩
      rw [hLc]
      exact fun e he => mono t (runlt t hp) (h4 he)
  have nokid : ∀ c, c < s'.x.c.nf → ¬ Kid g' c o.a.s.x.c.nf := fun c hc hk => by
    have := A'.j.pl c hc _ hk
    rcases M.nf with h | ⟨h, f, hN⟩ <;> omega
  have W := why (body := body) (w := w) (ch := ch) F
  have ent : ∀ r ∈ entries o.a.h.n ((sync body w ch o.a.s.x o.a.h).kn w) (touch body w ch o.a.s.x), ∃ y ∈ touch body w ch o.a.s.x, r.no = o.a.h.n ∧ r.frame = y.1 ∧ r.mbr = y.2.1 ∧ r.kind = y.2.2 := by
    intro r hr
    obtain ⟨y, hy, rfl⟩ := List.mem_map.1 hr
    exact ⟨y, hy, rfl, rfl, rfl, rfl⟩
  have cls' : ∀ r ∈ entries o.a.h.n ((sync body w ch o.a.s.x o.a.h).kn w) (touch body w ch o.a.s.x) ++ o.tr,
      r.frame < s'.x.c.nf ∧ (r.no ∈ g'.L r.frame ∨ ∃ c, c < s'.x.c.nf ∧ Kid g' c r.frame ∧ r.no ∈ g'.L c ∧ Up r.mbr r.kind) := by
    intro r hr
    rcases List.mem_append.1 hr with hr | hr
    · obtain ⟨y, hy, e1, e2, e3, e4⟩ := ent r hr
      rw [e1, e2, e3, e4]
      obtain ⟨t, ht, hw⟩ := W y hy
      obtain ⟨t1, t2, t3⟩ := task t ht
      rcases hw with ⟨h1, _⟩ | ⟨h1, hN⟩ | ⟨h1, h2, _⟩
      · rw [h1]; exact ⟨by omega, .inl t2⟩
      · rw [h1]
        have := M.new t hN
        exact ⟨by omega, .inl (by rw [← newL t hN]; exact t2)⟩
      · have hk := kid_of iI t1 h1
        have := A.j.pl t t1 _ hk
        exact ⟨by omega, .inr ⟨t, by omega, (par t _ t1).2 hk, t2, h2⟩⟩
    · obtain ⟨h1, h2⟩ := i.cls r hr
      refine ⟨by omega, ?_⟩
      rcases h2 with h2 | ⟨c, h2, h3, h4, h5⟩
      · exact .inl (mono _ h1 h2)
      · exact .inr ⟨c, by omega, (par c _ h2).2 h3, mono c h2 h4, h5⟩
  refine ⟨⟨cls', ?_, ?_, ?_⟩, ?_⟩
  · intro r hr hH c hc hk hl
    rcases List.mem_append.1 hr with hr | hr
    · obtain ⟨y, hy, e1, e2, e3, e4⟩ := ent r hr
      rw [e2] at hk
      rw [e3, e4] at hH
      obtain ⟨t, ht, hw⟩ := W y hy
      rcases hw with ⟨h1, h2⟩ | ⟨h1, hN⟩ | ⟨h1, h2, _⟩
      · rw [h1] at hk
        rcases h2 with h2 | h2
        · exact absurd hH h2.1
        · exact absurd (done t h2 c hc hk).1 hl
      · rw [h1] at hk; exact absurd hk (nokid c hc)
      · exact absurd h2 (hard_not_up hH)
    · rcases kids c r.frame hc hk hl with ⟨h1, h2, h3⟩ | ⟨h1, h2⟩
      · exact mono c h1 (i.hard r hr hH c h1 h2 h3)
      · rw [← h2]
        rcases (i.cls r hr).2 with h3 | ⟨_, _, _, _, h5⟩
        · exact mono _ h1 h3
        · exact absurd h5 (hard_not_up hH)
  · intro r hr hm hx
    rcases List.mem_append.1 hr with hr' | hr'
    · obtain ⟨y, hy, e1, e2, e3, e4⟩ := ent r hr'
      rw [e2] at hx ⊢
      rw [e1]
      obtain ⟨t, ht, hw⟩ := W y hy
      obtain ⟨t1, t2, t3⟩ := task t ht
      rcases hw with ⟨h1, _⟩ | ⟨h1, hN⟩ | ⟨_, _, h3⟩
      · rw [h1]; exact t2
      · rw [h1, ← newL t hN]; exact t2
      · exact absurd hx (M.cap t y.1 (h3 (by rw [← e3]; exact hm)).2)
    · have h1 := (i.cls r hr').1
      rcases M.exc _ hx with h2 | h2 | h2
      · exact mono _ h1 (i.e1 r hr' hm h2)
      · omega
      · rcases (cls' r hr).2 with h3 | ⟨c, h3, h4, h5, _⟩
        · exact h3
        · exact (done r.frame (.inl h2) c h3 h4).2.1 h5
  · intro r hr hm hx c hc hk hl
    rcases List.mem_append.1 hr with hr' | hr'
    · obtain ⟨y, hy, e1, e2, e3, e4⟩ := ent r hr'
      rw [e2] at hk hx
      obtain ⟨t, ht, hw⟩ := W y hy
      rcases hw with ⟨h1, h2⟩ | ⟨h1, hN⟩ | ⟨_, _, h3⟩
      · rw [h1] at hk
        rcases h2 with h2 | h2
        · exact absurd (e3 ▸ hm) h2.2
        · exact absurd (done t h2 c hc hk).1 hl
      · rw [h1] at hk; exact absurd hk (nokid c hc)
      · exact absurd hx (M.cap t y.1 (h3 (by rw [← e3]; exact hm)).2)
    · have h0 := (i.cls r hr').1
      rcases M.exc _ hx with h2 | h2 | h2
      · rcases kids c r.frame hc hk hl with ⟨h3, h4, h5⟩ | ⟨h3, h4⟩
        · exact mono c h3 (i.e2 r hr' hm h2 c h3 h4 h5)
        · rw [← h4]; exact mono _ h3 (i.e1 r hr' hm h2)
      · omega
      · exact absurd (done r.frame (.inl h2) c hc hk).1 hl
  · intro y hy r hr hcl
    obtain ⟨c1, c2, c3, c4⟩ := hcl
    simp only at c1 c2 c3 c4
    obtain ⟨t, ht, hw⟩ := W y hy
    obtain ⟨t1, t2, t3⟩ := task t ht
    obtain ⟨r1, r2⟩ := i.cls r hr
    rcases hw with ⟨h1, h2⟩ | ⟨h1, hN⟩ | ⟨h1, h2, h3⟩
    · rcases r2 with r2 | ⟨c, r2, r3, r4, r5⟩
      · rw [← c1, h1] at r2; exact t3 r2
      · rw [← c1, h1] at r3
        rcases h2 with ⟨h2, h3⟩ | h2
        · exfalso
          rw [← c2] at r5
          exact c4 (soft_up h2 h3 r5 c3)
        · exact (done t h2 c (by omega) ((par c t r2).2 r3)).2.2 r2 r4
    · omega
    · have hk := kid_of iI t1 h1
      rw [c1] at hk
      have hl := who_life F ht
      by_cases he : y.2.1 = .eptr
      · have := (h3 he).1
        rw [c1] at this
        exact t3 (i.e2 r hr (c2 ▸ he) this t t1 hk hl)
      · refine t3 (i.hard r hr ?_ t t1 hk hl)
        rw [← c2]
        exact up_hard h2 he c3 c4

theorem reach_fi (hd : Mem.Disc body pend dirty) {o : FS σ V E L} (hr : Reach body pend may ok m o) :
    FI o.a.s.x o.a.g o.tr ∧ o.tr.Pairwise fun later earlier => Clash later earlier → earlier.no ∈ later.known := by
  induction hr with
  | start y => exact ⟨⟨fun _ h => absurd h (by simp), fun _ h => absurd h (by simp), fun _ h => absurd h (by simp), fun _ h => absurd h (by simp)⟩, .nil⟩
  | @submit o c t w hr hf hp ho ih =>
    obtain ⟨i, p⟩ := ih
    have A := reach_all hd (reach_hb hr)
    have A' := reach_all hd (Hb.Reach.submit t w (reach_hb hr) hf hp ho)
    have F := fx_of (Mem.disc_ctl hd) (reach_x (reach_hb hr))
    have nf' : (Hb.submit o.a t c w).s.x.c.nf = o.a.s.x.c.nf + 1 := rfl
    have Lf : ∀ f, f ≠ o.a.s.x.c.nf → (Hb.submit o.a t c w).g.L f = o.a.g.L f := fun f hf => upd_ne _ _ hf
    have Ln : o.a.h.n ∈ (Hb.submit o.a t c w).g.L o.a.s.x.c.nf := by
      show _ ∈ upd o.a.g.L o.a.s.x.c.nf (upd o.a.g.T t _ t) o.a.s.x.c.nf
      rw [upd_same, upd_same]; exact List.mem_cons_self ..
    have Kd : ∀ c' q, Kid (Hb.submit o.a t c w).g c' q → c' ≠ o.a.s.x.c.nf ∧ Kid o.a.g c' q := fun c' q hk => by
      have hp : (Hb.submit o.a t c w).g.par = upd o.a.g.par o.a.s.x.c.nf .root := rfl
      unfold Kid at hk
      rw [hp, upd_apply] at hk
      split at hk
      · rcases hk with hk | hk <;> cases hk
      · exact ⟨by assumption, hk⟩
    have Kd' : ∀ c' q, c' ≠ o.a.s.x.c.nf → Kid o.a.g c' q → Kid (Hb.submit o.a t c w).g c' q := fun c' q hc hk => by
      unfold Kid
      rw [show (Hb.submit o.a t c w).g.par = upd o.a.g.par o.a.s.x.c.nf .root from rfl, upd_ne _ _ hc]; exact hk
    have lo : ∀ c', c' ≠ o.a.s.x.c.nf → (Hb.submit o.a t c w).s.x.c.loc c' = o.a.s.x.c.loc c' := fun c' hc => upd_ne _ _ hc
    have ex : ∀ c', c' ≠ o.a.s.x.c.nf → (Hb.submit o.a t c w).s.x.exc c' = o.a.s.x.exc c' := fun c' hc => upd_ne _ _ hc
    have ent : ∀ r ∈ entries o.a.h.n ((Hb.submit o.a t c w).h.kt t) (whole o.a.s.x.c.nf), r.no = o.a.h.n ∧ r.frame = o.a.s.x.c.nf := by
      intro r hr
      obtain ⟨y, hy, rfl⟩ := List.mem_map.1 hr
      exact ⟨rfl, whole_why (P := fun y => y.1 = o.a.s.x.c.nf) (fun _ _ => rfl) y hy⟩
    have nk : ∀ c', c' < o.a.s.x.c.nf + 1 → ¬ Kid (Hb.submit o.a t c w).g c' o.a.s.x.c.nf := fun c' hc hk => by
      have := A'.j.pl c' hc _ hk
      have : c' < o.a.s.x.c.nf + 1 := hc
      omega
    refine ⟨⟨fun r hr => ?_, fun r hr hH c' hc hk hl => ?_, fun r hr hm hx => ?_, fun r hr hm hx c' hc hk hl => ?_⟩, List.pairwise_append.2 ⟨?_, p, ?_⟩⟩
    · rcases List.mem_append.1 hr with hr | hr
      · obtain ⟨e1, e2⟩ := ent r hr
        rw [e1, e2]
        exact ⟨Nat.lt_succ_self _, .inl Ln⟩
      · obtain ⟨h1, h2⟩ := i.cls r hr
        refine ⟨Nat.lt_succ_of_lt h1, ?_⟩
        rcases h2 with h2 | ⟨c', h2, h3, h4, h5⟩
        · exact .inl (by show _ ∈ (Hb.submit o.a t c w).g.L _; rw [Lf _ (Nat.ne_of_lt h1)]; exact h2)
        · exact .inr ⟨c', Nat.lt_succ_of_lt h2, Kd' c' _ (Nat.ne_of_lt h2) h3, by show _ ∈ (Hb.submit o.a t c w).g.L _; rw [Lf _ (Nat.ne_of_lt h2)]; exact h4, h5⟩
    · rcases List.mem_append.1 hr with hr | hr
      · rw [(ent r hr).2] at hk; exact absurd hk (nk c' hc)
      · obtain ⟨k1, k2⟩ := Kd c' _ hk
        have k3 : c' < o.a.s.x.c.nf := by have : c' < o.a.s.x.c.nf + 1 := hc; omega
        show _ ∈ (Hb.submit o.a t c w).g.L _
        rw [Lf _ k1]
        exact i.hard r hr hH c' k3 k2 (by rw [← lo c' k1]; exact hl)
    · rcases List.mem_append.1 hr with hr | hr
      · obtain ⟨e1, e2⟩ := ent r hr
        rw [e1, e2]; exact Ln
      · have h1 := Nat.ne_of_lt (i.cls r hr).1
        show _ ∈ (Hb.submit o.a t c w).g.L _
        rw [Lf _ h1]
        exact i.e1 r hr hm (by rw [← ex _ h1]; exact hx)
    · rcases List.mem_append.1 hr with hr | hr
      · rw [(ent r hr).2] at hk; exact absurd hk (nk c' hc)
      · obtain ⟨k1, k2⟩ := Kd c' _ hk
        have k3 : c' < o.a.s.x.c.nf := by have : c' < o.a.s.x.c.nf + 1 := hc; omega
        have h1 := Nat.ne_of_lt (i.cls r hr).1
        show _ ∈ (Hb.submit o.a t c w).g.L _
        rw [Lf _ k1]
        exact i.e2 r hr hm (by rw [← ex _ h1]; exact hx) c' k3 k2 (by rw [← lo c' k1]; exact hl)
    · refine List.pairwise_map.2 (List.pairwise_of_forall_mem_list fun a _ b _ _ => ?_)
      show o.a.h.n ∈ upd o.a.h.kt t _ t
      rw [upd_same]; exact List.mem_cons_self ..
    · intro r hr r' hr' hc
      have h1 := (i.cls r' hr').1
      rw [← hc.1, (ent r hr).2] at h1
      omega
  | @step o o' w ch hr hf ha hs ih =>
    obtain ⟨i, p⟩ := ih
    obtain ⟨h1, h2⟩ := fi_step hd hr hf ha hs i
    refine ⟨h1, ?_⟩
    unfold step at hs
    split at hs <;> cases hs
    refine List.pairwise_append.2 ⟨?_, p, ?_⟩
    · refine List.pairwise_map.2 (List.pairwise_of_forall_mem_list fun a ha b _ _ => ?_)
      exact Own.sync_mem _ _ _ _
    · intro r hr1 r' hr2 hc
      obtain ⟨y, hy, rfl⟩ := List.mem_map.1 hr1
      exact h2 y hy r' hr2 hc
  | wait t f hr hs ih =>
    unfold Hb.wait at hs
    split at hs <;> cases hs
    exact ⟨⟨ih.1.cls, ih.1.hard, ih.1.e1, ih.1.e2⟩, ih.2⟩
  | other t hr ih => exact ⟨⟨ih.1.cls, ih.1.hard, ih.1.e1, ih.1.e2⟩, ih.2⟩
  | meet t u hr ih => exact ⟨⟨ih.1.cls, ih.1.hard, ih.1.e1, ih.1.e2⟩, ih.2⟩

/-- C76: of every two accesses to a member of a frame that are not both reads or both atomic, the earlier happens before the later, whoever makes them: the workers that run the task, the children, and who
constructs and destroys the frame. -/
theorem C76_frames (hd : Mem.Disc body pend dirty) {o : FS σ V E L} (h : Reach body pend may ok m o) :
    o.tr.Pairwise fun later earlier => Clash later earlier → earlier.no ∈ later.known := (reach_fi hd h).2

end Verif.Fld
