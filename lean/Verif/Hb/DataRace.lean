import Verif.Hb.Race
import Verif.Hb.Props

/-!
C73: what the tasks of a program without data races do to the memory they share is ordered by the runtime.
-/
namespace Verif.Hb
open Verif.Runtime (State Res Fr Pc Loc Link Alive Few forkPar upd upd_apply upd_same upd_ne maxU16 Ev status)
open Verif.Exn (XS Choice)
open Verif.Mem (MS Act FJ XR modeOf Mono RaceFree)
variable {σ V E L : Type} [Inhabited E] [DecidableEq L] {body : σ → Act σ V E L} {pend : σ → Nat} {dirty : σ → Prop} {may : E → Prop} {ok : (σ → Prop) → σ → Prop} {m : L → E}

/-- Each access could still be to come, without what comes after it. -/
structure Main (body : σ → Act σ V E L) (may : E → Prop) (ok : (σ → Prop) → σ → Prop) (m : L → E) (a : HS σ V E L) (A : FJ σ V E L) : Prop where
  re : FJ.Reach body may ok m A
  xr : XR a.s.x A
  mm : A.m = a.s.m
  pw : a.tr.Pairwise fun r r' => Conflict r r' → r'.no ∈ r.before
  wo : ∀ r ∈ a.tr, ∀ l b, r.acc = some (l, b) → ∃ y, Does body y l b ∧ Without body may ok m a r.no r.task y A

theorem open_unseen (hd : Mem.Disc body pend dirty) {a : HS σ V E L} (h : Reach body pend may ok m a) {A B : FJ σ V E L} (hr : XR a.s.x A) (t : Nat)
    (hB : ∀ f c, (f, c) ∈ B.roots → (f, c) ∈ A.roots) (hu : ∀ f r, A.mode f = .ended r → f < a.s.x.c.nf → a.g.L f ⊆ a.g.T t → B.mode f = .ended r) (c : σ) (ho : B.open c) : Unseen a t c := by
  obtain ⟨f, h1, h2⟩ := ho
  have h3 := hB f c h1
  obtain ⟨w, hw⟩ := Mem.mem_subs.1 (by rw [← hr.rts]; exact h3)
  refine ⟨f, w, hw, ?_⟩
  rintro ⟨⟨r, h4⟩, h5⟩
  have hf := hr.rlt f c h3
  refine h2 r (hu f r ?_ hf h5)
  rw [hr.mode f hf]
  exact Mem.done_mode (Exn.history_legal (Mem.disc_ctl hd) (reach_x h)) h4

theorem Without.same {a a' : HS σ V E L} {n f : Nat} {y : σ} {A : FJ σ V E L} (h : Without body may ok m a n f y A) (h1 : ∀ g, U a' n g → U a n g) (h2 : ∀ l, C a' n l → C a n l) :
    Without body may ok m a' n f y A := by
  obtain ⟨B, hB, c⟩ := h
  exact ⟨B, hB, ⟨fun g hg => c.un g (h1 g hg), fun g hg => c.ex g (h1 g hg), c.none, fun l hl => c.mem l (h2 l hl), c.rts, fun hf => c.fz.1 (h1 f hf), c.fz.2⟩⟩

/-- A step that is an access. -/
theorem main_access (hd : Mem.Disc body pend dirty) (hrf : RaceFree body may ok m) {a a' : HS σ V E L} {A A' : FJ σ V E L} (h : Reach body pend may ok m a) (M : Main body may ok m a A)
    {w f : Nat} (hp : a.s.x.c.pc w = .run f) {l : L} {b : Bool} (hb : Does body (a.s.x.c.fr f).st l b) (st : FJ.Step body may f A A') (hm : ∀ l', (b = true → l' ≠ l) → A'.m l' = A.m l')
    (xr : XR a'.s.x A') (mm : A'.m = a'.s.m) (nf : a'.s.x.c.nf = a.s.x.c.nf) (hL : a'.g.L = upd a.g.L f (a.h.n :: a.g.L f)) {r0 : Rec L} (ht : a'.tr = r0 :: a.tr)
    (h1 : r0.no = a.h.n) (h2 : r0.task = f) (h3 : r0.before = a.g.L f) (h4 : r0.acc = some (l, b)) : Main body may ok m a' A' := by
  have T := Mem.facts (Mem.disc_ctl hd) (reach_x h)
  have tr := reach_trans h
  have al := reach_all hd h
  have cl := reach_clb h
  obtain ⟨hf, hmo⟩ := T.run w f hp
  have hmode : A.mode f = .run := by rw [M.xr.mode f hf]; exact hmo
  have hst := M.xr.st f hf
  -- The new access comes after all that conflict with it.
  have new : ∀ r' ∈ a.tr, Conflict r0 r' → r'.no ∈ a.g.L f := by
    rintro r' hr' ⟨l', b1, b2, e1, e2, hw⟩
    rw [h4] at e1
    cases e1
    by_cases hin : r'.no ∈ a.g.L f
    · exact hin
    · exfalso
      obtain ⟨y, hy, B, hB, cut⟩ := M.wo r' hr' l b2 e2
      have huf : U a r'.no f := ⟨hf, hin⟩
      obtain ⟨u1, u2, _, _⟩ := cut.un f huf
      have hne : f ≠ r'.task := by rintro e; exact cut.fz.1 (by rw [← e]; exact huf)
      have uses : ∀ {z : σ} {b : Bool}, Does body z l b → Mem.Uses body z l := fun {z b} hz => by
        cases b
        · exact .inl hz
        · exact .inr hz
      refine hrf B hB ?_
      rcases hw with rfl | rfl
      · exact ⟨f, r'.task, l, hne, by rw [u2]; exact hmode, cut.fz.2.1, by rw [u1, hst]; exact hb, by rw [cut.fz.2.2]; exact uses hy⟩
      · exact ⟨r'.task, f, l, hne.symm, cut.fz.2.1, by rw [u2]; exact hmode, by rw [cut.fz.2.2]; exact hy, by rw [u1, hst]; exact uses hb⟩
  have mono : ∀ n g, n ∉ a'.g.L g → n ∉ a.g.L g := fun n g hg h5 => hg (by
    rw [hL, upd_apply]; split
    · rename_i e; subst e; exact List.mem_cons_of_mem _ h5
    · exact h5)
  have hU : ∀ n g, U a' n g → U a n g := fun n g hu => ⟨by rw [← nf]; exact hu.1, mono n g hu.2⟩
  have hC : ∀ n l', C a' n l' → C a n l' := fun n l' hc r hr => hc r (by rw [ht]; exact List.mem_cons_of_mem _ hr)
  have self : ∀ n, n ∈ a.g.L f ∨ n = a.h.n → n ∈ a'.g.L f := fun n hn => by
    rw [hL, upd_same]
    exact hn.elim (fun h => List.mem_cons_of_mem _ h) fun h => by rw [h]; exact List.mem_cons_self ..
  refine ⟨.step f M.re st, xr, mm, ?_, ?_⟩
  · rw [ht]
    exact .cons (fun r' hr' hc => by rw [h3]; exact new r' hr' hc) M.pw
  · intro r hr l' b' hacc
    rw [ht] at hr
    rcases List.mem_cons.1 hr with rfl | hr
    · rw [h4] at hacc
      cases hacc
      refine ⟨(a.s.x.c.fr f).st, hb, A, M.re, ?_⟩
      rw [h1, h2]
      have c0 : Cut (fun g => g < a.s.x.c.nf ∧ g ≠ f) (fun _ => True) f (a.s.x.c.fr f).st A A :=
        ⟨fun g _ => ⟨rfl, rfl, rfl, rfl⟩, fun g hg hn => by have := (xr_mode M.xr g).1 hn; omega, fun _ h => h, fun _ _ => rfl, fun _ _ h => h, fun hu => hu.2 rfl, hmode, hst⟩
      refine c0.skip st (fun g hu => ?_) (fun l' hl => ⟨trivial, hm l' fun hb1 e => ?_⟩)
      · have : g ≠ f := by rintro rfl; exact hu.2 (self _ (.inr rfl))
        exact ⟨⟨by rw [← nf]; exact hu.1, this⟩, this⟩
      · subst e
        subst hb1
        exact (hl r (by rw [ht]; exact List.mem_cons_self ..) h4).1 h1.symm
    · obtain ⟨y, hy, B, hB, cut⟩ := M.wo r hr l' b' hacc
      refine ⟨y, hy, ?_⟩
      by_cases hin : r.no ∈ a.g.L f
      · refine ⟨B, hB, cut.skip st (fun g hu => ⟨hU _ g hu, by rintro rfl; exact hu.2 (self _ (.inl hin))⟩) (fun l1 hl => ⟨hC _ l1 hl, hm l1 fun hb1 e => ?_⟩)⟩
        subst e
        subst hb1
        exact (hl r0 (by rw [ht]; exact List.mem_cons_self ..) h4).2 (by rw [h3]; exact hin)
      · obtain ⟨B', st', cut'⟩ := cut.go (U' := U a' r.no) (C' := C a' r.no) st ⟨hf, hin⟩ (fun g hu => .inl (hU _ g hu)) (hC _)
          (fun l1 k hld r1 hr1 hw => by
            rw [hst] at hld
            have hl1 : l1 = l := by
              cases b
              · obtain ⟨k', hb⟩ := hb; rw [hb] at hld; cases hld; rfl
              · obtain ⟨d, k', hb⟩ := hb; rw [hb] at hld; cases hld
            subst hl1
            have h5 := new r1 hr1 ⟨l1, b, true, h4, hw, .inr rfl⟩
            exact ⟨fun e => hin (by rw [e]; exact h5), fun h6 => hin ((cl.L f).2 r1 hr1 h5 h6)⟩)
          (fun k z _ hj => by
            rw [hst] at hj
            cases b
            · obtain ⟨k', hb⟩ := hb; rw [hb] at hj; cases hj
            · obtain ⟨d, k', hb⟩ := hb; rw [hb] at hj; cases hj)
          (fun c hc => by rw [hmode] at hc; cases hc) (fun c d k z hc => by rw [hmode] at hc; cases hc)
        exact ⟨B', .step f hB st', cut'⟩

theorem reach_main (hd : Mem.Disc body pend dirty) (hmono : Mono ok) (hrf : RaceFree body may ok m) {a : HS σ V E L} (h : Reach body pend may ok m a) : ∃ A, Main body may ok m a A := by
  induction h with
  | start y =>
    refine ⟨FJ.start y m, .start y, ?_, rfl, .nil, fun r hr => absurd hr (by simp [HS.start])⟩
    constructor <;> first | rfl | (intros; first | contradiction | (rename_i h; cases h) | skip)
    all_goals simp_all [HS.start, MS.start, XS.start, Runtime.State.start, FJ.start]
  | @submit a c t w h0 hf hp ho ih =>
    obtain ⟨A, M⟩ := ih
    have hnone : A.mode a.s.x.c.nf = .none := M.xr.un _ (Nat.le_refl _)
    have hokA : ok A.open c := hmono _ _ (open_unseen hd h0 M.xr t (fun _ _ h => h) fun f r h1 _ _ => h1) c ho
    refine ⟨A.submit a.s.x.c.nf c, .submit _ c M.re hokA hnone, ?_, M.mm, ?_, ?_⟩
    · refine XR.to (M.xr.submit (w := w) c) rfl ?_ ?_ ?_ rfl ?_
      · intro f; simp only [submit, Mem.submit, Exn.submit, Runtime.submit, Runtime.newFrame, Runtime.upd_apply]
      · intro f; simp only [submit, Mem.submit, Exn.submit, Runtime.submit, Runtime.newFrame, Runtime.upd_apply]; split <;> rfl
      · intro f; simp only [submit, Mem.submit, Exn.submit, Runtime.submit, Runtime.newFrame, Runtime.upd_apply]; split <;> rfl
      · intro f; simp only [submit, Mem.submit, Exn.submit, Runtime.submit, Runtime.newFrame, Runtime.upd_apply]
    · exact .cons (fun r' _ hc => by obtain ⟨l, b, b', h1, _⟩ := hc; cases h1) M.pw
    · intro r hr l b hacc
      rcases List.mem_cons.1 hr with rfl | hr
      · cases hacc
      · obtain ⟨y, hy, B, hB, cut⟩ := M.wo r hr l b hacc
        refine ⟨y, hy, ?_⟩
        have hCC : ∀ l, C (submit a t c w) r.no l → C a r.no l := fun l hl r1 hr1 => hl r1 (List.mem_cons_of_mem _ hr1)
        have hne : r.no ≠ a.h.n := by have := (reach_trans h0).no r hr; omega
        have hL : ∀ g, (submit a t c w).g.L g = if g = a.s.x.c.nf then a.h.n :: a.g.T t else a.g.L g := fun g => by
          simp only [submit, Ord.submit, Ord.thread, upd_same, upd_apply]
        have hU : ∀ g, U (submit a t c w) r.no g → U a r.no g ∨ g = a.s.x.c.nf := fun g hu => by
          by_cases e : g = a.s.x.c.nf
          · exact .inr e
          · left
            have h1 : g < a.s.x.c.nf + 1 := hu.1
            have h2 := hu.2
            rw [hL, if_neg e] at h2
            exact ⟨by omega, h2⟩
        by_cases hin : r.no ∈ a.g.T t
        · refine Without.same (a := submit a t c w) ⟨B, hB, ?_⟩ (fun _ h => h) (fun _ h => h)
          have c1 := cut.unsent (U' := U (submit a t c w) r.no) (c := c) hnone (fun g hu => (hU g hu).elim id fun e => absurd (show r.no ∈ _ by rw [hL, if_pos e]; exact List.mem_cons_of_mem _ hin) hu.2)
          exact ⟨c1.un, c1.ex, c1.none, fun l hl => c1.mem l (hCC l hl), c1.rts, c1.fz⟩
        · have hokB : ok B.open c := hmono _ _ (open_unseen hd h0 M.xr t cut.rts fun f r' h1 h2 h3 => by
            rw [(cut.un f ⟨h2, fun h4 => hin (h3 h4)⟩).2.1]; exact h1) c ho
          have c1 := cut.submit (U' := U (submit a t c w) r.no) (c := c) hnone hU
          exact ⟨_, .submit _ c hB hokB (cut.none _ hnone), ⟨c1.un, c1.ex, c1.none, fun l hl => c1.mem l (hCC l hl), c1.rts, c1.fz⟩⟩
  | @step a a' w ch h0 hf hch hs ih =>
    obtain ⟨A, M⟩ := ih
    have T := Mem.facts (Mem.disc_ctl hd) (reach_x h0)
    unfold step at hs
    split at hs <;> cases hs
    rename_i s' hs
    have hc : (∀ f, a.s.x.c.pc w = .run f → Mem.NoAcc body (a.s.x.c.fr f).st) → Mem.control body w ch a.s = .ok s' →
        ∃ A, Main body may ok m ⟨s', sync body w ch a.s.x a.h, order body w ch a s'.x, log body w ch a s'.x⟩ A := by
      intro hn h
      unfold Mem.control at h
      cases hx' : Exn.step (Mem.ctl body) w ch a.s.x with
      | no => rw [hx'] at h; cases h
      | ub => rw [hx'] at h; cases h
      | ok x =>
        rw [hx'] at h
        cases h
        obtain ⟨A', h1, h2, h3, h4, pa⟩ := Mem.sim_control hd (reach_x h0) hf hch hn hx' M.re M.xr
        have hacc : access body w a.s.x = none := by
          unfold access
          split
          · rename_i f hp
            split
            · rename_i hb; exact absurd hb ((hn f hp).1 _ _)
            · rename_i hb; exact absurd hb ((hn f hp).2 _ _ _)
            · rfl
          · rfl
        have hlog : log body w ch a x = a.tr ∨ ∃ r0 : Rec L, r0.acc = none ∧ log body w ch a x = r0 :: a.tr := by
          unfold log
          split
          · exact .inr ⟨_, hacc, rfl⟩
          · exact .inl rfl
        refine ⟨A', h1, h2, h3.trans M.mm, ?_, ?_⟩
        · show (log body w ch a x).Pairwise _
          rcases hlog with e | ⟨r0, e1, e⟩
          · rw [e]; exact M.pw
          · rw [e]
            exact .cons (fun r' _ hc => by obtain ⟨l, b, b', q1, _⟩ := hc; rw [e1] at q1; cases q1) M.pw
        · intro r hr l b hra
          have hr1 : r ∈ a.tr := by
            have hr : r ∈ log body w ch a x := hr
            rcases hlog with e | ⟨r0, e1, e⟩
            · rw [e] at hr; exact hr
            · rw [e] at hr
              rcases List.mem_cons.1 hr with e2 | hr
              · rw [e2, e1] at hra; cases hra
              · exact hr
          obtain ⟨y, hy, hwo⟩ := M.wo r hr1 l b hra
          refine ⟨y, hy, follow hd h0 hn hx' M.xr h2 h3 h4 pa rfl rfl (fun n l hl r1 h5 => hl r1 ?_) hwo⟩
          show r1 ∈ log body w ch a x
          rcases hlog with e | ⟨r0, e1, e⟩
          · rw [e]; exact h5
          · rw [e]; exact List.mem_cons_of_mem _ h5
    unfold Mem.step at hs
    split at hs
    · rename_i f hp
      obtain ⟨hlt, hmode⟩ := T.run w f hp
      have hst := M.xr.st f hlt
      have hmd : A.mode f = .run := by rw [M.xr.mode f hlt]; exact hmode
      split at hs
      · rename_i l k hb
        cases hs
        refine ⟨_, main_access hd hrf h0 M hp (l := l) (b := false) ⟨k, hb⟩ (.load A l k hmd (by rw [hst]; exact hb)) (fun _ _ => rfl) ?_ M.mm rfl ?_ (r0 := ⟨a.h.n, f, (sync body w ch a.s.x a.h).kn w, (merge body w ch a.s.x ({ a.s.x with c := Exn.goOn a.s.x.c f (k (a.s.m l)) } : XS σ V E) a.g).L f, access body w a.s.x, counter body w ch a.s.x⟩) ?_ rfl rfl ?_ ?_⟩
        · rw [M.mm]
          exact XR.to ((M.xr.on hlt hmode (k (a.s.m l))).mem _ _) rfl (fun _ => rfl) (Mem.goOn_st _ _ _) (Mem.goOn_slots _ _ _) rfl (fun _ => rfl)
        · cases ch <;> simp only [order, merge, who, post, hp, hb, Ord.act]
        · simp only [log, who, hp]
        · cases ch <;> simp only [merge, hp, hb]
        · simp only [access, hp, hb]
      · rename_i l d k hb
        cases hs
        refine ⟨_, main_access hd hrf h0 M hp (l := l) (b := true) ⟨d, k, hb⟩ (.store A l d k hmd (by rw [hst]; exact hb)) (fun l' hl => by simp only [Mem.put, if_neg (hl rfl)]) ?_ (by simp only [M.mm]) rfl ?_ (r0 := ⟨a.h.n, f, (sync body w ch a.s.x a.h).kn w, (merge body w ch a.s.x ({ a.s.x with c := Exn.goOn a.s.x.c f k } : XS σ V E) a.g).L f, access body w a.s.x, counter body w ch a.s.x⟩) ?_ rfl rfl ?_ ?_⟩
        · exact XR.to ((M.xr.on hlt hmode k).mem _ _) rfl (fun _ => rfl) (Mem.goOn_st _ _ _) (Mem.goOn_slots _ _ _) rfl (fun _ => rfl)
        · cases ch <;> simp only [order, merge, who, post, hp, hb, Ord.act]
        · simp only [log, who, hp]
        · cases ch <;> simp only [merge, hp, hb]
        · simp only [access, hp, hb]
      · rename_i hn1 hn2
        refine hc (fun g hg => ?_) hs
        rw [hp] at hg; cases hg
        exact ⟨fun l k h => hn1 l k h, fun l d k h => hn2 l d k h⟩
    · rename_i hn
      exact hc (fun f hf => absurd hf (hn f)) hs
  | @wait a a' t f h0 hs ih =>
    obtain ⟨A, M⟩ := ih
    unfold wait at hs
    split at hs <;> cases hs
    exact ⟨A, M.re, M.xr, M.mm, M.pw, fun r hr l b hra => by obtain ⟨y, hy, hwo⟩ := M.wo r hr l b hra; exact ⟨y, hy, hwo.same (fun _ h => h) fun _ h => h⟩⟩
  | @other a t h0 ih =>
    obtain ⟨A, M⟩ := ih
    exact ⟨A, M.re, M.xr, M.mm, M.pw, fun r hr l b hra => by obtain ⟨y, hy, hwo⟩ := M.wo r hr l b hra; exact ⟨y, hy, hwo.same (fun _ h => h) fun _ h => h⟩⟩
  | @meet a t u h0 ih =>
    obtain ⟨A, M⟩ := ih
    exact ⟨A, M.re, M.xr, M.mm, M.pw, fun r hr l b hra => by obtain ⟨y, hy, hwo⟩ := M.wo r hr l b hra; exact ⟨y, hy, hwo.same (fun _ h => h) fun _ h => h⟩⟩

/-- C73: a program whose fork/join machine has no data race in any execution has none in the C++ sense, on any number of workers, in any schedule: of two accesses to the same location one of which is a write,
the earlier one happens before the later one. -/
theorem C73_ordered (hd : Mem.Disc body pend dirty) (hmono : Mono ok) (hrf : RaceFree body may ok m) {a : HS σ V E L} (h : Reach body pend may ok m a) :
    a.tr.Pairwise fun r r' => Conflict r r' → r'.no ∈ r.known := by
  obtain ⟨A, M⟩ := reach_main hd hmono hrf h
  exact M.pw.imp_of_mem fun hr _ hc hcf => (reach_all hd h).bk _ hr (hc hcf)

end Verif.Hb
