import Verif.WholeM.Model
import Verif.WholeX.Props
import Verif.Mem.Runs
import Verif.Mem.Determ
import Verif.WholeM.Log

/-! The whole program with memory: its control is a whole program in the sense of Verif.WholeX, its runtime that of Verif.Mem. -/
namespace Verif.WholeM
open Verif.Runtime (Res Ev)
open Verif.LazyPool (Cfg St)
open Verif.EventCount (upd upd_same upd_ne upd_apply)
open Verif.Exn (XS Choice goOn)
open Verif.Mem (Act Acc ctl put Disc disc_ctl subs ReachAny)
open Verif.Whole (Caller Actor Res.map early map_ok map_ub)
open Verif.WholeX (X)

variable {σ V E L : Type} [Inhabited E] [DecidableEq L] {c : Cfg} {body : σ → Act σ V E L} {pend : σ → Nat} {dirty : σ → Prop} {may : E → Prop} {K : Nat}
  {root : Nat → σ} {dep : Nat → Nat → Prop} {m : L → E}

theorem x_may {may may' : E → Prop} (hm : ∀ e, may e → may' e) {body : σ → Exn.Act σ V E} {a : Actor} {s : X σ V E} {r : Res (X σ V E)}
    (st : WholeX.Step c body may K root a s r) : WholeX.Step c body may' K root a s r := by
  cases st with
  | pool _ w l h1 h2 h3 => exact .pool _ w l h1 h2 h3
  | noSteal _ w h1 h2 => exact .noSteal _ w h1 h2
  | stole _ w v h1 h2 h3 => exact .stole _ w v h1 h2 h3
  | work _ w ch h1 h2 h3 h4 h5 h6 => exact .work _ w ch h1 h2 h3 h4 (by cases ch <;> first | exact hm _ h5 | trivial) h6
  | switch _ w f d k h1 h2 h3 h4 => exact .switch _ w f d k h1 h2 h3 h4
  | notify _ w j l h1 h2 h3 => exact .notify _ w j l h1 h2 h3
  | take _ w j js h1 h2 h3 h4 => exact .take _ w j js h1 h2 h3 h4
  | worked _ w h1 h2 h3 h4 => exact .worked _ w h1 h2 h3 h4
  | begin _ i h1 h2 h3 => exact .begin _ i h1 h2 h3
  | race _ i k h1 h2 h3 h4 => exact .race _ i k h1 h2 h3 h4
  | submit _ i d h1 h2 h3 => exact .submit _ i d h1 h2 h3
  | call _ i j f l h1 h2 h3 => exact .call _ i j f l h1 h2 h3
  | get _ i f v h1 h2 h3 => exact .get _ i f v h1 h2 h3
  | dtor _ l h1 h2 => exact .dtor _ l h1 h2

theorem load_step {s : X σ V E} {w f : Nat} {y : σ} {l : L} {k : E → σ} (h : InTask s w f y) (hb : body y = .load l k) (d : E) :
    Exn.step (ctl body) w (.fail d false) s.xt = .ok { s.xt with c := goOn s.xt.c f (k d) } := by
  have hp : s.xt.c.pc w = .run f := h.run
  have hs : (s.xt.c.fr f).st = y := h.st
  have : ctl body y = .switch 0 (k default) k := by simp only [ctl, hb]
  simp only [Exn.step, hp, Exn.run, hs, this]

theorem store_step {s : X σ V E} {w f : Nat} {y : σ} {l : L} {d : E} {k : σ} (h : InTask s w f y) (hb : body y = .store l d k) :
    Exn.step (ctl body) w .ready s.xt = .ok { s.xt with c := goOn s.xt.c f k } := by
  have hp : s.xt.c.pc w = .run f := h.run
  have hs : (s.xt.c.fr f).st = y := h.st
  have : ctl body y = .switch 0 k (fun _ => k) := by simp only [ctl, hb]
  simp only [Exn.step, hp, Exn.run, hs, this]

/-- An access is for the control a context switch of no effect. -/
theorem step_x {a : Actor} {s : Y σ V E L} {r : Res (Y σ V E L)} (st : Step c body may K root dep a s r) :
    WholeX.Step c (ctl body) (fun _ => True) K root a s.x (Res.map Y.x r) := by
  cases st with
  | load _ w f y l k h1 h2 h3 =>
    have := WholeX.Step.work (c := c) (body := ctl body) (may := fun _ => True) (K := K) (root := root) s.x w (.fail (s.m l) false) h1 h2.work
      (by rw [h2.run]; simp) h2.out trivial (fun _ _ _ _ e => by cases e)
    rw [load_step h2 h3] at this
    exact this
  | store _ w f y l d k h1 h2 h3 =>
    have := WholeX.Step.work (c := c) (body := ctl body) (may := fun _ => True) (K := K) (root := root) s.x w .ready h1 h2.work
      (by rw [h2.run]; simp) h2.out trivial (fun _ _ _ _ e => by cases e)
    rw [store_step h2 h3] at this
    exact this
  | other _ _ r h1 _ _ =>
    have : Res.map Y.x (Res.map (fun x => { s with x := x }) r) = r := by cases r <;> rfl
    rw [this]
    exact x_may (fun _ _ => trivial) h1

theorem reach_x {s : Y σ V E L} (h : Reach c body may K root dep m s) : WholeX.Reach c (ctl body) (fun _ => True) K root s.x := by
  induction h with
  | start y => exact .start y
  | step _ few st ih => exact ih.step few (step_x st)

/-- What is known of the callers. -/
structure Calls (K : Nat) (root : Nat → σ) (dep : Nat → Nat → Prop) (s : X σ V E) (fr : Nat → Nat) (js : List Nat) : Prop where
  subs : subs s.x.c.log = js.map fun i => (fr i, root i)
  nodup : js.Nodup
  /-- Newest first. -/
  ord : js.Pairwise fun i j => ¬ dep j i
  mem : ∀ i, i ∈ js ↔ i < K ∧ early (s.caller i) = false
  calling : ∀ i j f, s.caller i = .calling j f → fr i = f
  waiting : ∀ i f, s.caller i = .waiting f → fr i = f
  back : ∀ i r, s.caller i = .back r → Ev.done (fr i) r ∈ s.x.c.log
  dep : ∀ i, s.caller i ≠ .before → ∀ j, dep i j → ∃ r, s.caller j = .back r
  lt : ∀ i, s.caller i ≠ .before → i < K

theorem Calls.same {s s' : X σ V E} {fr : Nat → Nat} {js : List Nat} (h : Calls K root dep s fr js) (hl : Mem.Grown s.x.c.log s'.x.c.log)
    (hc : s'.caller = s.caller) : Calls K root dep s' fr js := by
  constructor
  · rw [hl.subs]; exact h.subs
  · exact h.nodup
  · exact h.ord
  · rw [hc]; exact h.mem
  · rw [hc]; exact h.calling
  · rw [hc]; exact h.waiting
  · rw [hc]; exact fun i r e => hl.mem (h.back i r e)
  · rw [hc]; exact h.dep
  · rw [hc]; exact h.lt

/-- The state of one caller changes; it was submitted before or is not yet. -/
theorem Calls.caller {s s' : X σ V E} {fr : Nat → Nat} {js : List Nat} (h : Calls K root dep s fr js) (hl : s'.x.c.log = s.x.c.log) {i : Nat}
    {v : Caller (Except E V)} (hi : i < K) (hc : s'.caller = upd s.caller i v) (he : early v = early (s.caller i)) (hnb : v ≠ .before)
    (hb : ∀ r, s.caller i ≠ .back r)
    (h1 : ∀ j f, v = .calling j f → fr i = f) (h2 : ∀ f, v = .waiting f → fr i = f) (h3 : ∀ r, v = .back r → Ev.done (fr i) r ∈ s.x.c.log)
    (h4 : ∀ j, dep i j → ∃ r, s.caller j = .back r) : Calls K root dep s' fr js := by
  have keep : ∀ j, (∃ r, s.caller j = .back r) → ∃ r, upd s.caller i v j = .back r := by
    rintro j ⟨r, hr⟩
    have : j ≠ i := by rintro rfl; exact hb r hr
    exact ⟨r, by rw [upd_ne _ _ this]; exact hr⟩
  constructor
  · rw [hl]; exact h.subs
  · exact h.nodup
  · exact h.ord
  · intro k
    rw [hc, upd_apply, h.mem]
    split
    · subst_vars; rw [he]
    · rfl
  · intro k j f e
    rw [hc, upd_apply] at e
    split at e
    · rename_i hk; subst hk; exact h1 j f e
    · exact h.calling k j f e
  · intro k f e
    rw [hc, upd_apply] at e
    split at e
    · rename_i hk; subst hk; exact h2 f e
    · exact h.waiting k f e
  · intro k r e
    rw [hl]
    rw [hc, upd_apply] at e
    split at e
    · rename_i hk; subst hk; exact h3 r e
    · exact h.back k r e
  · intro k e j hj
    rw [hc] at e ⊢
    apply keep
    rw [upd_apply] at e
    split at e
    · subst_vars; exact h4 j hj
    · exact h.dep k e j hj
  · intro k e
    rw [hc, upd_apply] at e
    split at e
    · subst_vars; exact hi
    · exact h.lt k e

theorem Calls.submit {s s' : X σ V E} {fr : Nat → Nat} {js : List Nat} (h : Calls K root dep s fr js) {i j w : Nat} (hi : i < K)
    (hp : s.caller i = .picking) (hc : s'.caller = upd s.caller i (.calling j s.x.c.nf))
    (hl : s'.x.c.log = .submit s.x.c.nf (root i) w :: s.x.c.log) : Calls K root dep s' (upd fr i s.x.c.nf) (i :: js) := by
  have hn : i ∉ js := by
    intro hm
    have := ((h.mem i).1 hm).2
    rw [hp] at this; cases this
  have ne : ∀ k, s.caller k ≠ .picking → k ≠ i := by rintro k hk rfl; exact hk hp
  constructor
  · rw [hl]
    simp only [Mem.subs, List.map_cons, upd_same, h.subs, List.cons.injEq, true_and]
    refine List.map_congr_left fun k hk => ?_
    have : k ≠ i := by rintro rfl; exact hn hk
    rw [upd_ne _ _ this]
  · exact List.nodup_cons.2 ⟨hn, h.nodup⟩
  · refine List.pairwise_cons.2 ⟨fun k hk hde => ?_, h.ord⟩
    obtain ⟨r, hr⟩ := h.dep k (by intro e; have := ((h.mem k).1 hk).2; rw [e] at this; cases this) i hde
    rw [hp] at hr; cases hr
  · intro k
    rw [hc, List.mem_cons, h.mem, upd_apply]
    split
    · subst_vars; simp [hi, early]
    · rename_i e; simp [e]
  · intro k j' f e
    rw [hc, upd_apply] at e
    split at e
    · subst_vars; cases e; rw [upd_same]
    · rename_i hk; rw [upd_ne _ _ hk]; exact h.calling k j' f e
  · intro k f e
    rw [hc, upd_apply] at e
    split at e
    · cases e
    · rename_i hk; rw [upd_ne _ _ hk]; exact h.waiting k f e
  · intro k r e
    rw [hc, upd_apply] at e
    split at e
    · cases e
    · rename_i hk; rw [upd_ne _ _ hk, hl]; exact List.mem_cons_of_mem _ (h.back k r e)
  · intro k e j' hj
    rw [hc] at e ⊢
    have h1 : ∃ r, s.caller j' = .back r := by
      rw [upd_apply] at e
      split at e
      · subst_vars; exact h.dep k (by rw [hp]; simp) j' hj
      · exact h.dep k e j' hj
    obtain ⟨r, hr⟩ := h1
    exact ⟨r, by rw [upd_ne _ _ (ne j' (by rw [hr]; simp))]; exact hr⟩
  · intro k e
    rw [hc, upd_apply] at e
    split at e
    · subst_vars; exact hi
    · exact h.lt k e

/-- A step of the pool, the runtime or a caller. -/
theorem calls_step {body : σ → Exn.Act σ V E} {a : Actor} {s s' : X σ V E} (st : WholeX.Step c body may K root a s (.ok s'))
    (hdep : ∀ i, a = .caller i → s.caller i = .before → ∀ j, dep i j → ∃ v, s.caller j = .back v)
    {fr : Nat → Nat} {js : List Nat} (h : Calls K root dep s fr js) : ∃ fr' js', Calls K root dep s' fr' js' := by
  have nil : Mem.Grown s.x.c.log s.x.c.log := ⟨[], rfl, rfl⟩
  generalize hr : Res.ok s' = res at st
  cases st with
  | pool _ w l h1 h2 h3 => cases hr; exact ⟨fr, js, h.same nil rfl⟩
  | noSteal _ w h1 h2 => cases hr; exact ⟨fr, js, h.same nil rfl⟩
  | stole _ w v h1 h2 h3 =>
    obtain ⟨x, e, rfl⟩ := map_ok hr.symm
    have g := Mem.grown_step e; exact ⟨fr, js, h.same g rfl⟩
  | work _ w ch h1 h2 h3 h4 h5 h6 =>
    obtain ⟨x, e, rfl⟩ := map_ok hr.symm
    have g := Mem.grown_step e; exact ⟨fr, js, h.same g rfl⟩
  | switch _ w f d k h1 h2 h3 h4 =>
    split at hr
    · obtain ⟨x, e, rfl⟩ := map_ok hr.symm
      have g := Mem.grown_step e; exact ⟨fr, js, h.same g rfl⟩
    · cases hr
  | notify _ w j l h1 h2 h3 => cases hr; exact ⟨fr, js, h.same nil rfl⟩
  | take _ w j js' h1 h2 h3 h4 =>
    obtain ⟨x, e, rfl⟩ := map_ok hr.symm
    have g := Mem.grown_step e; exact ⟨fr, js, h.same g rfl⟩
  | worked _ w h1 h2 h3 h4 => cases hr; exact ⟨fr, js, h.same nil rfl⟩
  | begin _ i h1 h2 h3 =>
    cases hr
    exact ⟨fr, js, h.caller rfl h1 rfl (by rw [h2]; rfl) (by simp) (by rw [h2]; simp) (fun _ _ e => by cases e) (fun _ e => by cases e)
      (fun _ e => by cases e) (hdep i rfl h2)⟩
  | race _ i k h1 h2 h3 h4 => cases hr
  | submit _ i d h1 h2 h3 =>
    cases hr
    exact ⟨_, _, h.submit (j := s.nj) (w := d) h1 h2 rfl rfl⟩
  | call _ i j f l h1 h2 h3 =>
    cases hr
    by_cases e : l.call j = .returned
    · refine ⟨fr, js, h.caller (v := .waiting f) rfl h1 (by simp only [e, if_true]) (by rw [h2]; rfl) (by simp) (by rw [h2]; simp) (fun _ _ e => by cases e)
        (fun _ e => by cases e; exact h.calling i j f h2) (fun _ e => by cases e) (h.dep i (by rw [h2]; simp))⟩
    · exact ⟨fr, js, h.same nil (by simp only [e, if_false])⟩
  | get _ i f v h1 h2 h3 =>
    cases hr
    exact ⟨fr, js, h.caller rfl h1 rfl (by rw [h2]; rfl) (by simp) (by rw [h2]; simp) (fun _ _ e => by cases e) (fun _ e => by cases e)
      (fun r e => by cases e; rw [h.waiting i f h2]; exact h3) (h.dep i (by rw [h2]; simp))⟩
  | dtor _ l h1 h2 => cases hr; exact ⟨fr, js, h.same nil rfl⟩

theorem calls {s : Y σ V E L} (h : Reach c body may K root dep m s) : ∃ fr js, Calls K root dep s.x fr js := by
  induction h with
  | start y => 
    refine ⟨fun _ => 0, [], ?_⟩
    constructor <;> simp [Y.start, X.start, XS.start, Runtime.State.start, Mem.subs, early]
  | @step s s' a _ few st ih =>
    obtain ⟨fr, js, ih⟩ := ih
    refine calls_step (step_x st) (fun i e1 e2 => ?_) ih
    subst e1
    generalize hr : Res.ok s' = res at st
    cases st with
    | other _ _ r h1 h2 h3 => exact h3 i rfl e2

section
variable (hc : c.Ok) (hd : Disc body pend dirty) (hp : ∀ x, pend x ≤ 65534) (hroot : ∀ i, i < K → pend (root i) = 0)
  {ok : (σ → Prop) → σ → Prop}

theorem done_status {s : X σ V E} (hl : Runtime.Legal s.x.c.log) {f : Nat} {r : Except E V} (h : Ev.done f r ∈ s.x.c.log) :
    Runtime.status f s.x.c.log = .done := Mem.ended_iff.1 ⟨r, Mem.done_mode hl h⟩

include hc hd hp hroot in
/-- The runtime of a whole program is that of Verif.Mem. -/
theorem reach_mem (hok : ∀ (O : σ → Prop) i, i < K → (∀ c', O c' → ∃ j, j < K ∧ j ≠ i ∧ ¬ dep i j ∧ ¬ dep j i ∧ c' = root j) → ok O (root i))
    {s : Y σ V E L} (h : Reach c body may K root dep m s) : ReachAny body pend may ok m s.mem := by
  induction h with
  | start y =>
    have : (Y.start c y m : Y σ V E L).mem = Mem.MS.start y m := by
      unfold Y.mem Y.start Mem.MS.start
      rw [WholeX.xt_start]
    rw [this]; exact .start y
  | @step s s' a h0 few st ih =>
    have hx := reach_x h0
    obtain ⟨fr, js, hcl⟩ := calls h0
    generalize hr : Res.ok s' = res at st
    cases st with
    | load _ w f y l k h1 h2 h3 =>
      cases hr
      refine ih.step (w := w) (ch := .go .take) trivial ?_
      have e1 : s.mem.x.c.pc w = .run f := h2.run
      have e2 : (s.mem.x.c.fr f).st = y := h2.st
      simp only [Mem.step, e1, e2, h3]
      rfl
    | store _ w f y l d k h1 h2 h3 =>
      cases hr
      refine ih.step (w := w) (ch := .go .take) trivial ?_
      have e1 : s.mem.x.c.pc w = .run f := h2.run
      have e2 : (s.mem.x.c.fr f).st = y := h2.st
      simp only [Mem.step, e1, e2, h3]
      rfl
    | other _ _ r h1 h2 h3 =>
      obtain ⟨x', rfl, rfl⟩ := map_ok hr.symm
      rcases WholeX.evo_may hc (disc_ctl hd) hp hroot (fun _ _ => trivial) hx h1 with (⟨i, d, j, hi, hdN, hpk, hcal, hxt⟩ | ⟨w, ch, hw, hch, hs, -, rfl, hin⟩) |
          ⟨e1, _⟩
      · have e : (⟨x', s.m, s.hist⟩ : Y σ V E L).mem = Mem.submit s.mem (root i) d := by
          show (⟨x'.xt, s.m, s.hist⟩ : Mem.MS σ V E L) = _
          rw [hxt]; rfl
        show ReachAny body pend may ok m (⟨x', s.m, s.hist⟩ : Y σ V E L).mem
        rw [e]
        refine ih.submit d (hroot i hi) (hok _ i hi ?_)
        rintro c' ⟨f, w, hf1, hf2⟩
        have hf3 : (f, c') ∈ subs s.x.x.c.log := Mem.mem_subs.2 ⟨w, hf1⟩
        rw [hcl.subs] at hf3
        obtain ⟨k, hk, e⟩ := List.mem_map.1 hf3
        cases e
        obtain ⟨hk1, hk2⟩ := (hcl.mem k).1 hk
        have hl : Runtime.Legal s.x.x.c.log := WholeX.C60_history hc (disc_ctl hd) hp hroot hx
        refine ⟨k, hk1, ?_, ?_, ?_, rfl⟩
        · rintro rfl; rw [hpk] at hk2; cases hk2
        · intro hde
          obtain ⟨r, hr⟩ := hcl.dep i (by rw [hpk]; simp) k hde
          exact hf2 (done_status hl (hcl.back k r hr))
        · intro hde
          obtain ⟨r, hr⟩ := hcl.dep k (by intro e; rw [e] at hk2; cases hk2) i hde
          rw [hpk] at hr; cases hr
      · refine ih.step (w := w) (ch := ch) hch ?_
        have hctl : Mem.control body w ch s.mem = .ok ⟨x'.xt, s.m, s.hist⟩ := by
          unfold Mem.control
          show Exn.Res.bind (Exn.step (ctl body) w ch s.x.xt) _ = _
          rw [hs]; rfl
        unfold Mem.step
        split
        · rename_i f hpc
          have hpc : s.x.x.c.pc w = .run f := hpc
          obtain ⟨n1, n2⟩ := h2 w f _ rfl ⟨(hin f hpc).1, (hin f hpc).2, hpc, rfl⟩
          split
          · rename_i l k hb; exact absurd hb (n1 l k)
          · rename_i l d k hb; exact absurd hb (n2 l d k)
          · exact hctl
        · exact hctl
      · have : (⟨x', s.m, s.hist⟩ : Y σ V E L).mem = s.mem := by
          show (⟨x'.xt, s.m, s.hist⟩ : Mem.MS σ V E L) = _
          rw [e1]; rfl
        show ReachAny body pend may ok m (⟨x', s.m, s.hist⟩ : Y σ V E L).mem
        rw [this]; exact ih

end

end Verif.WholeM
