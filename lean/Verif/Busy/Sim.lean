import Verif.Busy.Inv
import Verif.Mem.Runs

/-! The runtime of a whole program is that of Verif.Mem. -/
namespace Verif.Busy
open Verif.Runtime (Res Ev upd upd_apply upd_same upd_ne)
open Verif.Exn (XS Choice)
open Verif.Mem (MS Act Allowed ctl Disc disc_ctl subs ReachAny Mono)
open Verif.Pool (Pc DPc Cfg)

variable {σ V E L : Type} [Inhabited E] [DecidableEq L] {c : Cfg} {body : σ → Act σ V E L} {pend : σ → Nat} {dirty : σ → Prop} {may : E → Prop} {K : Nat}
  {root : Nat → σ} {dep : Nat → Nat → Prop} {m : L → E}

/-- Nothing submitted yet. -/
def early {R : Type} : Caller R → Bool
  | .before | .picking => true
  | _ => false

/-- What is known of the callers. -/
structure Calls (K : Nat) (root : Nat → σ) (dep : Nat → Nat → Prop) (s : B σ V E L) (fr : Nat → Nat) (js : List Nat) : Prop where
  subs : subs s.M.x.c.log = js.map fun i => (fr i, root i)
  nodup : js.Nodup
  /-- Newest first. -/
  ord : js.Pairwise fun i j => ¬ dep j i
  mem : ∀ i, i ∈ js ↔ i < K ∧ early (s.caller i) = false
  waiting : ∀ i f, s.caller i = .waiting f → fr i = f
  back : ∀ i f r, s.caller i = .back f r → fr i = f ∧ Ev.done f r ∈ s.M.x.c.log
  dep : ∀ i, s.caller i ≠ .before → ∀ j, dep i j → ∃ f r, s.caller j = .back f r
  lt : ∀ i, s.caller i ≠ .before → i < K

omit [Inhabited E] [DecidableEq L] in
theorem Calls.same {s s' : B σ V E L} {fr : Nat → Nat} {js : List Nat} (h : Calls K root dep s fr js) (hl : Mem.Grown s.M.x.c.log s'.M.x.c.log)
    (hc : s'.caller = s.caller) : Calls K root dep s' fr js := by
  constructor
  · rw [hl.subs]; exact h.subs
  · exact h.nodup
  · exact h.ord
  · rw [hc]; exact h.mem
  · rw [hc]; exact h.waiting
  · rw [hc]; exact fun i f r e => ⟨(h.back i f r e).1, hl.mem (h.back i f r e).2⟩
  · rw [hc]; exact h.dep
  · rw [hc]; exact h.lt

omit [Inhabited E] [DecidableEq L] in
/-- The state of one caller changes; it was submitted before or is not yet. -/
theorem Calls.caller {s s' : B σ V E L} {fr : Nat → Nat} {js : List Nat} (h : Calls K root dep s fr js) (hl : s'.M = s.M) {i : Nat}
    {v : Caller (Except E V)} (hi : i < K) (hc : s'.caller = upd s.caller i v) (he : early v = early (s.caller i)) (hnb : v ≠ .before)
    (hb : ∀ f r, s.caller i ≠ .back f r) (h2 : ∀ f, v = .waiting f → fr i = f) (h3 : ∀ f r, v = .back f r → fr i = f ∧ Ev.done f r ∈ s.M.x.c.log)
    (h4 : ∀ j, dep i j → ∃ f r, s.caller j = .back f r) : Calls K root dep s' fr js := by
  have keep : ∀ j, (∃ f r, s.caller j = .back f r) → ∃ f r, upd s.caller i v j = .back f r := by
    rintro j ⟨f, r, hr⟩
    have : j ≠ i := by rintro rfl; exact hb f r hr
    exact ⟨f, r, by rw [upd_ne _ _ this]; exact hr⟩
  constructor
  · rw [hl]; exact h.subs
  · exact h.nodup
  · exact h.ord
  · intro k
    rw [hc, upd_apply, h.mem]
    split
    · subst_vars; rw [he]
    · rfl
  · intro k f e
    rw [hc, upd_apply] at e
    split at e
    · rename_i hk; subst hk; exact h2 f e
    · exact h.waiting k f e
  · intro k f r e
    rw [hl]
    rw [hc, upd_apply] at e
    split at e
    · rename_i hk; subst hk; exact h3 f r e
    · exact h.back k f r e
  · intro k e j hj
    rw [hc] at e ⊢
    apply keep
    rw [upd_apply] at e
    split at e
    · subst_vars; exact h4 j hj
    · exact h.dep k e j hj
  · intro k e
    rw [hc, upd_apply] at e
    split at e
    · subst_vars; exact hi
    · exact h.lt k e

omit [Inhabited E] [DecidableEq L] in
theorem Calls.submit {s s' : B σ V E L} {fr : Nat → Nat} {js : List Nat} (h : Calls K root dep s fr js) {i w : Nat} (hi : i < K)
    (hp : s.caller i = .picking) (hc : s'.caller = upd s.caller i (.waiting s.M.x.c.nf))
    (hl : s'.M.x.c.log = .submit s.M.x.c.nf (root i) w :: s.M.x.c.log) : Calls K root dep s' (upd fr i s.M.x.c.nf) (i :: js) := by
  have hn : i ∉ js := by
    intro hm
    have := ((h.mem i).1 hm).2
    rw [hp] at this; cases this
  have ne : ∀ k, s.caller k ≠ .picking → k ≠ i := by rintro k hk rfl; exact hk hp
  constructor
  · rw [hl]
    simp only [Mem.subs, List.map_cons, upd_same, h.subs, List.cons.injEq, true_and]
    refine List.map_congr_left fun k hk => ?_
    have : k ≠ i := by rintro rfl; exact hn hk
    rw [upd_ne _ _ this]
  · exact List.nodup_cons.2 ⟨hn, h.nodup⟩
  · refine List.pairwise_cons.2 ⟨fun k hk hde => ?_, h.ord⟩
    obtain ⟨f, r, hr⟩ := h.dep k (by intro e; have := ((h.mem k).1 hk).2; rw [e] at this; cases this) i hde
    rw [hp] at hr; cases hr
  · intro k
    rw [hc, List.mem_cons, h.mem, upd_apply]
    split
    · subst_vars; simp [hi, early]
    · rename_i e; simp [e]
  · intro k f e
    rw [hc, upd_apply] at e
    split at e
    · subst_vars; cases e; rw [upd_same]
    · rename_i hk; rw [upd_ne _ _ hk]; exact h.waiting k f e
  · intro k f r e
    rw [hc, upd_apply] at e
    split at e
    · cases e
    · rename_i hk; rw [upd_ne _ _ hk, hl]; exact ⟨(h.back k f r e).1, List.mem_cons_of_mem _ (h.back k f r e).2⟩
  · intro k e j' hj
    rw [hc] at e ⊢
    have h1 : ∃ f r, s.caller j' = .back f r := by
      rw [upd_apply] at e
      split at e
      · subst_vars; exact h.dep k (by rw [hp]; simp) j' hj
      · exact h.dep k e j' hj
    obtain ⟨f, r, hr⟩ := h1
    exact ⟨f, r, by rw [upd_ne _ _ (ne j' (by rw [hr]; simp))]; exact hr⟩
  · intro k e
    rw [hc, upd_apply] at e
    split at e
    · subst_vars; exact hi
    · exact h.lt k e

/-- Which tasks may run at the same time: those of calls of `schedule` that are not ordered. -/
def Together (K : Nat) (root : Nat → σ) (dep : Nat → Nat → Prop) (O : σ → Prop) (y : σ) : Prop :=
  ∃ i, i < K ∧ y = root i ∧ ∀ y', O y' → ∃ j, j < K ∧ j ≠ i ∧ ¬ dep i j ∧ ¬ dep j i ∧ y' = root j

theorem together_mono : Mono (Together K root dep) := fun _ _ h _ ⟨i, h1, h2, h3⟩ => ⟨i, h1, h2, fun y' hy => h3 y' (h y' hy)⟩

theorem done_status {l : List (Ev σ (Except E V))} (hl : Runtime.Legal l) {f : Nat} {r : Except E V} (h : Ev.done f r ∈ l) :
    Runtime.status f l = .done := Mem.ended_iff.1 ⟨r, Mem.done_mode hl h⟩

section
variable (hd : Disc body pend dirty) (hp : ∀ x, pend x ≤ 65534) (hroot : ∀ i, i < K → pend (root i) = 0)

/-- What a step does to the tasks. -/
inductive Kind (c : Cfg) (body : σ → Act σ V E L) (may : E → Prop) (K : Nat) (root : Nat → σ) (dep : Nat → Nat → Prop) (s s' : B σ V E L) : Prop
  | same : s'.M = s.M → s'.caller = s.caller → Kind c body may K root dep s s'
  | work (w : Nat) (ch : Choice E) : w < c.N → Allowed may ch → Mem.step body w ch s.M = .ok s'.M → s'.caller = s.caller → Kind c body may K root dep s s'
  | begin (i : Nat) : i < K → s.caller i = .before → (∀ j, dep i j → ∃ f r, s.caller j = .back f r) → s'.M = s.M → s'.caller = upd s.caller i .picking →
      Kind c body may K root dep s s'
  | submit (i d : Nat) : i < K → d < c.N → s.caller i = .picking → s'.M = Mem.submit s.M (root i) d → s'.caller = upd s.caller i (.waiting s.M.x.c.nf) →
      Kind c body may K root dep s s'
  | get (i f : Nat) (r : Except E V) : i < K → s.caller i = .waiting f → Ev.done f r ∈ s.M.x.c.log → s'.M = s.M → s'.caller = upd s.caller i (.back f r) →
      Kind c body may K root dep s s'

theorem kind {a : Actor} {s s' : B σ V E L} (st : Step c body may K root dep a s (.ok s')) : Kind c body may K root dep s s' := by
  generalize hr : Res.ok s' = res at st
  cases st with
  | loop _ _ w h1 h2 => cases hr; exact .same (loop_same h2).1 (loop_same h2).2.1
  | noSteal _ w h1 h2 => cases hr; exact .same rfl rfl
  | stole _ w v h1 h2 h3 =>
    split at hr
    · cases hr
    · obtain ⟨M, e, rfl⟩ := map_ok hr.symm
      exact .work w (.go _) h1 trivial e rfl
  | take _ w h1 h2 h3 h4 =>
    obtain ⟨M, e, rfl⟩ := map_ok hr.symm
    exact .work w (.go _) h1 trivial e rfl
  | work _ w ch h1 h2 h3 h4 h5 =>
    obtain ⟨M, e, rfl⟩ := map_ok hr.symm
    exact .work w ch h1 h4 e rfl
  | lost => cases hr
  | begin _ i h1 h2 h3 h4 => cases hr; exact .begin i h1 h2 h4 rfl rfl
  | race => cases hr
  | submit _ i d h1 h2 h3 =>
    split at hr
    · cases hr
    · cases hr; exact .submit i d h1 h3 h2 rfl rfl
  | get _ i f r h1 h2 h3 => cases hr; exact .get i f r h1 h2 h3 rfl rfl
  | dstop => cases hr; exact .same rfl rfl
  | djoin => cases hr; exact .same rfl rfl

theorem calls_step {a : Actor} {s s' : B σ V E L} (st : Step c body may K root dep a s (.ok s'))
    {fr : Nat → Nat} {js : List Nat} (h : Calls K root dep s fr js) : ∃ fr' js', Calls K root dep s' fr' js' := by
  cases kind st with
  | same h1 h2 => exact ⟨fr, js, h.same ⟨[], by rw [h1]; rfl, rfl⟩ h2⟩
  | work w ch h0 h1 h2 h3 =>
    obtain ⟨ch', hx⟩ := Mem.step_x h2
    exact ⟨fr, js, h.same (Mem.grown_step hx) h3⟩
  | begin i h1 h2 h3 h4 h5 =>
    exact ⟨fr, js, h.caller h4 h1 h5 (by rw [h2]; rfl) (by simp) (by rw [h2]; simp) (fun _ e => by cases e) (fun _ _ e => by cases e) h3⟩
  | submit i d h1 h0 h2 h3 h4 => exact ⟨_, _, h.submit (w := d) h1 h2 h4 (by rw [h3]; rfl)⟩
  | get i f r h1 h2 h3 h4 h5 =>
    exact ⟨fr, js, h.caller h4 h1 h5 (by rw [h2]; rfl) (by simp) (by rw [h2]; simp) (fun _ e => by cases e)
      (fun _ _ e => by cases e; exact ⟨h.waiting i f h2, h3⟩) (h.dep i (by rw [h2]; simp))⟩

theorem calls {s : B σ V E L} (h : Reach c body may K root dep m s) : ∃ fr js, Calls K root dep s fr js := by
  induction h with
  | start y =>
    refine ⟨fun _ => 0, [], ?_⟩
    constructor <;> simp [B.start, MS.start, XS.start, Runtime.State.start, Mem.subs, early]
  | step _ st ih =>
    obtain ⟨fr, js, ih⟩ := ih
    exact calls_step st ih

include hd hp hroot in
theorem reach_mem {s : B σ V E L} (h : Reach c body may K root dep m s) : ReachAny body pend may (Together K root dep) m s.M := by
  induction h with
  | start y => exact .start y
  | @step s s' a h0 st ih =>
    obtain ⟨fr, js, hcl⟩ := calls h0
    cases kind st with
    | same h1 h2 => rw [h1]; exact ih
    | work w ch _ h1 h2 h3 => exact ih.step h1 h2
    | begin i h1 h2 h3 h4 h5 => rw [h4]; exact ih
    | get i f r h1 h2 h3 h4 h5 => rw [h4]; exact ih
    | submit i d hi _ hpk h3 h4 =>
      rw [h3]
      refine ih.submit d (hroot i hi) ⟨i, hi, rfl, ?_⟩
      rintro c' ⟨f, w, hf1, hf2⟩
      have hf3 : (f, c') ∈ subs s.M.x.c.log := Mem.mem_subs.2 ⟨w, hf1⟩
      rw [hcl.subs] at hf3
      obtain ⟨k, hk, e⟩ := List.mem_map.1 hf3
      cases e
      obtain ⟨hk1, hk2⟩ := (hcl.mem k).1 hk
      have hl : Runtime.Legal s.M.x.c.log := Exn.history_legal (disc_ctl hd) (Exn.reach_of_bounded (disc_ctl hd) hp (Mem.reachAny_x ih)).1
      refine ⟨k, hk1, ?_, ?_, ?_, rfl⟩
      · rintro rfl; rw [hpk] at hk2; cases hk2
      · intro hde
        obtain ⟨g, r, hr⟩ := hcl.dep i (by rw [hpk]; simp) k hde
        obtain ⟨e, hd'⟩ := hcl.back k g r hr
        exact hf2 (by rw [e]; exact done_status hl hd')
      · intro hde
        obtain ⟨g, r, hr⟩ := hcl.dep k (by intro e; rw [e] at hk2; cases hk2) i hde
        rw [hpk] at hr; cases hr

include hd hp hroot in
theorem reach_exn {s : B σ V E L} (h : Reach c body may K root dep m s) : Exn.Reach (ctl body) pend (fun _ => True) s.M.x :=
  (Exn.reach_of_bounded (disc_ctl hd) hp (Mem.reachAny_x (reach_mem hd hp hroot h))).1

omit [Inhabited E] [DecidableEq L] in
theorem len_upd {l : Nat → List Nat} {h : Nat → Nat} {d f : Nat} (hh : ∀ v, h v ≤ (l v).length) (v : Nat) : h v ≤ (upd l d (l d ++ [f]) v).length := by
  rw [upd_apply]
  split
  · subst_vars; have := hh v; simp; omega
  · exact hh v

include hd hp hroot in
theorem reach_inv {s : B σ V E L} (h : Reach c body may K root dep m s) : Inv c body K s := by
  induction h with
  | start y => exact start_inv y
  | @step s s' a h0 st ih =>
    have hx := reach_exn hd hp hroot h0
    generalize hr : Res.ok s' = res at st
    cases st with
    | loop _ _ w h1 h2 => cases hr; exact inv_loop ih h2
    | noSteal _ w h1 h2 =>
      cases hr
      obtain ⟨i1, i2, i3, i4, i5, i6, i7, i8, i9, i10, i11, i12⟩ := ih
      have i1' := i1 w
      have i3' := i3 w
      have i11' := i11
      rw [h2] at i1' i3'
      refine ⟨fun v hv => ?_, i2, fun v hv => ?_, i4, fun v hv => ?_, i6, i7, fun v hv => ?_, i9, i10, fun hg v hv => ?_, fun hu v => ?_⟩
      · show _ ∧ inTask (upd s.pc w .chk v) = true
        rw [upd_apply]; split
        · subst_vars; have := i1' hv; simp [inTask] at this
        · exact i1 v hv
      · show upd s.pc w .chk v = _ ∨ upd s.pc w .chk v = _
        rw [upd_apply]; split
        · subst_vars; have := i3' hv; simp at this
        · exact i3 v hv
      · change Pool.draining (upd s.pc w .chk v) = true at hv
        rw [upd_apply] at hv; split at hv
        · cases hv
        · exact i5 v hv
      · change Pool.left (upd s.pc w .chk v) = true at hv
        rw [upd_apply] at hv; split at hv
        · cases hv
        · exact i8 v hv
      · have := i11 hg w h1; rw [h2] at this; cases this
      · exact absurd h2 (i12 hu w).1
    | stole _ w v h1 h2 h3 =>
      split at hr
      · cases hr
      · obtain ⟨M, e, rfl⟩ := map_ok hr.symm
        have he := eff_step hd hx e
        have hh : s.hand w = 0 := by
          apply Classical.byContradiction; intro hn
          rcases ih.hpc w hn with e | e <;> rw [h3] at e <;> cases e
        have hi : s.M.x.c.pc w = .idle := by
          apply Classical.byContradiction; intro hn
          have := (ih.idle w hn).2; rw [h3] at this; cases this
        have hb : M.x.c.inbox = s.M.x.c.inbox := by
          rcases he.inb with g | ⟨_, g, _⟩ | ⟨f, _, _, _, g, _⟩
          · exact g
          · cases g
          · rw [hi] at g; cases g
        have := inv_work (p := .task) (n := 0) ih h1 he rfl (fun e => by cases e) (Nat.zero_le _) (fun e => absurd rfl e)
          (fun hu => absurd h3 (ih.unit hu w).1) (by rw [h3]; simp) (fun u _ => by rw [hb]; exact ih.hle u) (by rw [hb]; exact ih.far)
        have e0 : upd s.hand w 0 = s.hand := by
          funext u; rw [upd_apply]; split
          · subst_vars; exact hh.symm
          · rfl
        rw [e0] at this
        exact this
    | take _ w h1 h2 h3 h4 =>
      obtain ⟨M, e, rfl⟩ := map_ok hr.symm
      have he := eff_step hd hx e
      have hb : ∃ f r, s.M.x.c.inbox w = f :: r ∧ M.x.c.inbox = upd s.M.x.c.inbox w r := by
        have ht : ∃ c', Runtime.take s.M.x.c w = .ok c' ∧ M.x.c = c' := by
          simp only [Mem.step, h3, Mem.control, Exn.step] at e
          cases ht : Runtime.take s.M.x.c w with
          | ok c' => rw [ht] at e; cases e; exact ⟨c', rfl, rfl⟩
          | no => rw [ht] at e; cases e
          | ub => rw [ht] at e; cases e
        obtain ⟨c', h5, h6⟩ := ht
        rw [h6]
        unfold Runtime.take at h5
        split at h5
        · rename_i f r hb
          split at h5 <;> cases h5
          exact ⟨f, r, hb, rfl⟩
        · cases h5
      obtain ⟨f, r, hb1, hb2⟩ := hb
      have hl := ih.hle w
      rw [hb1] at hl
      have e0 : upd s.pc w (s.pc w) = s.pc := by
        funext u; rw [upd_apply]; split
        · subst_vars; rfl
        · rfl
      have := inv_work (p := s.pc w) (n := s.hand w - 1) ih h1 he (by rcases h2 with e | e <;> rw [e] <;> rfl) (ih.drain w)
        (by rw [hb2, upd_same]; simp at hl; omega) (fun _ => h2) (fun _ => by rcases h2 with e | e <;> rw [e] <;> simp)
        (by rcases h2 with e | e <;> rw [e] <;> simp)
        (fun u hu => by rw [hb2, upd_ne _ _ hu]; exact ih.hle u)
        (fun u hu => by rw [hb2, upd_ne _ _ (by omega)]; exact ih.far u hu)
      rw [e0] at this
      exact this
    | work _ w ch h1 h2 h3 h4 h5 =>
      obtain ⟨M, e, rfl⟩ := map_ok hr.symm
      have he := eff_step hd hx e
      have hb : ∀ v, s.hand v ≤ (M.x.c.inbox v).length := by
        intro v
        rcases he.inb with g | ⟨g, _⟩ | ⟨f, d, k, x, g, g2, g3⟩
        · rw [g]; exact ih.hle v
        · exact absurd g h3
        · rw [g3]; exact len_upd ih.hle v
      have hfar : ∀ v, c.N ≤ v → M.x.c.inbox v = [] := by
        intro v hv
        rcases he.inb with g | ⟨g, _⟩ | ⟨f, d, k, x, g, g2, g3⟩
        · rw [g]; exact ih.far v hv
        · exact absurd g h3
        · have := (h5 d ⟨f, k, x, g, g2⟩).1
          rw [g3, upd_ne _ _ (by omega)]; exact ih.far v hv
      have e0 : upd s.pc w (s.pc w) = s.pc := by
        funext u; rw [upd_apply]; split
        · subst_vars; rfl
        · rfl
      have e1 : upd s.hand w (s.hand w) = s.hand := by
        funext u; rw [upd_apply]; split
        · subst_vars; rfl
        · rfl
      have := inv_work (p := s.pc w) (n := s.hand w) ih h1 he (ih.idle w h3).2 (ih.drain w) (hb w) (ih.hpc w) (fun hu => (ih.unit hu w).2.1)
        (by rcases h2 with e | e | e <;> rw [e] <;> simp) (fun u _ => hb u) hfar
      rw [e0, e1] at this
      exact this
    | lost => cases hr
    | begin _ i h1 h2 h3 h4 =>
      cases hr
      refine ⟨ih.idle, ih.hle, ih.hpc, ih.far, ih.drain, ih.stop, ih.dstop, ih.left, fun hdp k hk => ?_, ih.still, ih.gone, ih.unit⟩
      rcases ih.calls hdp i h1 with ⟨f, e⟩ | ⟨f, r, e⟩ <;> rw [h2] at e <;> cases e
    | race => cases hr
    | submit _ i d h1 h2 h3 =>
      split at hr
      · cases hr
      · cases hr
        have hal : s.dpc = .alive := by
          apply Classical.byContradiction; intro hn
          rcases ih.calls hn i h1 with ⟨f, e⟩ | ⟨f, r, e⟩ <;> rw [h2] at e <;> cases e
        have hns : ∀ w, Pool.draining (s.pc w) = false := by
          intro w
          cases hdr : Pool.draining (s.pc w) with
          | false => rfl
          | true => exact absurd hal (ih.stop (ih.drain w hdr))
        refine ⟨ih.idle, fun v => len_upd ih.hle v, ih.hpc, fun v hv => ?_, ih.drain, ih.stop, ih.dstop, fun v hv => ?_, fun hn => absurd hal hn,
          fun hn => absurd hal hn, ih.gone, ih.unit⟩
        · show upd s.M.x.c.inbox d _ v = []
          rw [upd_ne _ _ (by omega)]; exact ih.far v hv
        · have := hns v
          change Pool.left (s.pc v) = true at hv
          revert this hv; cases s.pc v <;> simp [Pool.left, Pool.draining]
    | get _ i f r h1 h2 h3 =>
      cases hr
      refine ⟨ih.idle, ih.hle, ih.hpc, ih.far, ih.drain, ih.stop, ih.dstop, ih.left, fun hdp k hk => ?_, ih.still, ih.gone, ih.unit⟩
      show (∃ f', upd s.caller i _ k = _) ∨ ∃ f' r', upd s.caller i _ k = _
      by_cases e : k = i
      · subst e; exact .inr ⟨f, r, upd_same ..⟩
      · rw [upd_ne _ _ e]; exact ih.calls hdp k hk
    | dstop _ h1 h2 h3 =>
      cases hr
      exact ⟨ih.idle, ih.hle, ih.hpc, ih.far, fun _ _ => rfl, fun _ => by simp, fun _ => rfl, ih.left, fun _ => h2, fun _ => h3, (fun e => by cases e), ih.unit⟩
    | djoin _ h1 h2 =>
      cases hr
      have hd' : s.dpc ≠ .alive := by rw [h1]; simp
      exact ⟨ih.idle, ih.hle, ih.hpc, ih.far, ih.drain, fun _ => by simp, fun _ => ih.dstop hd', ih.left, fun _ => ih.calls hd', fun _ => ih.still hd',
        fun _ => h2, ih.unit⟩

end

/-- busy_pool only. -/
structure Latch (c : Cfg) (s : B σ V E L) : Prop where
  latch : s.latch = EventCount.num c.N fun w => Pool.before (s.pc w)
  fin : ∀ w, w < c.N → s.pc w = .fin4 → s.latch = 0

omit [Inhabited E] [DecidableEq L] in
theorem Latch.same {s s' : B σ V E L} (h : Latch c s) (h1 : s'.latch = s.latch) (h2 : ∀ w, Pool.before (s'.pc w) = Pool.before (s.pc w))
    (h3 : ∀ w, s'.pc w = .fin4 → s.pc w = .fin4) : Latch c s' :=
  ⟨by rw [h1, h.latch]; exact EventCount.num_congr fun w _ => (h2 w).symm, fun w hw e => by rw [h1]; exact h.fin w hw (h3 w e)⟩

omit [Inhabited E] [DecidableEq L] in
theorem Latch.loop {s s' : B σ V E L} {w : Nat} (h : Latch c s) (hu : c.unit = false) (hw : w < c.N) (hl : loop c s w = some s') : Latch c s' := by
  obtain ⟨e1, e2, e3, e4⟩ := loop_same hl
  have o := loop_own hl
  clear hl e1 e2 e3
  obtain ⟨h1, h2⟩ := h
  have hk := EventCount.num_change (f := fun u => Pool.before (s.pc u)) (g := fun u => Pool.before (s'.pc u)) hw
    fun u hu' => by rw [(e4 u hu').1]
  constructor
  · generalize (EventCount.num c.N fun u => Pool.before (s'.pc u)) = x at *
    generalize (EventCount.num c.N fun u => Pool.before (s.pc u)) = y at *
    clear h2 e4
    cases o <;> grind [Pool.before]
  · intro v hv e
    have h3 := h2 v hv
    have h4 := h2 w hw
    have h5 := e4 v
    clear h1 hk h2 e4
    by_cases ev : v = w
    · subst ev; cases o <;> grind
    · rw [(h5 ev).1] at e
      have := h3 e
      cases o <;> grind

theorem latch_step (hu : c.unit = false) {a : Actor} {s s' : B σ V E L} (h : Latch c s) (st : Step c body may K root dep a s (.ok s')) : Latch c s' := by
  have up : ∀ (w : Nat) (p : Pc), Pool.before p = true → Pool.before (s.pc w) = true → p ≠ .fin4 → ∀ s' : B σ V E L, s'.pc = upd s.pc w p →
      s'.latch = s.latch → Latch c s' := by
    intro w p hb1 hb2 hb3 s' e1 e2
    refine h.same e2 (fun v => ?_) (fun v hv => ?_)
    · rw [e1, upd_apply]; split
      · subst_vars; rw [hb1, hb2]
      · rfl
    · rw [e1, upd_apply] at hv; split at hv
      · exact absurd hv hb3
      · exact hv
  generalize hr : Res.ok s' = res at st
  cases st with
  | loop _ _ w h1 h2 => cases hr; exact h.loop hu h1 h2
  | noSteal _ w h1 h2 => cases hr; exact up w .chk rfl (by rw [h2]; rfl) (by simp) _ rfl rfl
  | stole _ w v h1 h2 h3 =>
    split at hr
    · cases hr
    · obtain ⟨M, e, rfl⟩ := map_ok hr.symm
      exact up w .task rfl (by rw [h3]; rfl) (by simp) _ rfl rfl
  | take _ w h1 h2 h3 h4 =>
    obtain ⟨M, e, rfl⟩ := map_ok hr.symm
    exact h.same rfl (fun _ => rfl) fun _ => id
  | work _ w ch h1 h2 h3 h4 h5 =>
    obtain ⟨M, e, rfl⟩ := map_ok hr.symm
    exact h.same rfl (fun _ => rfl) fun _ => id
  | submit _ i d h1 h2 h3 =>
    split at hr
    · cases hr
    · cases hr; exact h.same rfl (fun _ => rfl) fun _ => id
  | lost => cases hr
  | race => cases hr
  | begin => cases hr; exact h.same rfl (fun _ => rfl) fun _ => id
  | get => cases hr; exact h.same rfl (fun _ => rfl) fun _ => id
  | dstop => cases hr; exact h.same rfl (fun _ => rfl) fun _ => id
  | djoin => cases hr; exact h.same rfl (fun _ => rfl) fun _ => id

theorem reach_latch (hu : c.unit = false) {s : B σ V E L} (h : Reach c body may K root dep m s) : Latch c s := by
  induction h with
  | start y => constructor <;> simp [B.start, EventCount.num, Pool.before]
  | step _ st ih => exact latch_step hu ih st

end Verif.Busy
