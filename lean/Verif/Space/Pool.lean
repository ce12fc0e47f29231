import Verif.Space.Props
import Verif.Busy.Props
import Verif.WholeM.Props

/-! C69 for whole programs on a pool. -/
namespace Verif.Space
open Verif.Runtime (Ev Res)
open Verif.Exn (Choice)
open Verif.Mem (MS Act ctl Disc disc_ctl ReachAny subs)

theorem sum_len {α : Type} (g : Nat → List α) (N : Nat) : ((List.range N).flatMap g).length = ((List.range N).map fun w => (g w).length).sum := by
  induction N with
  | zero => simp
  | succ N ih => simp [List.range_succ, List.flatMap_append, ih]

theorem nodup_range (N : Nat) : (List.range N).Nodup := by
  induction N with
  | zero => simp
  | succ N ih =>
    rw [List.range_succ, List.nodup_append]
    refine ⟨ih, by simp, fun a ha b hb e => ?_⟩
    have := List.mem_range.1 ha
    have := List.mem_singleton.1 hb
    omega

variable {σ V E L : Type} [Inhabited E] [DecidableEq L] {body : σ → Act σ V E L} {pend : σ → Nat} {dirty : σ → Prop} {may : E → Prop} {m : L → E}
  {size : σ → Nat} {S : Nat} {ok : (σ → Prop) → σ → Prop}

/-- Without context switchers only tasks that were submitted wait for a worker. -/
theorem inbox_sub (hns : ∀ y d k x, body y ≠ .switch d k x) {s : MS σ V E L} (h : ReachAny body pend may ok m s) :
    ∀ w f, f ∈ s.x.c.inbox w → ∃ c, (f, c) ∈ subs s.x.c.log := by
  induction h with
  | start y => intro w f hf; cases hf
  | @submit s c v _ _ _ ih =>
    intro w f hf
    simp only [Mem.submit, Exn.submit, Runtime.submit, Runtime.newFrame, Runtime.upd_apply, Mem.subs] at hf ⊢
    split at hf
    · subst_vars
      rcases List.mem_append.1 hf with hf | hf
      · obtain ⟨c', hc⟩ := ih _ f hf
        exact ⟨c', List.mem_cons_of_mem _ hc⟩
      · rw [List.mem_singleton.1 hf]; exact ⟨c, List.mem_cons_self ..⟩
    · obtain ⟨c', hc⟩ := ih _ f hf
      exact ⟨c', List.mem_cons_of_mem _ hc⟩
  | @step s s' w ch _ _ hs ih =>
    obtain ⟨ch', hx⟩ := Mem.step_x hs
    rw [(Mem.grown_step hx).subs]
    have key : ∀ v g, g ∈ s'.x.c.inbox v → g ∈ s.x.c.inbox v := by
      have hctl : Mem.control body w ch s = .ok s' →
          (∀ f, s.x.c.pc w = .run f → (∀ l k, body (s.x.c.fr f).st ≠ .load l k) ∧ ∀ l d k, body (s.x.c.fr f).st ≠ .store l d k) →
          ∀ v g, g ∈ s'.x.c.inbox v → g ∈ s.x.c.inbox v := by
        intro he hno v g hg
        unfold Mem.control at he
        cases hx : Exn.step (ctl body) w ch s.x with
        | ok x =>
          rw [hx] at he
          cases he
          rcases Exn.inb_step hx with e | ⟨_, _, f, r, e1, e2⟩ | ⟨f, d, k, h', e1, e2, e3⟩
          · rw [e] at hg; exact hg
          · have hg : g ∈ x.c.inbox v := hg
            rw [e2, Runtime.upd_apply] at hg
            split at hg
            · subst_vars; rw [e1]; exact List.mem_cons_of_mem _ hg
            · exact hg
          · exfalso
            obtain ⟨n1, n2⟩ := hno f e1
            unfold ctl at e2
            split at e2 <;> cases e2
            · exact hns _ _ _ _ ‹_›
            · exact n1 _ _ ‹_›
            · exact n2 _ _ _ ‹_›
        | ub => rw [hx] at he; cases he
        | no => rw [hx] at he; cases he
      unfold Mem.step at hs
      split at hs
      · rename_i f hp
        split at hs
        · cases hs; exact fun v g hg => hg
        · cases hs; exact fun v g hg => hg
        · rename_i n1 n2
          refine hctl hs fun f' hp' => ?_
          rw [hp] at hp'; cases hp'
          exact ⟨n1, n2⟩
      · rename_i hn
        exact hctl hs fun f' hp' => absurd hp' (hn f')
    exact fun v g hg => ih v g (key v g hg)

/-- Without context switchers: at most as many tasks wait for a worker as have been submitted and are not over, which `O` lists. -/
theorem waiting_le (hd : Disc body pend dirty) (hp : ∀ y, pend y ≤ 65534) (hns : ∀ y d k x, body y ≠ .switch d k x) {s : MS σ V E L}
    (h : ReachAny body pend may ok m s) {O : List Nat} (hO : ∀ f c, (f, c) ∈ subs s.x.c.log → f ∈ O ∨ ∃ r, Ev.done f r ∈ s.x.c.log) (N : Nat) :
    waiting s.x.c N ≤ O.length := by
  have hx := (Exn.reach_of_bounded (disc_ctl hd) hp (Mem.reachAny_x h)).1
  have sh := shape (disc_ctl hd) hx
  have hl := Exn.history_legal (disc_ctl hd) hx
  have fa := Mem.facts (disc_ctl hd) hx
  have hnd : ((List.range N).flatMap s.x.c.inbox).Nodup :=
    nodup_flat (key := fun f => match s.x.c.loc f with | .inbox w => w | _ => 0) (fun w f hf => by simp only [sh.inb w f hf]) sh.ind (nodup_range N)
  have h1 := sum_le (fun _ : Nat => 1) hnd (m := O) fun f hf => by
    obtain ⟨w, _, hf⟩ := List.mem_flatMap.1 hf
    obtain ⟨c, hc⟩ := inbox_sub hns h w f hf
    rcases hO f c hc with h2 | ⟨r, h2⟩
    · exact h2
    · have := Mem.done_mode hl h2
      rw [fa.ib w f hf] at this; cases this
  have h3 : ∀ l : List Nat, (l.map fun _ => 1).sum = l.length := fun l => by
    induction l with
    | nil => rfl
    | cons a l ih => simp only [List.map_cons, List.sum_cons, ih, List.length_cons]; omega
  rw [h3, h3, sum_len] at h1
  exact h1

section busy
open Verif.Busy
variable {c : Pool.Cfg} {K : Nat} {root : Nat → σ} {dep : Nat → Nat → Prop}
  (hd : Disc body pend dirty) (hp : ∀ y, pend y ≤ 65534) (hroot : ∀ i, i < K → pend (root i) = 0)

include hd hp hroot in
theorem busy_within {s : B σ V E L} (h : Busy.Reach c body may K root dep m s) : Within s.M.x.c c.N := by
  have hi := Busy.reach_inv hd hp hroot h
  refine fun w hw => ⟨?_, hi.far w hw⟩
  cases e : s.M.x.c.pc w with
  | idle => rfl
  | _ => have := (hi.idle w (by rw [e]; simp)).1; omega

theorem busy_subs {s : B σ V E L} (h : Busy.Reach c body may K root dep m s) {f : Nat} {y : σ} {w : Nat} (hf : Ev.submit f y w ∈ s.M.x.c.log) : ∃ i, i < K ∧ y = root i := by
  obtain ⟨fr, js, hcl⟩ := Busy.calls h
  have h1 := Mem.mem_subs.2 ⟨w, hf⟩
  rw [hcl.subs] at h1
  obtain ⟨i, hi, e⟩ := List.mem_map.1 h1
  cases e
  exact ⟨i, ((hcl.mem i).1 hi).1, rfl⟩

include hd hp hroot in
/-- **C69 on `busy_pool` and `unit_pool`.** At any time, in any schedule: if no call's task needs more than `S` when executed serially, the frames of all tasks need no
more than `S` for each worker and each task that is in a submission list. -/
theorem C69_busy (hS : ∀ i, i < K → Needs (ctl body) size S (root i)) {s : B σ V E L} (h : Busy.Reach c body may K root dep m s) {ks : List Nat} (hk : ks.Nodup) :
    bytes size s.M.x.c ks ≤ (c.N + waiting s.M.x.c c.N) * S :=
  C69_space (disc_ctl hd) (Busy.reach_exn hd hp hroot h) (busy_within hd hp hroot h) (fun f y w hf => by
    obtain ⟨i, hi, rfl⟩ := busy_subs h hf
    exact hS i hi) hk

include hd hp hroot in
/-- **C69 on `busy_pool` and `unit_pool`,** for tasks that do not move themselves to other workers: `S` for each worker and each call whose task is not over. -/
theorem C69_busy_calls (hns : ∀ y d k x, body y ≠ .switch d k x) (hS : ∀ i, i < K → Needs (ctl body) size S (root i)) {s : B σ V E L}
    (h : Busy.Reach c body may K root dep m s) {O : List Nat} (hO : ∀ i f, s.caller i = .waiting f → i ∈ O ∨ ∃ r, Over s i r) {ks : List Nat} (hk : ks.Nodup) :
    bytes size s.M.x.c ks ≤ (c.N + O.length) * S := by
  refine Nat.le_trans (C69_busy hd hp hroot hS h hk) (Nat.mul_le_mul_right S (Nat.add_le_add_left ?_ _))
  obtain ⟨fr, js, hcl⟩ := Busy.calls h
  rw [← List.length_map (f := fr) (as := O)]
  refine waiting_le hd hp hns (Busy.reach_mem hd hp hroot h) (fun f y hf => ?_) _
  rw [hcl.subs] at hf
  obtain ⟨i, hi, e⟩ := List.mem_map.1 hf
  cases e
  have he := ((hcl.mem i).1 hi).2
  cases hc : s.caller i with
  | before => rw [hc] at he; cases he
  | picking => rw [hc] at he; cases he
  | back f r =>
    obtain ⟨h1, h2⟩ := hcl.back i f r hc
    rw [h1]; exact .inr ⟨r, h2⟩
  | waiting f =>
    have h1 := hcl.waiting i f hc
    rcases hO i f hc with h2 | ⟨r, g, h2, h3⟩
    · exact .inl (List.mem_map.2 ⟨i, h2, rfl⟩)
    · rw [hc] at h3
      rcases h3 with h3 | h3 <;> cases h3
      rw [h1]; exact .inr ⟨r, h2⟩
end busy

section lazy
open Verif.WholeM
variable {c : LazyPool.Cfg} {K : Nat} {root : Nat → σ} {dep : Nat → Nat → Prop}
  (hc : c.Ok) (hd : Disc body pend dirty) (hp : ∀ y, pend y ≤ 65534) (hroot : ∀ i, i < K → pend (root i) = 0)

include hc hd hp hroot in
theorem lazy_within {s : Y σ V E L} (h : WholeM.Reach c body may K root dep m s) : Within s.mem.x.c c.N := by
  obtain ⟨root', es, y, h1, h2, _, h3⟩ := WholeX.reach_shadow hc (disc_ctl hd) hp hroot (WholeM.reach_x h) (fun _ => .nil) fun _ => .nil
  have hi := Whole.reach_inv (pend := fun y : Exn.T σ E => pend y.1) hc (WholeX.roots_pend (disc_ctl hd) hroot h2) h1
  have hu := LazyPool.reach_sub hc hi.pool
  intro w hw
  refine ⟨?_, ?_⟩
  · have := hi.sync.idle w hw
    rw [show (WholeX.lower s.x y).r.pc = (WholeX.lower s.x y).rt.pc from rfl, h3.base.pc] at this
    exact this
  · show ((s.x.l.hand w ++ s.x.l.inbox w).map s.x.task) = []
    have e1 : s.x.l.hand w = [] := by
      cases e : s.x.l.hand w with
      | nil => rfl
      | cons j l => have := hu.lt2 j w ((hu.hand j w).1 (by show j ∈ s.x.l.hand w; rw [e]; exact List.mem_cons_self ..)); omega
    have e2 : s.x.l.inbox w = [] := by
      cases e : s.x.l.inbox w with
      | nil => rfl
      | cons j l => have := hu.lt1 j w ((hu.inbox j w).1 (by show j ∈ s.x.l.inbox w; rw [e]; exact List.mem_cons_self ..)); omega
    rw [e1, e2]; rfl

theorem lazy_subs {s : Y σ V E L} (h : WholeM.Reach c body may K root dep m s) {f : Nat} {y : σ} {w : Nat} (hf : Ev.submit f y w ∈ s.mem.x.c.log) : ∃ i, i < K ∧ y = root i := by
  obtain ⟨fr, js, hcl⟩ := WholeM.calls h
  have h1 : (f, y) ∈ subs s.x.x.c.log := Mem.mem_subs.2 ⟨w, hf⟩
  rw [hcl.subs] at h1
  obtain ⟨i, hi, e⟩ := List.mem_map.1 h1
  cases e
  exact ⟨i, ((hcl.mem i).1 hi).1, rfl⟩

include hc hd hp hroot in
/-- **C69 on `lazy_pool`.** The same. -/
theorem C69_lazy (hS : ∀ i, i < K → Needs (ctl body) size S (root i)) {s : Y σ V E L} (h : WholeM.Reach c body may K root dep m s) {ks : List Nat} (hk : ks.Nodup) :
    bytes size s.x.x.c ks ≤ (c.N + waiting s.mem.x.c c.N) * S :=
  C69_space (s := s.mem.x) (disc_ctl hd) (Exn.reach_of_bounded (disc_ctl hd) hp (Mem.reachAny_x (C64_refines hc hd hp hroot h))).1 (lazy_within hc hd hp hroot h) (fun f y w hf => by
    obtain ⟨i, hi, rfl⟩ := lazy_subs h hf
    exact hS i hi) hk

include hc hd hp hroot in
/-- **C69 on `lazy_pool`,** for tasks that do not move themselves to other workers: `S` for each worker and each call of `sync_wait` that has not returned. -/
theorem C69_lazy_calls (hns : ∀ y d k x, body y ≠ .switch d k x) (hS : ∀ i, i < K → Needs (ctl body) size S (root i)) {s : Y σ V E L}
    (h : WholeM.Reach c body may K root dep m s) {O : List Nat} (hO : ∀ i, i < K → i ∈ O ∨ ∃ r, s.x.caller i = .back r) {ks : List Nat} (hk : ks.Nodup) :
    bytes size s.x.x.c ks ≤ (c.N + O.length) * S := by
  refine Nat.le_trans (C69_lazy hc hd hp hroot hS h hk) (Nat.mul_le_mul_right S (Nat.add_le_add_left ?_ _))
  obtain ⟨fr, js, hcl⟩ := WholeM.calls h
  rw [← List.length_map (f := fr) (as := O)]
  refine waiting_le hd hp hns (C64_refines hc hd hp hroot h) (fun f y hf => ?_) _
  have hf : (f, y) ∈ subs s.x.x.c.log := hf
  rw [hcl.subs] at hf
  obtain ⟨i, hi, e⟩ := List.mem_map.1 hf
  cases e
  rcases hO i ((hcl.mem i).1 hi).1 with h2 | ⟨r, h2⟩
  · exact .inl (List.mem_map.2 ⟨i, h2, rfl⟩)
  · exact .inr ⟨r, hcl.back i r h2⟩
end lazy

end Verif.Space
