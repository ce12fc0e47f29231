import Verif.Early.Props
import Verif.WholeM.Props
import Verif.Busy.Props

/-! C68 for whole programs on pools. -/
namespace Verif.Early
open Verif.Mem
open Verif.Runtime (Ev)

variable {σ V E L : Type} [DecidableEq L]
variable {body : σ → Act σ V E L} {may : E → Prop} {ok : (σ → Prop) → σ → Prop} {m : L → E} {pend : σ → Nat} {dirty : σ → Prop} {χ : Nat → Prop}
variable {K : Nat} {root : Nat → σ} {dep : Nat → Nat → Prop}

theorem roots_nodup {a : FJ σ V E L} (h : FJ.Reach body may ok m a) : (a.roots.map Prod.fst).Nodup := by
  induction h with
  | start y => exact List.nodup_nil
  | @submit a n c h0 _ h2 ih =>
    show ((n, c) :: a.roots |>.map Prod.fst).Nodup
    rw [List.map_cons, List.nodup_cons]
    refine ⟨fun hn => ?_, ih⟩
    obtain ⟨p, hp, e⟩ := List.mem_map.1 hn
    exact roots_live h0 p hp (by rw [e]; exact h2)
  | @step a b f _ h1 ih =>
    obtain ⟨u, hu⟩ := view h1
    rw [hu.eq]; exact ih

omit [DecidableEq L] in
theorem nodup_inj {α β γ : Type} {js : List α} {f : α → β} {g : α → γ} (h : ((js.map fun i => (f i, g i)).map Prod.fst).Nodup) {i j : α} (hi : i ∈ js) (hj : j ∈ js)
    (e : f i = f j) : i = j := by
  induction js with
  | nil => cases hi
  | cons k js ih =>
    simp only [List.map_cons, List.nodup_cons, List.map_map] at h
    rcases List.mem_cons.1 hi with rfl | hi' <;> rcases List.mem_cons.1 hj with rfl | hj'
    · rfl
    · exact absurd (List.mem_map.2 ⟨j, hj', e.symm⟩) h.1
    · exact absurd (List.mem_map.2 ⟨i, hi', e⟩) h.1
    · exact ih (by rw [List.map_map]; exact h.2) hi' hj'

omit [DecidableEq L] in
theorem nodup_pair {l : List (Nat × Except E V)} (h : (l.map Prod.fst).Nodup) {i : Nat} {r r' : Except E V} (h1 : (i, r) ∈ l) (h2 : (i, r') ∈ l) : r = r' := by
  induction l with
  | nil => cases h1
  | cons q l ih =>
    simp only [List.map_cons, List.nodup_cons] at h
    rcases List.mem_cons.1 h1 with rfl | h1 <;> rcases List.mem_cons.1 h2 with e | h2
    · cases e; rfl
    · exact absurd (List.mem_map_of_mem (f := Prod.fst) h2) h.1
    · rw [← e] at h; exact absurd (List.mem_map_of_mem (f := Prod.fst) h1) h.1
    · exact ih h.2 h1 h2

variable [Inhabited E]

/-- What was submitted were the tasks of the calls `js`, newest first. -/
theorem calls_runs (hd : Disc body pend dirty) (hp : ∀ O c, ok O c → pend c = 0) (hmono : Mono ok) (hrf : RaceFree body may ok m) {s : MS σ V E L}
    (h : Reach body pend may ok m s) {fr : Nat → Nat} {js : List Nat} (hs : subs s.x.c.log = js.map fun i => (fr i, root i)) :
    ∃ (l : List (Nat × Except E V)) (m1 : L → E), (l.map Prod.fst).Sublist js.reverse ∧ (∀ q ∈ l, Ev.done (fr q.1) q.2 ∈ s.x.c.log) ∧
      (∀ i ∈ js, ∀ r, Ev.done (fr i) r ∈ s.x.c.log → (i, r) ∈ l) ∧ Runs body may m (l.map fun q => (root q.1, q.2)) m1 ∧
      ∀ x, (∀ i ∈ js, (∀ r, Ev.done (fr i) r ∉ s.x.c.log) → Spares body x (root i)) → s.m x = m1 x := by
  obtain ⟨ls, m1, h1, h2, h3, h4, h5⟩ := C68_runtime hd hp hmono hrf h
  have hn : ((js.map fun i => (fr i, root i)).map Prod.fst).Nodup := by
    obtain ⟨a, ha, _, _, hroots, _⟩ := C61_refines hd h
    rw [← hs, ← hroots]; exact roots_nodup ha
  rw [hs, ← List.map_reverse] at h1
  obtain ⟨ks, h6, h7⟩ := List.sublist_map_iff.1 h1
  have key : ∀ (ks : List Nat) (ls : List (Nat × σ × Except E V)), ls.map (fun p => (p.1, p.2.1)) = ks.map (fun i => (fr i, root i)) →
      ∃ l : List (Nat × Except E V), l.map Prod.fst = ks ∧ l.map (fun q => (fr q.1, root q.1, q.2)) = ls := by
    intro ks
    induction ks with
    | nil => intro ls e; exact ⟨[], rfl, by simpa using e.symm⟩
    | cons k ks ih =>
      intro ls e
      cases ls with
      | nil => cases e
      | cons p ls =>
        obtain ⟨f, y, r⟩ := p
        simp only [List.map_cons, List.cons.injEq, Prod.mk.injEq] at e
        obtain ⟨⟨rfl, rfl⟩, e⟩ := e
        obtain ⟨l, a1, a2⟩ := ih ls e
        exact ⟨(k, r) :: l, by simp [a1], by simp [a2]⟩
  obtain ⟨l, rfl, rfl⟩ := key ks ls h7
  refine ⟨l, m1, h6, fun q hq => h2 _ (List.mem_map_of_mem (f := fun q : Nat × Except E V => (fr q.1, root q.1, q.2)) hq), fun i hi r hr => ?_, ?_, fun x hx => ?_⟩
  · obtain ⟨q, hq, e⟩ := List.mem_map.1 (h3 (fr i) (root i) r (by rw [hs]; exact List.mem_map_of_mem (f := fun i => (fr i, root i)) hi) hr)
    obtain ⟨k, r'⟩ := q
    simp only [Prod.mk.injEq] at e
    obtain ⟨e1, _, rfl⟩ := e
    have : k = i := nodup_inj hn (List.mem_reverse.1 (h6.subset (List.mem_map_of_mem (f := Prod.fst) hq))) hi e1
    rw [← this]; exact hq
  · rw [List.map_map] at h4; exact h4
  · refine h5 x fun f y hf hnd => ?_
    rw [hs] at hf
    obtain ⟨i, hi, e⟩ := List.mem_map.1 hf
    cases e
    exact hx i hi hnd

/-- C68, `sync_wait` on a `lazy_pool`: at any time, of the calls whose tasks are over (`l`; all that have returned are among them) results and memory are as if they
had been made one after another, on one thread, in an order that respects that of the calls: at every location that no call that has not returned may write. -/
theorem C68_sync_wait {c : LazyPool.Cfg} (hc : c.Ok) (hd : Disc body pend dirty) (hp : ∀ x, pend x ≤ 65534) (hroot : ∀ i, i < K → pend (root i) = 0)
    (hrf : RaceFree body may (WholeM.Together K root dep) m) {s : WholeM.Y σ V E L} (h : WholeM.Reach c body may K root dep m s) :
    ∃ (l : List (Nat × Except E V)) (m1 : L → E), (l.map Prod.fst).Nodup ∧ (∀ i r, s.x.caller i = .back r → (i, r) ∈ l) ∧
      (∀ q ∈ l, q.1 < K ∧ s.x.caller q.1 ≠ .before ∧ ∀ r, s.x.caller q.1 = .back r → r = q.2) ∧ l.Pairwise (fun q q' => ¬ dep q.1 q'.1) ∧
      Runs body may m (l.map fun q => (root q.1, q.2)) m1 ∧
      ∀ x, (∀ i, i < K → s.x.caller i ≠ .before → (∀ r, s.x.caller i ≠ .back r) → Spares body x (root i)) → s.m x = m1 x := by
  obtain ⟨fr, js, hcl⟩ := WholeM.calls h
  have hr := (Mem.C61_bounded hd hp (WholeM.C64_refines hc hd hp hroot h)).1
  obtain ⟨l, m1, h1, h2, h3, h4, h5⟩ := calls_runs hd (fun O y ⟨i, hi, e, _⟩ => by rw [e]; exact hroot i hi) WholeM.together_mono hrf hr hcl.subs
  have hback : ∀ i r, s.x.caller i = .back r → i ∈ js := fun i r e => (hcl.mem i).2 ⟨hcl.lt i (by rw [e]; simp), by rw [e]; rfl⟩
  have hnd : (l.map Prod.fst).Nodup := h1.nodup (List.pairwise_reverse.2 (hcl.nodup.imp Ne.symm))
  refine ⟨l, m1, hnd, fun i r e => h3 i (hback i r e) r (hcl.back i r e), fun q hq => ?_, ?_, h4, fun x hx => h5 x fun i hi hn => ?_⟩
  · have hq' : q.1 ∈ js := List.mem_reverse.1 (h1.subset (List.mem_map_of_mem (f := Prod.fst) hq))
    obtain ⟨e1, e2⟩ := (hcl.mem q.1).1 hq'
    refine ⟨e1, (fun e => by rw [e] at e2; cases e2), fun r e => ?_⟩
    have := h3 q.1 hq' r (hcl.back q.1 r e)
    exact nodup_pair hnd this hq
  · have := (List.pairwise_reverse.2 hcl.ord).sublist h1
    rw [List.pairwise_map] at this
    exact this
  · obtain ⟨e1, e2⟩ := (hcl.mem i).1 hi
    exact hx i e1 (fun e => by rw [e] at e2; cases e2) fun r e => hn r (hcl.back i r e)

/-- C68, `schedule` on a `busy_pool` or `unit_pool`: at any time, of the calls whose tasks are over results and memory are as if they had been made one after another, on
one thread, in an order that respects that of the calls: at every location that no task that was scheduled and is not over may write. -/
theorem C68_schedule {c : Pool.Cfg} (hd : Disc body pend dirty) (hp : ∀ x, pend x ≤ 65534) (hroot : ∀ i, i < K → pend (root i) = 0)
    (hrf : RaceFree body may (Busy.Together K root dep) m) {s : Busy.B σ V E L} (h : Busy.Reach c body may K root dep m s) :
    ∃ (l : List (Nat × Except E V)) (m1 : L → E), (l.map Prod.fst).Nodup ∧ (∀ i r, (i, r) ∈ l ↔ Busy.Over s i r) ∧ l.Pairwise (fun q q' => ¬ dep q.1 q'.1) ∧
      Runs body may m (l.map fun q => (root q.1, q.2)) m1 ∧
      ∀ x, (∀ i, i < K → s.caller i ≠ .before → (∀ r, ¬ Busy.Over s i r) → Spares body x (root i)) → s.M.m x = m1 x := by
  obtain ⟨fr, js, hcl⟩ := Busy.calls h
  have hr := (Mem.C61_bounded hd hp (Busy.C67_refines hd hp hroot h)).1
  obtain ⟨l, m1, h1, h2, h3, h4, h5⟩ := calls_runs hd (fun O y ⟨i, hi, e, _⟩ => by rw [e]; exact hroot i hi) Busy.together_mono hrf hr hcl.subs
  have hnd : (l.map Prod.fst).Nodup := h1.nodup (List.pairwise_reverse.2 (hcl.nodup.imp Ne.symm))
  have hover : ∀ i ∈ js, ∀ r, Ev.done (fr i) r ∈ s.M.x.c.log → Busy.Over s i r := by
    intro i hi r hd'
    have e := ((hcl.mem i).1 hi).2
    cases hca : s.caller i with
    | before | picking => rw [hca] at e; cases e
    | waiting f => rw [hcl.waiting i f hca] at hd'; exact ⟨f, hd', .inl hca⟩
    | back f r' =>
      obtain ⟨e1, e2⟩ := hcl.back i f r' hca
      have hi' : (i, r') ∈ l := h3 i hi r' (by rw [e1]; exact e2)
      rw [nodup_pair hnd (h3 i hi r hd') hi']
      exact ⟨f, e2, .inr hca⟩
  have hin : ∀ i r, (i, r) ∈ l → i ∈ js := fun i r hq => List.mem_reverse.1 (h1.subset (List.mem_map_of_mem (f := Prod.fst) hq))
  refine ⟨l, m1, hnd, fun i r => ⟨fun hq => hover i (hin i r hq) r (h2 _ hq), ?_⟩, ?_, h4, fun x hx => h5 x fun i hi hn => ?_⟩
  · rintro ⟨f, e1, e2⟩
    have hf : fr i = f ∧ i ∈ js := by
      rcases e2 with e | e
      · exact ⟨hcl.waiting i f e, (hcl.mem i).2 ⟨hcl.lt i (by rw [e]; simp), by rw [e]; rfl⟩⟩
      · exact ⟨(hcl.back i f r e).1, (hcl.mem i).2 ⟨hcl.lt i (by rw [e]; simp), by rw [e]; rfl⟩⟩
    exact h3 i hf.2 r (by rw [hf.1]; exact e1)
  · have := (List.pairwise_reverse.2 hcl.ord).sublist h1
    rw [List.pairwise_map] at this
    exact this
  · obtain ⟨e1, e2⟩ := (hcl.mem i).1 hi
    refine hx i e1 (fun e => by rw [e] at e2; cases e2) fun r ⟨f, e3, e4⟩ => hn r ?_
    rcases e4 with e | e
    · rw [hcl.waiting i f e]; exact e3
    · rw [(hcl.back i f r e).1]; exact e3

end Verif.Early
