import Verif.Scan.Spec
import Verif.Scan.Run
import Verif.Scan.Type
import Verif.Scan.Cells
import Verif.Mem.FootReach

/-! C66: `lf::scan` executed by the runtime. -/
namespace Verif.Scan
open Verif.Runtime (Ev Few)
open Verif.Sync (St seen ReachAny Safe pendS okS)
open Verif.Mem (MS FJ subs Apart)
open Verif.Algo (Loc)

variable {V : Type} [Inhabited V]

theorem pend_le {L : Type} (y : T L V) : pend y ≤ 65534 := by
  cases y with
  | go p c => cases p <;> simp [pend]
  | lost p => cases p <;> simp [pend]
  | fail => simp [pend]

theorem safe : Safe (body : T Loc V → _) (fun _ => False) ok J := by
  refine ⟨calm, fun _ => False, ⟨fun h => h.elim, fun h => h.elim, fun h => h.elim, fun h => h.elim, fun h => h.elim, fun h => h.elim, fun h => h.elim⟩, ?_⟩
  rintro O y ⟨c, rfl, ⟨Q, h⟩, -⟩
  exact .inr ⟨Q, by simp, h⟩

theorem mono : Mem.Mono (ok : (T Loc V → Prop) → _) := by
  rintro O O' h c ⟨c, rfl, h1, h2, h3⟩
  exact ⟨c, rfl, h1, h2, fun y' hy => h3 y' (h _ hy)⟩

theorem roots : (foot : Mem.Foot (St (T Loc V)) Loc).Roots (okS pend ok) := by
  rintro O y ⟨y, rfl, -, ⟨c, rfl, -, h2, h3⟩, h4⟩
  refine ⟨h2, fun c' hc => ?_⟩
  obtain ⟨y', rfl⟩ := h4 c' hc
  obtain ⟨c', rfl, h⟩ := h3 y' hc
  exact h

theorem raceFree (m : Loc → V) : Mem.RaceFree (seen (body : T Loc V → _)) (fun _ => False) (okS pend ok) m :=
  Mem.C62_footprint (Sync.disc_seen disc) (fun O c ⟨y, e, hp, _⟩ => by rw [e]; exact hp) foot_ok roots

theorem runs_tasks (qs : List (Nat × C Loc V)) : ∀ {ls : List (Nat × St (T Loc V) × Except V Nat)} {m m' : Loc → V},
    ls.map (fun p => (p.1, p.2.1)) = qs.map (fun q => (q.1, .here (.go false q.2))) → (∀ q ∈ qs, ∃ Q, Ty q.2 [] Q) →
    Mem.Runs (seen body) (fun _ => False) m (ls.map Prod.snd) m' →
    ∃ l : List (Nat × C Loc V × Nat), l.map (fun q => (q.1, q.2.1)) = qs ∧ l.map (fun q => (q.1, Except.ok q.2.2)) = ls.map (fun q => (q.1, q.2.2)) ∧
      Runs m (l.map Prod.snd) m' := by
  induction qs with
  | nil =>
    intro ls m m' h _ hr
    have : ls = [] := by simpa using h
    subst this
    cases hr
    exact ⟨[], rfl, rfl, .nil⟩
  | cons q qs ih =>
    intro ls m m' h hq hr
    cases ls with
    | nil => cases h
    | cons a ls =>
      obtain ⟨f, c, r⟩ := a
      simp only [List.map_cons, List.cons.injEq, Prod.mk.injEq] at h
      obtain ⟨⟨rfl, rfl⟩, h⟩ := h
      cases hr with
      | cons h1 h2 =>
        obtain ⟨Q, hQ⟩ := hq q (by simp)
        obtain ⟨v, rfl, -, h3⟩ := ser h1 [] Q rfl rfl ⟨[], .nil, by simp, hQ⟩
        obtain ⟨l, e1, e2, e3⟩ := ih h (fun q hq' => hq q (by simp [hq'])) h2
        refine ⟨(q.1, q.2, v) :: l, ?_, ?_, .cons h3 e3⟩
        · simp [e1]
        · simp [e2]

/-- **C66.** Coroutines of the kind `scan` is made of - they access memory, fork, call and join others, and ask with `sync_outside` forks whether a
child has completed -, submitted to the runtime at any time, to any worker, and run by any number of workers with any schedule and any
steals, as long as those that run at the same time have no conflict: when all have ended, memory and what they returned are as if they had been
run one after another by one thread, with some answers of the `sync_outside` forks. -/
theorem C66_tasks {m : Loc → V} {s : MS (St (T Loc V)) Nat V Loc} (h : ReachAny body pend (fun _ => False) ok m s) {qs : List (Nat × C Loc V)}
    (hq : (subs s.x.c.log).reverse = qs.map fun q => (q.1, .here (.go false q.2))) (ht : ∀ q ∈ qs, ∃ Q, Ty q.2 [] Q)
    (hz : ∀ q ∈ qs, ∃ r, Ev.done q.1 r ∈ s.x.c.log) :
    ∃ l : List (Nat × C Loc V × Nat), l.map (fun q => (q.1, q.2.1)) = qs ∧ (∀ q ∈ l, Ev.done q.1 (.ok q.2.2) ∈ s.x.c.log) ∧ Runs m (l.map Prod.snd) s.m := by
  obtain ⟨hr, -⟩ := Sync.C65_bounded disc safe pend_le h
  obtain ⟨ls, h1, h2, h3⟩ := Sync.C65_runtime disc safe mono (raceFree m) hr (by
    intro f c w hf
    have hm : (f, c) ∈ (subs s.x.c.log).reverse := List.mem_reverse.2 (Mem.mem_subs.2 ⟨w, hf⟩)
    rw [hq] at hm
    obtain ⟨q, hq', e⟩ := List.mem_map.1 hm
    cases e
    exact hz q hq')
  rw [hq] at h1
  obtain ⟨l, e1, e2, e3⟩ := runs_tasks qs h1 ht h3
  refine ⟨l, e1, fun q hq' => ?_, e3⟩
  have hm : (q.1, (Except.ok q.2.2 : Except V Nat)) ∈ l.map (fun q => (q.1, (Except.ok q.2.2 : Except V Nat))) := List.mem_map.2 ⟨q, hq', rfl⟩
  rw [e2] at hm
  obtain ⟨p, hp, e⟩ := List.mem_map.1 hm
  simp only [Prod.mk.injEq] at e
  have := h2 p hp
  rwa [e.1, e.2] at this

/-- **C66.** No two workers ever access the same location at the same time, unless both read it. -/
theorem C66_no_race {m : Loc → V} {s : MS (St (T Loc V)) Nat V Loc} (h : ReachAny body pend (fun _ => False) ok m s) : ¬ s.Race (seen body) := by
  obtain ⟨hr, -⟩ := Sync.C65_bounded disc safe pend_le h
  exact Mem.C62_no_race (Sync.disc_seen disc) (raceFree m) (Sync.reach disc safe hr).1

/-- **C66.** Nothing is undefined. -/
theorem C66_no_ub {m : Loc → V} {s : MS (St (T Loc V)) Nat V Loc} (h : ReachAny body pend (fun _ => False) ok m s) (w : Nat) (ch : Exn.Choice V) :
    Sync.step body w ch s ≠ .ub := by
  obtain ⟨hr, hf⟩ := Sync.C65_bounded disc safe pend_le h
  exact Sync.C65_no_ub disc safe hr hf w ch

/-- **C66.** A worker inside a task can always go on. -/
theorem C66_proceeds {m : Loc → V} {s : MS (St (T Loc V)) Nat V Loc} (h : ReachAny body pend (fun _ => False) ok m s) (w : Nat) (ch : Runtime.Choice)
    (hw : s.x.c.pc w ≠ .idle) : ∃ s', Sync.step body w (.go ch) s = .ok s' := by
  obtain ⟨hr, hf⟩ := Sync.C65_bounded disc safe pend_le h
  exact Sync.C65_proceeds disc safe hr hf w ch hw

omit [Inhabited V] in
theorem apart_jobs {j k : Job V} (hj : j.Fit) (hk : k.Fit) (h : j.Free k) : Apart (Acc j.code) (Wr j.code) (Acc k.code) (Wr k.code) := by
  have f1 := scan_foot j.pr j.op hj.range.idx j.n j.path
  have f2 := scan_foot k.pr k.op hk.range.idx k.n k.path
  have own : ∀ l, Algo.Own j.path l → Algo.Own k.path l → False := by
    rintro l ⟨q, i, rfl⟩ ⟨q', i', e⟩
    simp only [Loc.tmp.injEq] at e
    have e := e.1
    rcases Nat.le_total j.path.length k.path.length with hl | hl
    · exact h.name.1 (List.suffix_of_suffix_length_le ⟨q, e⟩ ⟨q', rfl⟩ hl)
    · exact h.name.2 (List.suffix_of_suffix_length_le ⟨q', e.symm⟩ ⟨q, rfl⟩ hl)
  intro l
  refine ⟨fun a b => ?_, fun a b => ?_⟩
  · rcases f1.wr l a with ⟨x, rfl, hx⟩ | ho
    · rcases f2.acc _ b with ⟨y, e, hy⟩ | ⟨_, _, e⟩
      · cases e
        have := h.out x hx.1 hx.2
        rcases hy with hy | hy
        · exact this.1 hy
        · exact this.2 hy
      · cases e
    · rcases f2.acc _ b with ⟨y, rfl, hy⟩ | ho'
      · obtain ⟨_, _, e⟩ := ho; cases e
      · exact own l ho ho'
  · rcases f2.wr l a with ⟨x, rfl, hx⟩ | ho
    · rcases f1.acc _ b with ⟨y, e, hy⟩ | ⟨_, _, e⟩
      · cases e
        rcases hy with hy | hy
        · exact h.inp x hx.1 hx.2 hy
        · exact (h.out x hy.1 hy.2).2 hx
      · cases e
    · rcases f1.acc _ b with ⟨y, rfl, hy⟩ | ho'
      · obtain ⟨_, _, e⟩ := ho; cases e
      · exact own l ho' ho

theorem ok_of_job {O : T Loc V → Prop} {y : T Loc V} (h : okJob O y) : ok O y := by
  obtain ⟨j, rfl, hj, h⟩ := h
  refine ⟨j.code, rfl, ⟨_, ty_scan j.pr j.op j.n hj.chunk j.path j.src j.dst j.len⟩, (scan_foot j.pr j.op hj.range.idx j.n j.path).race, fun y' hy => ?_⟩
  obtain ⟨k, rfl, hk, hf⟩ := h y' hy
  exact ⟨k.code, rfl, apart_jobs hj hk hf⟩

/-- Scans may be submitted like other coroutines. -/
theorem C66_jobs {m : Loc → V} {s : MS (St (T Loc V)) Nat V Loc} (h : ReachAny body pend (fun _ => False) okJob m s) : ReachAny body pend (fun _ => False) ok m s := by
  induction h with
  | start y => exact .start y
  | submit w _ hp ho ih => exact .submit w ih hp (ok_of_job ho)
  | step _ h1 h2 ih => exact .step ih h1 h2

omit [Inhabited V] in
theorem runs_scans (js : List (Nat × Job V)) : ∀ {l : List (Nat × C Loc V × Nat)} {m m' : Loc → V}, l.map (fun q => (q.1, q.2.1)) = js.map (fun j => (j.1, j.2.code)) →
    (∀ j ∈ js, j.2.Fit) → Runs m (l.map Prod.snd) m' → (∀ q ∈ l, q.2.2 = 0) ∧ Scans m (js.map Prod.snd) m' := by
  induction js with
  | nil =>
    intro l m m' h _ hr
    have : l = [] := by simpa using h
    subst this
    cases hr
    exact ⟨(fun q hq => nomatch hq), .nil⟩
  | cons j js ih =>
    intro l m m' h hj hr
    cases l with
    | nil => cases h
    | cons a l =>
      obtain ⟨f, c, v⟩ := a
      simp only [List.map_cons, List.cons.injEq, Prod.mk.injEq] at h
      obtain ⟨⟨rfl, rfl⟩, h⟩ := h
      cases hr with
      | cons h1 h2 =>
        have hf := hj j (by simp)
        obtain ⟨rfl, h3, h4⟩ := scan_post j.2.pr j.2.op hf.assoc hf.chunk j.2.path hf.range h1
        obtain ⟨e1, e2⟩ := ih h (fun q hq' => hj q (by simp [hq'])) h2
        refine ⟨fun q hq => ?_, .cons ⟨h3, h4⟩ e2⟩
        rcases List.mem_cons.1 hq with rfl | hq
        · rfl
        · exact e1 q hq

/-- **C66.** Any number of calls of `scan`, submitted at any time and run at the same time with any schedule and any steals, of which those that run at the same
time do not overlap: when all have ended, memory is as if each had run alone, in the order of submission, and each had set each of its outputs to the left
fold of the inputs up to there, and nothing else. None threw. -/
theorem C66_scans {m : Loc → V} {s : MS (St (T Loc V)) Nat V Loc} (h : ReachAny body pend (fun _ => False) okJob m s) {js : List (Nat × Job V)}
    (hq : (subs s.x.c.log).reverse = js.map fun j => (j.1, .here (.go false j.2.code))) (hf : ∀ j ∈ js, j.2.Fit)
    (hz : ∀ j ∈ js, ∃ r, Ev.done j.1 r ∈ s.x.c.log) : (∀ j ∈ js, Ev.done j.1 (.ok 0) ∈ s.x.c.log) ∧ Scans m (js.map Prod.snd) s.m := by
  obtain ⟨l, h1, h2, h3⟩ := C66_tasks (C66_jobs h) (qs := js.map fun j => (j.1, j.2.code)) (by rw [hq, List.map_map]; rfl)
    (by
      intro q hq
      obtain ⟨j, hj, rfl⟩ := List.mem_map.1 hq
      exact ⟨_, ty_scan j.2.pr j.2.op j.2.n (hf j hj).chunk j.2.path j.2.src j.2.dst j.2.len⟩)
    (by
      intro q hq
      obtain ⟨j, hj, rfl⟩ := List.mem_map.1 hq
      exact hz j hj)
  obtain ⟨h4, h5⟩ := runs_scans js h1 hf h3
  refine ⟨fun j hj => ?_, h5⟩
  have hm : (j.1, j.2.code) ∈ l.map (fun q => (q.1, q.2.1)) := by rw [h1]; exact List.mem_map.2 ⟨j, hj, rfl⟩
  obtain ⟨q, hq, e⟩ := List.mem_map.1 hm
  simp only [Prod.mk.injEq] at e
  have := h2 q hq
  rwa [e.1, h4 q hq] at this

/-- **C66.** One call of `scan`. -/
theorem C66_scan {m : Loc → V} {s : MS (St (T Loc V)) Nat V Loc} (h : ReachAny body pend (fun _ => False) okJob m s) {j : Job V} (hf : j.Fit) {f : Nat}
    (hs : subs s.x.c.log = [(f, .here (.go false j.code))]) {r : Except V Nat} (hd : Ev.done f r ∈ s.x.c.log) :
    r = .ok 0 ∧ (∀ i < j.len, s.m (.cell (j.dst + i)) = ((Algo.cells m (j.src + 1) i).map j.pr).foldl j.op (j.pr (m (.cell j.src)))) ∧
      ∀ a, ¬ (j.dst ≤ a ∧ a < j.dst + j.len) → s.m (.cell a) = m (.cell a) := by
  obtain ⟨h1, h2⟩ := C66_scans h (js := [(f, j)]) (by rw [hs]; rfl) (by intro q hq; cases List.mem_singleton.1 hq; exact hf)
    (by intro q hq; cases List.mem_singleton.1 hq; exact ⟨r, hd⟩)
  cases h2 with
  | cons h3 h4 =>
    cases h4
    refine ⟨?_, h3⟩
    obtain ⟨hr, -⟩ := Sync.C65_bounded disc safe pend_le (C66_jobs h)
    obtain ⟨a, -, -, -, -, hdn, -⟩ := Sync.C65_refines disc safe hr
    have e := ((hdn f r).2 hd).symm.trans ((hdn f (.ok 0)).2 (h1 (f, j) (by simp)))
    cases e
    rfl

omit [Inhabited V] in
theorem scans_keep {m m' : Loc → V} {js : List (Job V)} (h : Scans m js m') : ∀ a, (∀ j ∈ js, ¬ (j.dst ≤ a ∧ a < j.dst + j.len)) → m' (.cell a) = m (.cell a) := by
  induction h with
  | nil => intro a _; rfl
  | cons h1 _ ih => intro a ha; rw [ih a fun j hj => ha j (List.mem_cons_of_mem _ hj), h1.2 a (ha _ List.mem_cons_self)]

omit [Inhabited V] in
theorem scans_free {m m' : Loc → V} {js : List (Job V)} (h : Scans m js m') (hp : js.Pairwise Job.Free) : ∀ j ∈ js, ∀ i < j.len,
    m' (.cell (j.dst + i)) = ((Algo.cells m (j.src + 1) i).map j.pr).foldl j.op (j.pr (m (.cell j.src))) := by
  induction h with
  | nil => intro j hj; cases hj
  | @cons m m1 m2 j0 l h1 h2 ih =>
    intro j hj i hi
    obtain ⟨hp1, hp2⟩ := List.pairwise_cons.1 hp
    rcases List.mem_cons.1 hj with rfl | hj
    · rw [scans_keep h2 _ (fun k hk => ((hp1 k hk).out (j.dst + i) (by omega) (by omega)).2), h1.1 i hi]
    · rw [ih hp2 j hj i hi]
      have keep : ∀ b, j.src ≤ b → b < j.src + j.len → m1 (.cell b) = m (.cell b) := fun b hb1 hb2 =>
        h1.2 b fun hc => ((hp1 j hj).out b hc.1 hc.2).1 ⟨hb1, hb2⟩
      rw [keep j.src (by omega) (by omega)]
      congr 2
      unfold Algo.cells
      apply List.map_congr_left
      intro x hx
      have := List.mem_range.1 hx
      exact keep _ (by omega) (by omega)

/-- **C66.** Calls none of which overlaps another, even if they all run at the same time: each output is the left fold of what was in memory at the start. -/
theorem C66_concurrent {m : Loc → V} {s : MS (St (T Loc V)) Nat V Loc} (h : ReachAny body pend (fun _ => False) okJob m s) {js : List (Nat × Job V)}
    (hq : (subs s.x.c.log).reverse = js.map fun j => (j.1, .here (.go false j.2.code))) (hf : ∀ j ∈ js, j.2.Fit)
    (hp : (js.map Prod.snd).Pairwise Job.Free) (hz : ∀ j ∈ js, ∃ r, Ev.done j.1 r ∈ s.x.c.log) :
    (∀ j ∈ js, ∀ i < j.2.len, s.m (.cell (j.2.dst + i)) = ((Algo.cells m (j.2.src + 1) i).map j.2.pr).foldl j.2.op (j.2.pr (m (.cell j.2.src)))) ∧
      ∀ a, (∀ j ∈ js, ¬ (j.2.dst ≤ a ∧ a < j.2.dst + j.2.len)) → s.m (.cell a) = m (.cell a) := by
  obtain ⟨-, h2⟩ := C66_scans h hq hf hz
  refine ⟨fun j hj => scans_free h2 hp j.2 (List.mem_map.2 ⟨j, hj, rfl⟩), fun a ha => scans_keep h2 a fun k hk => ?_⟩
  obtain ⟨j, hj, rfl⟩ := List.mem_map.1 hk
  exact ha j hj

end Verif.Scan
