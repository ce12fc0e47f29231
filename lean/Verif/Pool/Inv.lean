import Verif.Pool.Model

/-! Invariants of busy_pool and unit_pool. -/
namespace Verif.Pool
open Verif.EventCount (upd upd_same upd_ne upd_apply num num_change num_congr num_zero num_pos num_le)

/-- Has seen `stop`. -/
def draining : Pc → Bool
  | .dpop | .drun | .fin1 | .fin2 | .fin3 | .fin4 => true
  | _ => false

/-- Has left its loops. -/
def left : Pc → Bool
  | .fin1 | .fin2 | .fin3 | .fin4 => true
  | _ => false

/-- Not yet arrived at `latch_stop`. -/
def before : Pc → Bool
  | .fin3 | .fin4 => false
  | _ => true

structure Sub (c : Cfg) (s : St) : Prop where
  inbox : ∀ j w, j ∈ s.inbox w ↔ s.loc j = .inbox w
  hand : ∀ j w, j ∈ s.hand w ↔ s.loc j = .hand w
  started : ∀ j, j ∈ s.started ↔ s.loc j = .started
  unsent : ∀ j, s.sent j = false ↔ s.loc j = .unsent
  nd1 : ∀ w, (s.inbox w).Nodup
  nd2 : ∀ w, (s.hand w).Nodup
  nd3 : s.started.Nodup
  lt1 : ∀ j w, s.loc j = .inbox w → w < c.N
  lt2 : ∀ j w, s.loc j = .hand w → w < c.N
  free : ∀ w, w < c.N → s.hand w ≠ [] → s.pc w = .run ∨ s.pc w = .drun

theorem start_sub (c : Cfg) : Sub c (St.start c) := by
  constructor <;> simp [St.start]

set_option maxHeartbeats 4000000 in
theorem sub_step {c : Cfg} {a : Actor} {s s' : St} (hs : Sub c s) (st : Step c a s s') : Sub c s' := by
  obtain ⟨h1, h2, h3, h4, n1, n2, n3, l1, l2, fr⟩ := hs
  have fr' : ∀ w, w < c.N → s'.hand w ≠ [] → s'.pc w = .run ∨ s'.pc w = .drun := by
    clear h1 h2 h3 h4 n1 n2 n3 l1 l2
    cases st <;> simp only [doPop, doRun, St.go, upd_apply] at * <;> grind
  have e0 : ∀ w, s.hand w = [] → ∀ j, s.loc j ≠ .hand w := fun w e j hj => by
    have := (h2 j w).2 hj; rw [e] at this; cases this
  have e1 : ∀ w, w < c.N → s.pc w ≠ .run → s.pc w ≠ .drun → s.hand w = [] := fun w hw p q => by
    apply Classical.byContradiction
    intro h; rcases fr w hw h with k | k
    · exact p k
    · exact q k
  have e2 : ∀ w j js, s.hand w = j :: js → s.loc j = .hand w := fun w j js e => (h2 j w).1 (by rw [e]; simp)
  have e3 : ∀ w j js, s.hand w = j :: js → j ∉ js ∧ js.Nodup ∧ ∀ k, k ∈ js → s.loc k = .hand w := fun w j js e => by
    have := n2 w; rw [e, List.nodup_cons] at this
    exact ⟨this.1, this.2, fun k hk => (h2 k w).1 (by rw [e]; simp [hk])⟩
  have e4 : ∀ w j js, s.hand w = j :: js → ∀ k, s.loc k = .hand w → k = j ∨ k ∈ js := fun w j js e k hk => by
    have := (h2 k w).2 hk; rw [e] at this; simpa using this
  have e5 : ∀ j, s.loc j ≠ .started → j ∉ s.started := fun j h hj => h ((h3 j).1 hj)
  refine ⟨?_, ?_, ?_, ?_, ?_, ?_, ?_, ?_, ?_, fr'⟩
  · cases st <;> simp only [doPop, doRun, St.go, upd_apply] at * <;> grind
  · cases st <;> simp only [doPop, doRun, St.go, upd_apply] at * <;> grind [List.nodup_cons]
  · cases st <;> simp only [doPop, doRun, St.go, upd_apply] at * <;> grind
  · cases st <;> simp only [doPop, doRun, St.go, upd_apply] at * <;> grind
  · cases st <;> simp only [doPop, doRun, St.go, upd_apply] at * <;> grind [List.nodup_cons]
  · cases st <;> simp only [doPop, doRun, St.go, upd_apply] at * <;> grind [List.nodup_cons]
  · cases st <;> simp only [doPop, doRun, St.go, upd_apply] at * <;> grind [List.nodup_cons]
  · cases st <;> simp only [doPop, doRun, St.go, upd_apply] at * <;> grind
  · cases st <;> simp only [doPop, doRun, St.go, upd_apply] at * <;> grind

theorem reach_sub {c : Cfg} {s : St} (h : Fair.Reach (sys c) s) : Sub c s := by
  induction h with
  | start h => rw [h]; exact start_sub c
  | step _ st ih => exact sub_step ih st

structure Stop (c : Cfg) (s : St) : Prop where
  drain : ∀ w, w < c.N → draining (s.pc w) = true → s.stop = true
  dstop : s.dpc ≠ .alive → s.stop = true
  /-- Only jobs that came after the request to stop are left behind. -/
  left : ∀ j w, s.loc j = .inbox w → left (s.pc w) = true → s.stopAt j = true
  gone : s.dpc = .gone → ∀ w, w < c.N → s.pc w = .fin4

theorem start_stop (c : Cfg) : Stop c (St.start c) := by
  constructor <;> simp [St.start, draining]

set_option maxHeartbeats 4000000 in
theorem stop_step {c : Cfg} {a : Actor} {s s' : St} (hb : Sub c s) (hs : Stop c s) (st : Step c a s s') : Stop c s' := by
  obtain ⟨h1, h2, h3, h4⟩ := hs
  have i1 : ∀ w, s.inbox w = [] → ∀ j, s.loc j ≠ .inbox w := fun w e j hj => by
    have := (hb.inbox j w).2 hj; rw [e] at this; cases this
  have i2 := hb.unsent
  have i3 := hb.lt1
  have i4 : ∀ p, Pool.left p = true → draining p = true := fun p => by cases p <;> simp [Pool.left, draining]
  clear hb
  constructor
  · cases st <;> simp only [doPop, doRun, St.go, upd_apply] at * <;> grind [draining]
  · cases st <;> simp only [doPop, doRun, St.go, upd_apply] at * <;> grind
  · cases st <;> simp only [doPop, doRun, St.go, upd_apply] at * <;> grind [left, draining]
  · cases st <;> simp only [doPop, doRun, St.go, upd_apply] at * <;> grind

theorem reach_stop {c : Cfg} {s : St} (h : Fair.Reach (sys c) s) : Stop c s := by
  induction h with
  | start h => rw [h]; exact start_stop c
  | step hr st ih => exact stop_step (reach_sub hr) ih st

/-- A step changes the place of its own worker only. -/
theorem others {c : Cfg} {a : Actor} {s s' : St} (st : Step c a s s') (u : Nat) (h : a ≠ .worker u) :
    s'.pc u = s.pc u ∧ s'.hand u = s.hand u := by
  cases st <;> simp only [doPop, doRun, St.go, upd_apply] at * <;> grind

/-- busy_pool only. -/
structure Latch (c : Cfg) (s : St) : Prop where
  latch : s.latch = num c.N fun w => before (s.pc w)
  fin : ∀ w, w < c.N → s.pc w = .fin4 → s.latch = 0

theorem start_latch (c : Cfg) : Latch c (St.start c) := by
  constructor <;> simp [St.start, num, before]

set_option maxHeartbeats 4000000 in
theorem latch_step {c : Cfg} (hu : c.unit = false) {a : Actor} {s s' : St} (h : Latch c s) (st : Step c a s s') : Latch c s' := by
  obtain ⟨h1, h2⟩ := h
  constructor
  · cases a with
    | worker w =>
      have hw : w < c.N := by cases st <;> assumption
      have hk := num_change (f := fun u => before (s.pc u)) (g := fun u => before (s'.pc u)) hw
        fun u hu' => by rw [(others st u (by simp; exact fun e => hu' e.symm)).1]
      generalize (num c.N fun u => before (s'.pc u)) = x at *
      generalize (num c.N fun u => before (s.pc u)) = y at *
      clear h2
      cases st <;> simp only [doPop, doRun, St.go, upd_apply] at * <;> grind [before]
    | submit j =>
      rw [num_congr (g := fun u => before (s.pc u)) fun u _ => by rw [(others st u (by simp)).1]]
      cases st; exact h1
    | dtor =>
      rw [num_congr (g := fun u => before (s.pc u)) fun u _ => by rw [(others st u (by simp)).1]]
      cases st <;> exact h1
  · clear h1
    cases st <;> simp only [doPop, doRun, St.go, upd_apply] at * <;> grind

theorem reach_latch {c : Cfg} (hu : c.unit = false) {s : St} (h : Fair.Reach (sys c) s) : Latch c s := by
  induction h with
  | start h => rw [h]; exact start_latch c
  | step hr st ih => exact latch_step hu ih st

end Verif.Pool
