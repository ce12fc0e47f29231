import Verif.Busy.Eff
import Verif.Pool.Inv

/-! Invariants of the workers, their lists and the destructor. -/
namespace Verif.Busy
open Verif.Runtime (Res Ev upd upd_apply upd_same upd_ne)
open Verif.Exn (XS Choice)
open Verif.Mem (MS Act Allowed ctl Disc disc_ctl)
open Verif.Pool (Pc DPc Cfg draining left before)
open Verif.EventCount (num num_change num_congr num_zero)

variable {σ V E L : Type} [Inhabited E] [DecidableEq L] {c : Cfg} {body : σ → Act σ V E L} {pend : σ → Nat} {dirty : σ → Prop} {may : E → Prop} {K : Nat}
  {root : Nat → σ} {dep : Nat → Nat → Prop} {m : L → E}

/-- In a `resume`. -/
def inTask : Pc → Bool
  | .run | .drun | .task => true
  | _ => false

omit [Inhabited E] [DecidableEq L] in
theorem idle_iff {s : B σ V E L} {w : Nat} : s.idle w = true ↔ s.M.x.c.pc w = .idle := by
  unfold B.idle
  split <;> simp_all

theorem map_ok {α β : Type} {f : α → β} {r : Res α} {b : β} (h : Res.map f r = .ok b) : ∃ a, r = .ok a ∧ f a = b := by
  cases r with
  | ok a => cases h; exact ⟨a, rfl, rfl⟩
  | _ => cases h

theorem map_ub {α β : Type} {f : α → β} {r : Res α} (h : Res.map f r = .ub) : r = .ub := by
  cases r with
  | ub => rfl
  | _ => cases h

omit [Inhabited E] [DecidableEq L] in
theorem loop_same {s s' : B σ V E L} {w : Nat} (h : loop c s w = some s') :
    s'.M = s.M ∧ s'.caller = s.caller ∧ s'.dpc = s.dpc ∧ (∀ v, v ≠ w → s'.pc v = s.pc v ∧ s'.hand v = s.hand v) := by
  unfold loop at h
  split at h
  case h_2 | h_6 =>
    cases h
    unfold B.pop
    split
    · exact ⟨rfl, rfl, rfl, fun v hv => ⟨upd_ne _ _ hv, rfl⟩⟩
    · exact ⟨rfl, rfl, rfl, fun v hv => ⟨upd_ne _ _ hv, upd_ne _ _ hv⟩⟩
  all_goals
    try split at h
    all_goals first
      | (cases h; exact ⟨rfl, rfl, rfl, fun v hv => ⟨upd_ne _ _ hv, rfl⟩⟩)
      | cases h

/-- What the worker's loop does to its own place. -/
inductive Own (c : Cfg) (s s' : B σ V E L) (w : Nat) : Prop
  | chk0 : s.pc w = .chk → s.stop = false → s'.pc w = .pop → s'.hand w = s.hand w → s'.stop = s.stop → s'.latch = s.latch → Own c s s' w
  | chk1 : s.pc w = .chk → s.stop = true → s'.pc w = .dpop → s'.hand w = s.hand w → s'.stop = s.stop → s'.latch = s.latch → Own c s s' w
  | pop0 : s.pc w = .pop → s.M.x.c.inbox w = [] → s'.pc w = (if c.unit then .chk else .steal) → s'.hand w = s.hand w → s'.stop = s.stop → s'.latch = s.latch →
      Own c s s' w
  | pop1 : s.pc w = .pop → s.M.x.c.inbox w ≠ [] → s'.pc w = .run → s'.hand w = (s.M.x.c.inbox w).length → s'.stop = s.stop → s'.latch = s.latch → Own c s s' w
  | run : s.pc w = .run → s.M.x.c.pc w = .idle → s.hand w = 0 → s'.pc w = .chk → s'.hand w = s.hand w → s'.stop = s.stop → s'.latch = s.latch → Own c s s' w
  | task : s.pc w = .task → s.M.x.c.pc w = .idle → s'.pc w = .chk → s'.hand w = s.hand w → s'.stop = s.stop → s'.latch = s.latch → Own c s s' w
  | dpop0 : s.pc w = .dpop → s.M.x.c.inbox w = [] → s'.pc w = (if c.unit then .fin4 else .fin1) → s'.hand w = s.hand w → s'.stop = s.stop → s'.latch = s.latch →
      Own c s s' w
  | dpop1 : s.pc w = .dpop → s.M.x.c.inbox w ≠ [] → s'.pc w = .drun → s'.hand w = (s.M.x.c.inbox w).length → s'.stop = s.stop → s'.latch = s.latch → Own c s s' w
  | drun : s.pc w = .drun → s.M.x.c.pc w = .idle → s.hand w = 0 → s'.pc w = .dpop → s'.hand w = s.hand w → s'.stop = s.stop → s'.latch = s.latch → Own c s s' w
  | fin1 : s.pc w = .fin1 → s'.pc w = .fin2 → s'.hand w = s.hand w → s'.stop = true → s'.latch = s.latch → Own c s s' w
  | fin2 : s.pc w = .fin2 → s'.pc w = .fin3 → s'.hand w = s.hand w → s'.stop = s.stop → s'.latch = s.latch - 1 → Own c s s' w
  | fin3 : s.pc w = .fin3 → s.latch = 0 → s'.pc w = .fin4 → s'.hand w = s.hand w → s'.stop = s.stop → s'.latch = s.latch → Own c s s' w

omit [Inhabited E] [DecidableEq L] in
theorem loop_own {s s' : B σ V E L} {w : Nat} (h : loop c s w = some s') : Own c s s' w := by
  unfold loop at h
  split at h
  · rename_i hp
    cases h
    cases hs : s.stop with
    | false => exact .chk0 hp hs (by simp [B.go, upd_same, hs]) rfl rfl rfl
    | true => exact .chk1 hp hs (by simp [B.go, upd_same, hs]) rfl rfl rfl
  · rename_i hp
    cases h
    unfold B.pop
    split
    · exact .pop0 hp ‹_› (upd_same ..) rfl rfl rfl
    · exact .pop1 hp ‹_› (upd_same ..) (upd_same ..) rfl rfl
  · rename_i hp
    split at h <;> cases h
    rename_i hc
    exact .run hp (idle_iff.1 hc.1) hc.2 (upd_same ..) rfl rfl rfl
  · cases h
  · rename_i hp
    split at h <;> cases h
    rename_i hc
    exact .task hp (idle_iff.1 hc) (upd_same ..) rfl rfl rfl
  · rename_i hp
    cases h
    unfold B.pop
    split
    · exact .dpop0 hp ‹_› (upd_same ..) rfl rfl rfl
    · exact .dpop1 hp ‹_› (upd_same ..) (upd_same ..) rfl rfl
  · rename_i hp
    split at h <;> cases h
    rename_i hc
    exact .drun hp (idle_iff.1 hc.1) hc.2 (upd_same ..) rfl rfl rfl
  · rename_i hp; cases h; exact .fin1 hp (upd_same ..) rfl rfl rfl
  · rename_i hp; cases h; exact .fin2 hp (upd_same ..) rfl rfl rfl
  · rename_i hp
    split at h <;> cases h
    exact .fin3 hp ‹_› (upd_same ..) rfl rfl rfl
  · cases h

structure Inv (c : Cfg) (body : σ → Act σ V E L) (K : Nat) (s : B σ V E L) : Prop where
  idle : ∀ w, s.M.x.c.pc w ≠ .idle → w < c.N ∧ inTask (s.pc w) = true
  hle : ∀ w, s.hand w ≤ (s.M.x.c.inbox w).length
  hpc : ∀ w, s.hand w ≠ 0 → s.pc w = .run ∨ s.pc w = .drun
  far : ∀ w, c.N ≤ w → s.M.x.c.inbox w = []
  drain : ∀ w, draining (s.pc w) = true → s.stop = true
  stop : s.stop = true → s.dpc ≠ .alive
  dstop : s.dpc ≠ .alive → s.stop = true
  left : ∀ w, left (s.pc w) = true → s.M.x.c.inbox w = []
  calls : s.dpc ≠ .alive → ∀ i, i < K → (∃ f, s.caller i = .waiting f) ∨ ∃ f r, s.caller i = .back f r
  still : s.dpc ≠ .alive → ∀ f, f < s.M.x.c.nf → Still body (s.M.x.c.fr f).st
  gone : s.dpc = .gone → ∀ w, w < c.N → s.pc w = .fin4
  unit : c.unit = true → ∀ w, s.pc w ≠ .steal ∧ s.pc w ≠ .task ∧ s.pc w ≠ .fin1 ∧ s.pc w ≠ .fin2 ∧ s.pc w ≠ .fin3

omit [Inhabited E] [DecidableEq L] in
theorem start_inv (y : σ) : Inv c body K (B.start c y m : B σ V E L) := by
  constructor <;> simp [B.start, MS.start, XS.start, Runtime.State.start, draining, Pool.left]

omit [Inhabited E] [DecidableEq L] in
/-- The worker's loop. -/
theorem inv_loop {s s' : B σ V E L} {w : Nat} (hi : Inv c body K s) (h : loop c s w = some s') : Inv c body K s' := by
  obtain ⟨e1, e2, e3, e4⟩ := loop_same h
  have o := loop_own h
  clear h
  have p : ∀ v, v ≠ w → s'.pc v = s.pc v := fun v hv => (e4 v hv).1
  have q : ∀ v, v ≠ w → s'.hand v = s.hand v := fun v hv => (e4 v hv).2
  clear e4
  have mono : s.stop = true → s'.stop = true := by clear hi; intro hs; cases o <;> simp_all
  constructor
  · intro v hv
    rw [e1] at hv
    obtain ⟨a1, a2⟩ := hi.idle v hv
    refine ⟨a1, ?_⟩
    by_cases e : v = w
    · subst e; clear hi; cases o <;> grind [inTask]
    · rw [p v e]; exact a2
  · intro v
    rw [e1]
    have := hi.hle v
    by_cases e : v = w
    · subst e; clear hi; cases o <;> grind
    · rw [q v e]; exact this
  · intro v hv
    have := hi.hpc v
    by_cases e : v = w
    · subst e; clear hi; cases o <;> grind
    · rw [q v e] at hv; rw [p v e]; exact this hv
  · rw [e1]; exact hi.far
  · intro v hv
    have := hi.drain v
    by_cases e : v = w
    · subst e; clear hi; cases o <;> grind [draining]
    · rw [p v e] at hv; exact mono (this hv)
  · rw [e3]
    intro hs
    have := hi.drain w
    apply hi.stop
    clear hi
    cases o <;> grind [draining]
  · rw [e3]; exact fun h => mono (hi.dstop h)
  · intro v hv
    rw [e1]
    have := hi.left v
    by_cases e : v = w
    · subst e; clear hi; cases o <;> grind [Pool.left]
    · rw [p v e] at hv; exact this hv
  · rw [e2, e3]; exact hi.calls
  · rw [e1, e3]; exact hi.still
  · rw [e3]
    intro hg v hv
    have := hi.gone hg v hv
    by_cases e : v = w
    · subst e; clear hi; cases o <;> grind
    · rw [p v e]; exact this
  · intro hu v
    have := hi.unit hu v
    by_cases e : v = w
    · subst e; clear hi; cases o <;> grind
    · rw [p v e]; exact this

omit [Inhabited E] [DecidableEq L] in
/-- A step inside `resume`. -/
theorem inv_work {s : B σ V E L} {w : Nat} {M : MS σ V E L} {ch : Choice E} {p : Pc} {n : Nat} (hi : Inv c body K s) (hw : w < c.N)
    (he : Eff body w ch s.M M) (hp : inTask p = true) (hpd : draining p = true → s.stop = true) (hn : n ≤ (M.x.c.inbox w).length)
    (hnp : n ≠ 0 → p = .run ∨ p = .drun) (hpu : c.unit = true → p ≠ .task) (hnf : s.pc w ≠ .fin4)
    (hh : ∀ v, v ≠ w → s.hand v ≤ (M.x.c.inbox v).length) (hfar : ∀ v, c.N ≤ v → M.x.c.inbox v = []) :
    Inv c body K { s with pc := upd s.pc w p, hand := upd s.hand w n, M := M } := by
  obtain ⟨h1, h2, h3, h4, h5, h6, h7, h8, h9, h10, h11, h12⟩ := hi
  constructor
  · intro v hv
    simp only [upd_apply]
    split
    · subst_vars; exact ⟨hw, hp⟩
    · rename_i e
      simp only at hv
      rw [he.pc v e] at hv; exact h1 v hv
  · intro v
    simp only [upd_apply]
    split
    · subst_vars; exact hn
    · exact hh v ‹_›
  · intro v
    simp only [upd_apply]
    split
    · exact hnp
    · exact h3 v
  · exact hfar
  · intro v
    simp only [upd_apply]
    split
    · exact hpd
    · exact h5 v
  · exact h6
  · exact h7
  · intro v hv
    simp only [upd_apply] at hv ⊢
    split at hv
    · cases p <;> simp_all [inTask, Pool.left]
    · rename_i e
      have hv' := h8 v hv
      rcases he.inb with g | ⟨_, _, f, r, _, g⟩ | ⟨f, d, k, x, g1, g2, _⟩
      · rw [g]; exact hv'
      · rw [g, upd_ne _ _ e]; exact hv'
      · have hs : s.stop = true := h5 v (by revert hv; cases s.pc v <;> simp [Pool.left, draining])
        -- the task would have made a switch
        exact absurd g2 (by
          have hlt : f < s.M.x.c.nf ∨ ¬ f < s.M.x.c.nf := Decidable.em _
          rcases hlt with hlt | hlt
          · exact h10 (h6 hs) f hlt _ (.refl _) d k x
          · exact fun _ => hlt (he.runs f g1))
  · exact h9
  · exact fun hd => he.still (h10 hd)
  · intro hg v hv
    exact absurd (h11 hg w hw) hnf
  · intro hu v
    simp only [upd_apply]
    split
    · have := hpu hu
      cases p <;> simp_all [inTask]
    · exact h12 hu v

end Verif.Busy
