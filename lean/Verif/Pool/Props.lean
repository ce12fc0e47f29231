import Verif.Pool.Live
import Verif.LazyPool.Props

/-!
C37 and the busy_pool half of C25. `Fair.Reach (sys c) s`: `s` is reached in some schedule of the `c.N` workers (`c.unit`: a
`unit_pool`), any number of submissions and the destructor. `Fair.Run (sys c)`: an infinite schedule; `Fair`: no actor that can take
a step is left out for ever. `sent j`: `schedule` has been called for job `j`; `stopAt j`: the stop had then already been requested.
-/
namespace Verif.Pool
open Verif.EventCount (upd upd_same upd_ne upd_apply num num_zero)
open Fair (Run)

/-- How often job `j` occurs in the lists of submissions, among the jobs workers have taken and among the jobs started. -/
def occurrences (c : Cfg) (s : St) (j : Nat) : Nat :=
  ((List.range c.N).map fun w => (s.inbox w).count j + (s.hand w).count j).sum + s.started.count j

/-- C37: a job is nowhere before it is submitted and in exactly one place, once, ever after. -/
theorem C37_exactly_once {c : Cfg} {s : St} (h : Fair.Reach (sys c) s) (j : Nat) :
    occurrences c s j = if s.sent j = false then 0 else 1 := by
  have hs := reach_sub h
  have i1 : ∀ w, (s.inbox w).count j = if s.loc j = .inbox w then 1 else 0 := fun w => by
    rw [(hs.nd1 w).count]; simp only [hs.inbox]
  have i2 : ∀ w, (s.hand w).count j = if s.loc j = .hand w then 1 else 0 := fun w => by
    rw [(hs.nd2 w).count]; simp only [hs.hand]
  have i3 : s.started.count j = if s.loc j = .started then 1 else 0 := by
    rw [hs.nd3.count]; simp only [hs.started]
  unfold occurrences
  simp only [i1, i2, i3, hs.unsent]
  cases hl : s.loc j with
  | unsent => simpa using LazyPool.sum_none c.N _ fun _ => rfl
  | started => simpa using LazyPool.sum_none c.N _ fun _ => rfl
  | inbox w0 => simpa using (LazyPool.sum_one c.N w0 _ (by simp) (by simp; omega)).trans (if_pos (hs.lt1 j w0 hl))
  | hand w0 => simpa using (LazyPool.sum_one c.N w0 _ (by simp) (by simp; omega)).trans (if_pos (hs.lt2 j w0 hl))

/-- C37: a worker that has left its loops has no job in its list that was submitted before the stop was requested, and none in its
hands. -/
theorem C37_left_nothing {c : Cfg} {s : St} (h : Fair.Reach (sys c) s) {w : Nat} (hw : w < c.N) (hl : left (s.pc w) = true) :
    (∀ j, j ∈ s.inbox w → s.stopAt j = true) ∧ s.hand w = [] := by
  have hs := reach_sub h
  refine ⟨fun j hj => (reach_stop h).left j w ((hs.inbox j w).1 hj) hl, ?_⟩
  apply Classical.byContradiction
  intro e
  rcases hs.free w hw e with k | k <;> rw [k] at hl <;> cases hl

/-- C37: when the destructor has returned, every job submitted before the stop was requested has been started. -/
theorem C37_destroyed_all_started {c : Cfg} {s : St} (h : Fair.Reach (sys c) s) (hd : s.dpc = .gone) {j : Nat} (hj : s.sent j = true)
    (he : s.stopAt j = false) : j ∈ s.started := by
  have hs := reach_sub h
  have hg := (reach_stop h).gone hd
  cases hl : s.loc j with
  | unsent => rw [(hs.unsent j).2 hl] at hj; cases hj
  | started => exact (hs.started j).2 hl
  | inbox w =>
    have hw := hs.lt1 j w hl
    have := (reach_stop h).left j w hl (by rw [hg w hw]; rfl)
    rw [he] at this; cases this
  | hand w =>
    have hw := hs.lt2 j w hl
    have := (C37_left_nothing h hw (by rw [hg w hw]; rfl)).2
    have hm := (hs.hand j w).2 hl
    rw [this] at hm; cases hm

/-- C37: a job whose worker has not left its loops is started, in every fair schedule; in particular one submitted before the stop was
requested. -/
theorem C37_started {c : Cfg} {r : Run (sys c)} (hf : r.Fair) {t j : Nat} (hj : (r.st t).sent j = true)
    (he : (r.st t).stopAt j = false ∨ ∀ w, j ∈ (r.st t).inbox w → left ((r.st t).pc w) = false) :
    ∃ t', t ≤ t' ∧ j ∈ (r.st t').started := by
  have hs := reach_sub (r.reach t)
  have go : ∀ x w, t ≤ x → (r.st x).loc j = .hand w → ∃ t', t ≤ t' ∧ j ∈ (r.st t').started := fun x w hx hh => by
    obtain ⟨y, hy, e⟩ := starts hf hh
    exact ⟨y, by omega, ((reach_sub (r.reach y)).started j).2 e⟩
  cases hl : (r.st t).loc j with
  | unsent => rw [(hs.unsent j).2 hl] at hj; cases hj
  | started => exact ⟨t, Nat.le_refl _, (hs.started j).2 hl⟩
  | hand w => exact go t w (Nat.le_refl _) hl
  | inbox w =>
    have hleft : left ((r.st t).pc w) = false := by
      rcases he with he | he
      · cases hq : left ((r.st t).pc w) with
        | false => rfl
        | true => have := (reach_stop (r.reach t)).left j w hl hq; rw [he] at this; cases this
      · exact he w ((hs.inbox j w).2 hl)
    obtain ⟨x, hx, e⟩ := popped hf hl hleft
    exact go x w hx e

/-- C37, C25: the destructor returns, if from some time on nothing is submitted. -/
theorem C37_destructor_returns {c : Cfg} {r : Run (sys c)} (hf : r.Fair) {t0 : Nat} (hq : Quiet r t0) (h0 : (r.st t0).dpc ≠ .alive) :
    ∃ t', t0 ≤ t' ∧ (r.st t').dpc = .gone := destroyed hf hq h0

/-- C25: a worker of a busy_pool goes past `latch_stop`, to `finalize_worker`, only when every worker has left its loops. -/
theorem C25_busy_finalise_last {c : Cfg} (hu : c.unit = false) {s : St} (h : Fair.Reach (sys c) s) {w : Nat} (hw : w < c.N)
    (hp : s.pc w = .fin4) : ∀ u, u < c.N → s.pc u = .fin3 ∨ s.pc u = .fin4 := by
  intro u hu'
  have hl := reach_latch hu h
  have h1 := hl.fin w hw hp
  rw [hl.latch, num_zero] at h1
  have := h1 u hu'
  revert this
  cases s.pc u <;> simp [before]

/-- C25: the destructor returns only when every worker thread has ended. -/
theorem C25_busy_joined {c : Cfg} {s : St} (h : Fair.Reach (sys c) s) (hd : s.dpc = .gone) {w : Nat} (hw : w < c.N) : s.pc w = .fin4 :=
  (reach_stop h).gone hd w hw

/-- C25: a worker leaves its loops only after a stop has been requested. -/
theorem C25_busy_leaves_only_on_stop {c : Cfg} {s : St} (h : Fair.Reach (sys c) s) {w : Nat} (hw : w < c.N) (hl : left (s.pc w) = true) :
    s.stop = true := (reach_stop h).drain w hw (by revert hl; cases s.pc w <;> simp [left, draining])

/-! ### Executions that meet the hypotheses -/

namespace Example

/-- A step of the actor; `k` is the worker a job is submitted to, or 1 for a successful theft. -/
def fire (c : Cfg) (e : Actor × Nat) (s : St) : Option St :=
  match e.1 with
  | .worker w =>
    if w < c.N then
      match s.pc w with
      | .chk => if s.stop = false then some (s.go w .pop) else some (s.go w .dpop)
      | .pop =>
        if s.inbox w = [] then if c.unit = false then some (s.go w .steal) else some (s.go w .chk) else some (doPop s w .run)
      | .run => match s.hand w with
        | j :: js => some (doRun s w j js)
        | [] => some (s.go w .chk)
      | .steal => if e.2 = 1 then some (s.go w .task) else some (s.go w .chk)
      | .task => some (s.go w .chk)
      | .dpop =>
        if s.inbox w = [] then if c.unit = false then some (s.go w .fin1) else some (s.go w .fin4) else some (doPop s w .drun)
      | .drun => match s.hand w with
        | j :: js => some (doRun s w j js)
        | [] => some (s.go w .dpop)
      | .fin1 => some { s.go w .fin2 with stop := true }
      | .fin2 => some { s.go w .fin3 with latch := s.latch - 1 }
      | .fin3 => if s.latch = 0 then some (s.go w .fin4) else none
      | .fin4 => none
    else none
  | .submit j =>
    if s.sent j = false then if e.2 < c.N then some { s with
        inbox := upd s.inbox e.2 (j :: s.inbox e.2), sent := upd s.sent j true, loc := upd s.loc j (.inbox e.2)
        stopAt := upd s.stopAt j s.stop } else none else none
  | .dtor =>
    match s.dpc with
    | .alive => some { s with stop := true, dpc := .joining }
    | .joining => if ∀ w, w < c.N → s.pc w = .fin4 then some { s with dpc := .gone } else none
    | .gone => none

theorem fire_step (c : Cfg) (e : Actor × Nat) (s s' : St) (h : fire c e s = some s') : (sys c).step e.1 s s' := by
  obtain ⟨a, k⟩ := e
  show Step c a s s'
  cases a with
  | worker w =>
    simp only [fire] at h
    split at h
    · rename_i hw
      split at h <;> rename_i hp
      · split at h <;> rename_i hs <;> cases h
        · exact .chkNo s w hw hp hs
        · exact .chkYes s w hw hp (by simpa using hs)
      · split at h <;> rename_i hi
        · split at h <;> rename_i hu <;> cases h
          · exact .popNone s w hw hp hi hu
          · exact .popNoneU s w hw hp hi (by simpa using hu)
        · cases h; exact .popSome s w hw hp hi
      · split at h <;> rename_i hi <;> cases h
        · exact .run s w _ _ hw hp hi
        · exact .runEnd s w hw hp hi
      · split at h <;> cases h
        · exact .stealSome s w hw hp
        · exact .stealNone s w hw hp
      · cases h; exact .task s w hw hp
      · split at h <;> rename_i hi
        · split at h <;> rename_i hu <;> cases h
          · exact .dpopNone s w hw hp hi hu
          · exact .dpopNoneU s w hw hp hi (by simpa using hu)
        · cases h; exact .dpopSome s w hw hp hi
      · split at h <;> rename_i hi <;> cases h
        · exact .drun s w _ _ hw hp hi
        · exact .drunEnd s w hw hp hi
      · cases h; exact .fin1 s w hw hp
      · cases h; exact .fin2 s w hw hp
      · split at h <;> rename_i hi <;> cases h
        exact .fin3 s w hw hp hi
      · cases h
    · cases h
  | submit j =>
    simp only [fire] at h
    split at h <;> rename_i hs
    · split at h <;> rename_i hk <;> cases h
      exact .push s j k hs hk
    · cases h
  | dtor =>
    simp only [fire] at h
    split at h <;> rename_i hp
    · cases h; exact .dstop s hp
    · split at h <;> rename_i hi <;> cases h
      exact .djoin s hp hi
    · cases h

def run (c : Cfg) (l : List (Actor × Nat)) : Run (sys c) := Fair.Script.run (fire c) (·.1) (fire_step c) (s0 := St.start c) rfl l

def steps (w n : Nat) : List (Actor × Nat) := List.replicate n (.worker w, 0)

/-- Jobs 1, 2, 3 are submitted while worker 0 searches; worker 0 takes 1 and 2, the pool is destroyed before worker 0 takes 3. -/
@[irreducible] def script : List (Actor × Nat) :=
  steps 0 1 ++ [(.submit 1, 0), (.submit 2, 0)] ++ steps 0 1 ++ [(.submit 3, 0)] ++ [(.dtor, 0)] ++
    steps 0 12 ++ steps 1 12 ++ steps 0 3 ++ [(.dtor, 0)]

def busy : Cfg := ⟨2, false⟩
def unit : Cfg := ⟨1, true⟩

def fin (c : Cfg) : St := script.foldl (Fair.tick (fire c)) (St.start c)

theorem ends_busy : (fin busy).dpc = .gone ∧ (fin busy).started = [3, 1, 2] ∧ (fin busy).pc 0 = .fin4 ∧ (fin busy).pc 1 = .fin4 := by
  decide +kernel

theorem ends_unit : (fin unit).dpc = .gone ∧ (fin unit).started = [3, 1, 2] ∧ (fin unit).pc 0 = .fin4 := by decide +kernel

theorem busy_fair : (run busy script).Fair := by
  obtain ⟨h1, h2, h3, h4⟩ := ends_busy
  refine Fair.Script.fair fun a => ?_
  show ¬ Ready busy (fin busy) a
  cases a with
  | worker w =>
    intro ⟨hw, ha, _⟩
    have : w = 0 ∨ w = 1 := by have : w < 2 := hw; omega
    rcases this with e | e <;> subst e
    · exact ha h3
    · exact ha h4
  | submit j => exact id
  | dtor => intro ⟨ha, _⟩; rw [h1] at ha; cases ha

theorem unit_fair : (run unit script).Fair := by
  obtain ⟨h1, h2, h3⟩ := ends_unit
  refine Fair.Script.fair fun a => ?_
  show ¬ Ready unit (fin unit) a
  cases a with
  | worker w =>
    intro ⟨hw, ha, _⟩
    have : w = 0 := by have : w < 1 := hw; omega
    subst this; exact ha h3
  | submit j => exact id
  | dtor => intro ⟨ha, _⟩; rw [h1] at ha; cases ha

theorem quiet (c : Cfg) : Quiet (run c script) 5 := by
  intro t j ht hu
  show (Fair.play (fire c) (St.start c) script (t + 1)).sent j = false
  rw [Fair.play_succ]
  have hu' : (Fair.play (fire c) (St.start c) script t).sent j = false := hu
  cases he : script[t]? with
  | none => exact hu'
  | some e =>
    have hm : e ∈ script.drop 5 := by
      rw [List.mem_iff_getElem?]
      exact ⟨t - 5, by rw [List.getElem?_drop, Nat.add_sub_cancel' ht]; exact he⟩
    have hl : ((script.drop 5).all fun x => match x.1 with | .submit _ => false | _ => true) = true := by decide +kernel
    have hne : ∀ k, e.1 ≠ .submit k := fun k hk => by
      have := List.all_eq_true.1 hl e hm; rw [hk] at this; cases this
    show (Fair.tick (fire c) _ e).sent j = false
    unfold Fair.tick
    cases hf : fire c e (Fair.play (fire c) (St.start c) script t) with
    | none => exact hu'
    | some s' =>
      simp only [Option.getD_some]
      have st : Step c e.1 _ s' := fire_step c e _ s' hf
      revert hne st hu'
      generalize e.1 = a
      generalize Fair.play (fire c) (St.start c) script t = s
      clear hf hu hl hm he
      intro hu' hne st
      cases st <;> simp only [doPop, doRun, St.go, upd_apply] at * <;> grind

/-- The hypotheses of `C37_started` and `C37_destructor_returns`: three jobs waiting in a list or in hand when the destructor is
called. -/
example : (∃ t', 6 ≤ t' ∧ 3 ∈ ((run busy script).st t').started) ∧ ∃ t', 6 ≤ t' ∧ ((run busy script).st t').dpc = .gone := by
  have h : (Fair.play (fire busy) (St.start busy) script 6).sent 3 = true ∧
      (Fair.play (fire busy) (St.start busy) script 6).stopAt 3 = false ∧
      (Fair.play (fire busy) (St.start busy) script 6).dpc = .joining ∧
      (Fair.play (fire busy) (St.start busy) script 6).inbox 0 = [3] ∧
      (Fair.play (fire busy) (St.start busy) script 6).hand 0 = [2, 1] := by decide +kernel
  refine ⟨C37_started busy_fair h.1 (.inl h.2.1), C37_destructor_returns busy_fair (fun t j ht => quiet busy t j (by omega)) ?_⟩
  rw [show ((run busy script).st 6).dpc = _ from h.2.2.1]; simp

example : ∃ t', 6 ≤ t' ∧ ((run unit script).st t').dpc = .gone := by
  have h : (Fair.play (fire unit) (St.start unit) script 6).dpc = .joining := by decide +kernel
  refine C37_destructor_returns unit_fair (fun t j ht => quiet unit t j (by omega)) ?_
  rw [show ((run unit script).st 6).dpc = _ from h]; simp

theorem fin_reach (c : Cfg) : Fair.Reach (sys c) (fin c) := by
  have := (run c script).reach script.length
  rwa [show (run c script).st script.length = fin c from Fair.play_end _ _ _ (Nat.le_refl _)] at this

/-- The hypotheses of `C37_destroyed_all_started`, `C37_left_nothing`, `C25_busy_finalise_last`. -/
example : Fair.Reach (sys busy) (fin busy) ∧ (fin busy).dpc = .gone ∧ (fin busy).sent 3 = true ∧ (fin busy).stopAt 3 = false ∧
    left ((fin busy).pc 0) = true :=
  ⟨fin_reach busy, by decide +kernel, by decide +kernel, by decide +kernel, by decide +kernel⟩

/-- The limit: a job submitted after the request to stop can be left behind. -/
theorem too_late : ∃ s, Fair.Reach (sys unit) s ∧ s.dpc = .gone ∧ s.sent 9 = true ∧ s.started = [] :=
  ⟨[(Actor.dtor, 0), (.worker 0, 0), (.worker 0, 0), (.submit 9, 0), (.dtor, 0)].foldl (Fair.tick (fire unit)) (St.start unit), by
    have := (run unit [(Actor.dtor, 0), (.worker 0, 0), (.worker 0, 0), (.submit 9, 0), (.dtor, 0)]).reach 5
    exact this, by decide +kernel, by decide +kernel, by decide +kernel⟩

end Example

end Verif.Pool
