import Verif.Mem.Sim2

/-! C61: the runtime with shared memory runs programs as the fork/join machine does. -/
namespace Verif.Mem
open Verif.Runtime (Res Ev Few status Legal)
open Verif.Exn (XS Choice goOn)

variable {σ V E L : Type} [Inhabited E] [DecidableEq L]
variable {body : σ → Act σ V E L} {pend : σ → Nat} {dirty : σ → Prop} {may : E → Prop} {ok : (σ → Prop) → σ → Prop} {m : L → E}

/-- The runtime sees an access as a context switch of no effect. -/
theorem step_x {w : Nat} {ch : Choice E} {s s' : MS σ V E L} (hs : step body w ch s = .ok s') : ∃ ch', Exn.step (ctl body) w ch' s.x = .ok s'.x := by
  have hc : control body w ch s = .ok s' → ∃ ch', Exn.step (ctl body) w ch' s.x = .ok s'.x := by
    intro h
    unfold control at h
    cases hx : Exn.step (ctl body) w ch s.x with
    | ok x => rw [hx] at h; cases h; exact ⟨ch, hx⟩
    | no => rw [hx] at h; cases h
    | ub => rw [hx] at h; cases h
  unfold step at hs
  split at hs
  · rename_i f hp
    split at hs
    · rename_i l k hb
      cases hs
      refine ⟨.fail (s.m l) false, ?_⟩
      have : ctl body (s.x.c.fr f).st = .switch 0 (k default) k := by simp only [ctl, hb]
      simp only [Exn.step, hp, Exn.run, this]
    · rename_i l d k hb
      cases hs
      refine ⟨.ready, ?_⟩
      have : ctl body (s.x.c.fr f).st = .switch 0 k (fun _ => k) := by simp only [ctl, hb]
      simp only [Exn.step, hp, Exn.run, this]
    · exact hc hs
  · exact hc hs

theorem reach_x {s : MS σ V E L} (h : Reach body pend may ok m s) : Exn.Reach (ctl body) pend (fun _ => True) s.x := by
  induction h with
  | start y => exact .start y
  | submit w _ hf hp _ ih => exact .submit w ih hf hp
  | step _ hf _ hs ih =>
    obtain ⟨ch', h1⟩ := step_x hs
    exact .step ih hf (allowed_any ch') h1

theorem done_of_mode {l : List (Ev σ (Except E V))} {f : Nat} {r : Except E V} (h : modeOf f l = .ended r) : Ev.done f r ∈ l := by
  induction l with
  | nil => cases h
  | cons e l ih =>
    cases e with
    | submit g c w => simp only [modeOf] at h; split at h; · cases h
                      · exact List.mem_cons_of_mem _ (ih h)
    | resume g w => simp only [modeOf] at h; split at h; · cases h
                    · exact List.mem_cons_of_mem _ (ih h)
    | suspend g y =>
      cases y <;> simp only [modeOf] at h <;> split at h <;> first | cases h | exact List.mem_cons_of_mem _ (ih h)
    | done g r' =>
      simp only [modeOf] at h
      split at h
      · rename_i e; cases h; rw [e]; exact List.mem_cons_self ..
      · exact List.mem_cons_of_mem _ (ih h)

omit [Inhabited E] [DecidableEq L] in
theorem open_eq {s : MS σ V E L} {a : FJ σ V E L} (hr : XR s.x a) : s.open = a.open := by
  funext c
  apply propext
  unfold MS.open FJ.open
  constructor
  · rintro ⟨f, w, h1, h2⟩
    have h3 : (f, c) ∈ a.roots := by rw [hr.rts]; exact mem_subs.2 ⟨w, h1⟩
    refine ⟨f, h3, fun r hr' => h2 ?_⟩
    rw [hr.mode f (hr.rlt f c h3)] at hr'
    exact ended_iff.1 ⟨r, hr'⟩
  · rintro ⟨f, h1, h2⟩
    obtain ⟨w, hw⟩ := mem_subs.1 (by rw [← hr.rts]; exact h1)
    refine ⟨f, w, hw, fun hd => ?_⟩
    obtain ⟨r, h3⟩ := ended_iff.2 hd
    exact h2 r (by rw [hr.mode f (hr.rlt f c h1)]; exact h3)

/-- Every state of the runtime is matched. -/
theorem sim (hd : Disc body pend dirty) {s : MS σ V E L} (h : Reach body pend may ok m s) :
    ∃ a : FJ σ V E L, FJ.Reach body may ok m a ∧ XR s.x a ∧ a.m = s.m ∧ a.hist = s.hist := by
  induction h with
  | start y =>
    refine ⟨FJ.start y m, .start y, ?_, rfl, rfl⟩
    constructor <;> first | rfl | (intros; first | contradiction | (rename_i h; cases h) | skip)
    all_goals simp_all [MS.start, XS.start, Runtime.State.start, FJ.start]
  | @submit s c w h0 hf hp ho ih =>
    obtain ⟨a, ha, hr, hm, hh⟩ := ih
    refine ⟨a.submit s.x.c.nf c, .submit _ c ha (by rw [← open_eq hr]; exact ho) (hr.un _ (Nat.le_refl _)), ?_, hm, hh⟩
    refine XR.to (hr.submit (w := w) c) rfl ?_ ?_ ?_ rfl ?_
    · intro f; simp only [submit, Exn.submit, Runtime.submit, Runtime.newFrame, Runtime.upd_apply]
    · intro f; simp only [submit, Exn.submit, Runtime.submit, Runtime.newFrame, Runtime.upd_apply]; split <;> rfl
    · intro f; simp only [submit, Exn.submit, Runtime.submit, Runtime.newFrame, Runtime.upd_apply]; split <;> rfl
    · intro f; simp only [submit, Exn.submit, Runtime.submit, Runtime.newFrame, Runtime.upd_apply]
  | @step s s' w ch h0 hf hch hs ih =>
    obtain ⟨a, ha, hr, hm, hh⟩ := ih
    have hx := reach_x h0
    have F := facts (disc_ctl hd) hx
    have hc : (∀ f, s.x.c.pc w = .run f → NoAcc body (s.x.c.fr f).st) → control body w ch s = .ok s' →
        ∃ a : FJ σ V E L, FJ.Reach body may ok m a ∧ XR s'.x a ∧ a.m = s'.m ∧ a.hist = s'.hist := by
      intro hn h
      unfold control at h
      cases hx' : Exn.step (ctl body) w ch s.x with
      | ok x =>
        rw [hx'] at h; cases h
        obtain ⟨a', h1, h2, h3, h4, _⟩ := sim_control hd hx hf hch hn hx' ha hr
        exact ⟨a', h1, h2, h3.trans hm, h4.trans hh⟩
      | no => rw [hx'] at h; cases h
      | ub => rw [hx'] at h; cases h
    unfold step at hs
    split at hs
    · rename_i f hp
      obtain ⟨hlt, hmode⟩ := F.run w f hp
      have hst := hr.st f hlt
      have hmd : a.mode f = .run := by rw [hr.mode f hlt]; exact hmode
      split at hs
      · rename_i l k hb
        cases hs
        refine ⟨_, .step f ha (.load a l k hmd (by rw [hst]; exact hb)), ?_, hm, ?_⟩
        · rw [hm]
          exact XR.to ((hr.on hlt hmode (k (s.m l))).mem _ _) rfl (fun _ => rfl) (goOn_st _ _ _) (goOn_slots _ _ _) rfl (fun _ => rfl)
        · simp only [hm, hh]
      · rename_i l d k hb
        cases hs
        refine ⟨_, .step f ha (.store a l d k hmd (by rw [hst]; exact hb)), ?_, ?_, ?_⟩
        · exact XR.to ((hr.on hlt hmode k).mem _ _) rfl (fun _ => rfl) (goOn_st _ _ _) (goOn_slots _ _ _) rfl (fun _ => rfl)
        · simp only [hm]
        · simp only [hh]
      · rename_i hn1 hn2
        refine hc ?_ hs
        intro g hg
        rw [hp] at hg; cases hg
        exact ⟨fun l k h => hn1 l k h, fun l d k h => hn2 l d k h⟩
    · rename_i hn
      exact hc (fun f hf => absurd hf (hn f)) hs

/-- C61: whatever the workers, the scheduler and the thieves do, the tasks, the memory they share, every value they read and every result are
those of an execution of the fork/join machine, in which a task's step needs nothing but that the tasks it waits for have ended. -/
theorem C61_refines (hd : Disc body pend dirty) {s : MS σ V E L} (h : Reach body pend may ok m s) :
    ∃ a : FJ σ V E L, FJ.Reach body may ok m a ∧ a.m = s.m ∧ a.hist = s.hist ∧
      a.roots = subs s.x.c.log ∧
      (∀ f r, a.mode f = .ended r ↔ Ev.done f r ∈ s.x.c.log) ∧
      ∀ w f, s.x.c.pc w = .run f → a.mode f = .run ∧ a.st f = (s.x.c.fr f).st := by
  obtain ⟨a, ha, hr, hm, hh⟩ := sim hd h
  have F := facts (disc_ctl hd) (reach_x h)
  refine ⟨a, ha, hm, hh, hr.rts, fun f r => ?_, fun w f hp => ?_⟩
  · have h1 : Ev.done f r ∈ s.x.c.log → modeOf f s.x.c.log = .ended r := done_mode (Exn.history_legal (disc_ctl hd) (reach_x h))
    rcases Nat.lt_or_ge f s.x.c.nf with h2 | h2
    · rw [hr.mode f h2]
      exact ⟨done_of_mode, h1⟩
    · rw [hr.un f h2]
      exact ⟨(fun h => nomatch h), fun h => absurd (F.dn f (ended_iff.1 ⟨r, h1 h⟩)) (by omega)⟩
  · obtain ⟨h1, h2⟩ := F.run w f hp
    exact ⟨by rw [hr.mode f h1]; exact h2, hr.st f h1⟩

/-- C61: accesses do not make anything undefined in the runtime, -/
theorem C61_no_ub (hd : Disc body pend dirty) {s : MS σ V E L} (h : Reach body pend may ok m s) (hf : Few s.x.c) (w : Nat) (ch : Choice E) :
    step body w ch s ≠ .ub := by
  have hc : control body w ch s ≠ .ub := by
    unfold control
    have := Exn.no_ub (disc_ctl hd) (reach_x h) hf w (allowed_any ch)
    cases hx : Exn.step (ctl body) w ch s.x with
    | ok x => intro h; cases h
    | no => intro h; cases h
    | ub => exact absurd hx this
  unfold step
  split
  · split
    · intro h; cases h
    · intro h; cases h
    · exact hc
  · exact hc

/-- and a worker inside a task can always go on. -/
theorem C61_proceeds (hd : Disc body pend dirty) {s : MS σ V E L} (h : Reach body pend may ok m s) (hf : Few s.x.c) (w : Nat) (ch : Runtime.Choice)
    (hw : s.x.c.pc w ≠ .idle) : ∃ s', step body w (.go ch) s = .ok s' := by
  have hc : ∃ s', control body w (.go ch) s = .ok s' := by
    unfold control
    obtain ⟨x, hx⟩ := Exn.busy_proceeds (disc_ctl hd) (reach_x h) hf w ch hw
    rw [hx]; exact ⟨_, rfl⟩
  unfold step
  split
  · split
    · exact ⟨_, rfl⟩
    · exact ⟨_, rfl⟩
    · exact hc
  · exact hc

end Verif.Mem
