import Verif.Exn.Sim

/-!
C56: exceptions anywhere in a program of forks, calls, joins and context switches. What `Disc`, `Ser` and `Reach` mean is in
Verif.Exn.Spec; `status`, `forked`, `Legal` are those of Verif.Runtime.Spec.
-/
namespace Verif.Exn
open Verif.Runtime (State Res Fr Pc Loc Link Ev Why upd maxU16 U16 newFrame reset destroy release joinLoad joinSub finPop finDec finLose
  selfSteal stole switchRel steal take doFork doCall report upd_apply upd_same upd_ne results Alive Few Inv InvSlot Status status forked
  Legal MayResume Starts)

section
variable {σ₁ σ₂ W : Type} {Q : σ₁ → σ₂ → Prop}

theorem LogRel.status {l : List (Ev σ₁ W)} {l' : List (Ev σ₂ W)} (h : LogRel Q l l') (f : Nat) : status f l' = status f l := by
  induction h with
  | nil => rfl
  | @cons e e' l l' he _ ih =>
    cases e <;> cases e' <;> simp only [EvRel] at he
    all_goals obtain ⟨rfl, he⟩ := he
    all_goals simp only [Verif.Runtime.status, ih]
    · rw [he.2]
    · rw [he]
    · rw [he]

theorem LogRel.forked {l : List (Ev σ₁ W)} {l' : List (Ev σ₂ W)} (h : LogRel Q l l') (f : Nat) : forked f l' = forked f l := by
  induction h with
  | nil => rfl
  | @cons e e' l l' he _ ih =>
    cases e with
    | submit g c w => cases e' <;> simp only [EvRel] at he <;> exact ih
    | resume g w => cases e' <;> simp only [EvRel] at he <;> exact ih
    | done g v => cases e' <;> simp only [EvRel] at he <;> exact ih
    | suspend g y =>
      cases e' <;> simp only [EvRel] at he
      obtain ⟨rfl, rfl⟩ := he
      rename_i y'
      cases y' with
      | fork c => simp only [Verif.Runtime.forked, ih]
      | _ => exact ih

theorem LogRel.starts {l : List (Ev σ₁ W)} {l' : List (Ev σ₂ W)} (h : LogRel Q l l') (f w : Nat) : Starts f w l' → Starts f w l := by
  cases h with
  | nil => exact id
  | @cons e e' l l' he hl =>
    cases e <;> cases e' <;> simp only [EvRel] at he
    all_goals try exact id
    rename_i y _ y'
    obtain ⟨rfl, rfl⟩ := he
    cases y' <;> simp only [Starts, hl.status] <;> exact id

theorem LogRel.mayResume {l : List (Ev σ₁ W)} {l' : List (Ev σ₂ W)} (h : LogRel Q l l') (f w : Nat) (hm : MayResume l' f w) :
    MayResume l f w := by
  unfold MayResume at hm ⊢
  rw [h.status] at hm
  cases hs : Verif.Runtime.status f l with
  | new => rw [hs] at hm; exact h.starts f w hm
  | submitted d => rw [hs] at hm; exact hm
  | running v => rw [hs] at hm; exact hm
  | done => rw [hs] at hm; exact hm
  | waiting y =>
    rw [hs] at hm
    cases y with
    | fork c => exact hm
    | call c => dsimp only at hm; rw [h.status] at hm; exact hm
    | join =>
      dsimp only at hm ⊢
      intro c hc
      rw [← h.status]; exact hm c (by rw [h.forked]; exact hc)
    | switch d => exact hm

theorem LogRel.legal {l : List (Ev σ₁ W)} {l' : List (Ev σ₂ W)} (h : LogRel Q l l') (hl : Legal l') : Legal l := by
  induction h with
  | nil => trivial
  | @cons e e' l l' he hr ih =>
    cases e <;> cases e' <;> simp only [EvRel] at he
    · obtain ⟨rfl, -, rfl⟩ := he
      exact ⟨by rw [← hr.status]; exact hl.1, ih hl.2⟩
    · obtain ⟨rfl, rfl⟩ := he
      exact ⟨fun g => by rw [← hr.status]; exact hl.1 g, hr.mayResume _ _ hl.2.1, ih hl.2.2⟩
    · obtain ⟨rfl, rfl⟩ := he
      obtain ⟨⟨w, hw⟩, h2⟩ := hl
      exact ⟨⟨w, by rw [← hr.status]; exact hw⟩, ih h2⟩
    · obtain ⟨rfl, rfl⟩ := he
      obtain ⟨⟨w, hw⟩, h2, h3⟩ := hl
      exact ⟨⟨w, by rw [← hr.status]; exact hw⟩, fun c hc => by rw [← hr.status]; exact h2 c (by rw [hr.forked]; exact hc), ih h3⟩

theorem LogRel.doneIff {l : List (Ev σ₁ W)} {l' : List (Ev σ₂ W)} (h : LogRel Q l l') (f : Nat) (v : W) :
    Ev.done f v ∈ l ↔ Ev.done f v ∈ l' := by
  induction h with
  | nil => simp
  | @cons e e' l l' he _ ih =>
    cases e <;> cases e' <;> simp only [EvRel] at he <;> simp only [List.mem_cons, ih, reduceCtorEq, false_or]
    obtain ⟨rfl, rfl⟩ := he
    simp

theorem LogRel.submitted {l : List (Ev σ₁ W)} {l' : List (Ev σ₂ W)} (h : LogRel Q l l') {f w : Nat} {c : σ₁}
    (hm : Ev.submit f c w ∈ l) : ∃ c', Q c c' ∧ Ev.submit f c' w ∈ l' := by
  induction h with
  | nil => cases hm
  | @cons e e' l l' he _ ih =>
    rcases List.mem_cons.1 hm with rfl | hm
    · cases e' <;> simp only [EvRel] at he
      obtain ⟨rfl, hq, rfl⟩ := he
      exact ⟨_, hq, List.mem_cons_self ..⟩
    · obtain ⟨c', h1, h2⟩ := ih hm
      exact ⟨c', h1, List.mem_cons_of_mem _ h2⟩
end

variable {σ V E : Type} {body : σ → Act σ V E} {pend : σ → Nat} {dirty : σ → Prop} {may : E → Prop}

section
variable (hd : Disc body pend dirty)
include hd

/-- C56: no assertion fails and nothing undefined happens, whichever tasks throw and whichever forks, calls and switches fail: in
particular a task that ends has no exception pending, no destroyed frame is touched, no return object is read that was not
written, and an idle worker has an empty queue and stack. -/
theorem no_ub {s : XS σ V E} (h : Reach body pend may s) (hf : Few s.c) (w : Nat) {ch : Choice E} (hch : Allowed may ch) :
    step body w ch s ≠ .ub := by
  obtain ⟨es, r, hr, hrel⟩ := reach_rel hd h (orcBefore body (fun _ => .nil) s w ch)
  have := sim_step hd hch hr (hrel.few.2 hf) hrel
  intro e
  rw [e] at this
  exact this

/-- C56: every history keeps the rules of Verif.Runtime.Spec, where a task is done when it has returned or thrown. -/
theorem history_legal {s : XS σ V E} (h : Reach body pend may s) : Legal s.c.log := by
  obtain ⟨es, r, hr, hrel⟩ := reach_rel hd h fun _ => .nil
  exact hrel.base.log.legal (Verif.Runtime.history_legal (disc_tgt hd) hr)

/-- C56: a task goes on after `co_await join`, or with an exception rethrown there, only when all children it has forked so far
have returned or thrown. -/
theorem join_after_children {s : XS σ V E} (h : Reach body pend may s) {f w : Nat} {l1 l2 : List (Ev σ (Except E V))}
    (hl : s.c.log = l2 ++ .resume f w :: l1) (hj : status f l1 = .waiting .join) : ∀ c ∈ forked f l1, ∃ r, Ev.done c r ∈ l1 := by
  have hg := history_legal hd h
  rw [hl] at hg
  have := (Verif.Runtime.legal_tail hg).2.1
  simp only [MayResume, hj] at this
  exact fun c hc => Verif.Runtime.done_of_status (this c hc)

/-- C56: a task, by returning or throwing, ends at most once and is not resumed afterwards. -/
theorem ends_once {s : XS σ V E} (h : Reach body pend may s) {f : Nat} {r : Except E V} {l1 l2 : List (Ev σ (Except E V))}
    (hl : s.c.log = l2 ++ .done f r :: l1) : ∀ e ∈ l2, (∀ w, e ≠ .resume f w) ∧ ∀ u, e ≠ .done f u := by
  have hg := history_legal hd h
  rw [hl] at hg
  exact (Verif.Runtime.done_stays (by simp [status]) hg).2

/-- C56: the result of a submitted task, value or exception, is one of its serial elision. -/
theorem result_serial {s : XS σ V E} (h : Reach body pend may s) {f w : Nat} {c : σ} {r : Except E V} (hsub : Ev.submit f c w ∈ s.c.log)
    (hdone : Ev.done f r ∈ s.c.log) : Ser body may c [] [] r := by
  obtain ⟨es, r', hr, hrel⟩ := reach_rel hd h fun _ => .nil
  obtain ⟨c', ⟨o, rfl⟩, h2⟩ := hrel.base.log.submitted hsub
  have h3 := (Verif.Runtime.result_serial (disc_tgt hd) hr h2 ((hrel.base.log.doneIff _ _).1 hdone)).1
  have h4 := ser_tgt h3
  rw [norm_es] at h4
  exact norm_ser _ _ _ h4

/-- C56: a worker in its scheduler loop has an empty queue and an empty stack. -/
theorem idle_empty {s : XS σ V E} (h : Reach body pend may s) {w : Nat} (hw : s.c.pc w = .idle) : s.c.q w = [] ∧ s.c.al (s.c.wk w) = [] := by
  obtain ⟨es, r, hr, hrel⟩ := reach_rel hd h fun _ => .nil
  have := Verif.Runtime.idle_empty (disc_tgt hd) hr (w := w) (by rw [hrel.base.pc]; exact hw)
  rw [hrel.base.q, hrel.base.al, hrel.base.wk] at this
  exact this

/-- C56: nothing is lost: when every worker is back in its scheduler and no submission is left, every task ever made has returned
or thrown. -/
theorem nothing_lost {s : XS σ V E} (h : Reach body pend may s) (hw : ∀ w, s.c.pc w = .idle) (hb : ∀ w, s.c.inbox w = []) :
    ∀ f, f < s.c.nf → ∃ r, Ev.done f r ∈ s.c.log := by
  obtain ⟨es, r, hr, hrel⟩ := reach_rel hd h fun _ => .nil
  intro f hf
  obtain ⟨v, hv⟩ := Verif.Runtime.nothing_lost (disc_tgt hd) hr (by rw [hrel.base.pc]; exact hw) (by rw [hrel.base.inbox]; exact hb) f
    (by rw [hrel.base.nf]; exact hf)
  exact ⟨v, (hrel.base.log.doneIff _ _).2 hv⟩

/-- C56: memory is given back: then, too, no frame is left on any stack. -/
theorem nothing_leaks {s : XS σ V E} (h : Reach body pend may s) (hw : ∀ w, s.c.pc w = .idle) (hb : ∀ w, s.c.inbox w = []) (k : Nat) :
    s.c.al k = [] := by
  obtain ⟨es, r, hr, hrel⟩ := reach_rel hd h fun _ => .nil
  have hi := Verif.Runtime.reach_inv (disc_tgt hd) hr
  rw [List.eq_nil_iff_forall_not_mem]
  intro f hf
  have h1 := (hi.stk.mem f k).1 (by rw [hrel.base.al]; exact hf)
  have hlt := alive_lt hi hrel (f := f) (by rw [← hrel.base.loc]; exact h1.1)
  obtain ⟨v, hv⟩ := nothing_lost hd h hw hb f hlt
  have h2 : status f s.c.log = .done := by
    obtain ⟨a, b, e⟩ := List.append_of_mem hv
    have hg := history_legal hd h
    rw [e] at hg ⊢
    exact (Verif.Runtime.done_stays (by simp [status]) hg).1
  have hg := hi.log
  rw [← hrel.base.log.status] at h2
  cases hx : r.loc f with
  | unborn => rw [hx] at h1; exact h1.1
  | gone => rw [hx] at h1; exact h1.1
  | finishing w => rw [hx] at h1; exact h1.1
  | running w =>
    have := (hi.loc.run w f).1 hx
    rw [hrel.base.pc, hw w] at this
    simp at this
  | stolenBy w => have := (hi.loc.sto w f).1 hx; rw [hrel.base.pc, hw w] at this; cases this
  | queued w c => have := hg.qd w f c hx; rw [h2] at this; cases this
  | inbox w => have := (hi.loc.inb w f).1 hx; rw [hrel.base.inbox, hb w] at this; cases this
  | callwait c => have := hg.cw f c hx; rw [h2] at this; cases this
  | parked => have := hg.pk f hx; rw [h2] at this; cases this
  | winning w => have := hg.wi w f hx; rw [h2] at this; cases this

end

/-- A worker that is in a task can take a step, whatever the step is. -/
theorem never_no {s : XS σ V E} {w : Nat} (hw : s.c.pc w ≠ .idle) (ch : Verif.Runtime.Choice) : step body w (.go ch) s ≠ .no := by
  have hpass : ∀ (s : XS σ V E) w f, passJoin body s w f ≠ .no := by
    intro s w f
    unfold passJoin
    dsimp only
    split
    · split <;> simp
    · simp
  have hdes : ∀ (c : State σ (Except E V)) w f, destroy c w f ≠ .no := by
    intro c w f; unfold destroy; split <;> simp
  have hwake : ∀ (x : Res (XS σ V E)) p, x ≠ .no → Res.bind x (wake body · p) ≠ .no := by
    intro x p hx
    cases x with
    | ok s1 => simp only [Res.bind, wake]; split <;> simp
    | ub => simp [Res.bind]
    | no => exact absurd rfl hx
  have hplain : ∀ (x : Res (State σ (Except E V))), x ≠ .no → plain s x ≠ .no := by
    intro x hx
    cases x with
    | ok c => simp [plain, Res.bind]
    | ub => simp [plain, Res.bind]
    | no => exact absurd rfl hx
  have hend : ∀ f v, doEnd body s w f v ≠ .no := by
    intro f v
    unfold doEnd
    dsimp only
    split
    · split
      · split
        · split <;> simp
        · simp
      · split
        · split <;> simp
        · simp
      · split
        · split <;> simp
        · simp
    · simp
  unfold step
  cases hp : s.c.pc w with
  | idle => exact absurd hp hw
  | run f =>
    dsimp only
    unfold run
    dsimp only
    split
    · exact hend _ _
    · exact hend _ _
    · simp
    · simp
    · unfold doJoin; dsimp only; split
      · exact hpass _ _ _
      · simp
    · unfold Verif.Runtime.doSwitch; dsimp only; split <;> simp [Res.bind]
  | joinLoad f => refine hplain _ ?_; unfold joinLoad; dsimp only; split <;> simp
  | joinSub f => refine hplain _ ?_; unfold joinSub; dsimp only; split <;> simp
  | joinTake f => dsimp only; unfold joinTake; split
                  · exact hpass _ _ _
                  · simp
  | finPop p c =>
    have hf : finPop s.c w p c ≠ .no := by
      unfold finPop
      cases hq : s.c.q w with
      | nil => dsimp only; split <;> simp
      | cons x l => dsimp only; split <;> simp
    dsimp only
    split
    · exact hplain _ hf
    · exact hwake _ _ (hplain _ hf)
  | finDec p c same =>
    refine hplain _ ?_; unfold finDec; dsimp only; split
    · split <;> simp
    · simp
  | finWin p same =>
    dsimp only; unfold finWin; split
    · dsimp only; split
      · exact hpass _ _ _
      · split
        · exact hpass _ _ _
        · simp
    · simp
  | finLose same => refine hplain _ ?_; unfold finLose; dsimp only; generalize (if same = true then release s.c w else s.c) = x; split <;> simp
  | selfSteal =>
    refine hplain _ ?_; unfold selfSteal
    cases hq : s.c.q w with
    | nil => dsimp only; split <;> simp
    | cons x l => simp
  | stole p => refine hwake _ _ (hplain _ ?_); unfold stole; split <;> simp
  | switchRel z => refine hplain _ ?_; unfold switchRel; dsimp only; generalize (if z = true then release s.c w else s.c) = x; split <;> simp

/-- C56: no worker gets stuck inside a task, whatever has been thrown. -/
theorem busy_proceeds (hd : Disc body pend dirty) {s : XS σ V E} (h : Reach body pend may s) (hf : Few s.c) (w : Nat)
    (ch : Verif.Runtime.Choice) (hw : s.c.pc w ≠ .idle) : ∃ s', step body w (.go ch) s = .ok s' := by
  cases hs : step body w (.go ch) s with
  | ok s' => exact ⟨s', rfl⟩
  | ub => exact absurd hs (no_ub hd h hf w trivial)
  | no => exact absurd hs (never_no hw ch)

/-- Every state reached by any schedule, whatever the number of steals. -/
inductive ReachAny (body : σ → Act σ V E) (pend : σ → Nat) (may : E → Prop) : XS σ V E → Prop
  | start (x : σ) : ReachAny body pend may (XS.start x)
  | submit {s : XS σ V E} {c : σ} (w : Nat) : ReachAny body pend may s → pend c = 0 → ReachAny body pend may (submit s c w)
  | step {s s' : XS σ V E} {w : Nat} {ch : Choice E} : ReachAny body pend may s → Allowed may ch → step body w ch s = .ok s' →
      ReachAny body pend may s'

theorem few_of_dead (hd : Disc body pend dirty) (hp : ∀ x, pend x ≤ 65534) {s : XS σ V E} (h : Reach body pend may s)
    (hx : ∀ p, ¬ Alive (s.c.loc p) → (s.c.fr p).stolen = 0) : Few s.c := by
  obtain ⟨es, r, hr, hrel⟩ := reach_rel hd h fun _ => .nil
  refine hrel.few.1 (Verif.Runtime.few_of_inv (fun y => hp y.1) (Verif.Runtime.reach_inv (disc_tgt hd) hr) fun p hn => ?_)
  rw [hrel.base.stolen]
  exact hx p (by rw [← hrel.base.loc]; exact hn)

/-- C56: a program whose scopes fork at most 65534 children meets the bound of `Reach` in every schedule. -/
theorem reach_of_bounded (hd : Disc body pend dirty) (hp : ∀ x, pend x ≤ 65534) {s : XS σ V E}
    (h : ReachAny body pend may s) : Reach body pend may s ∧ Few s.c := by
  suffices hx : Reach body pend may s ∧ ∀ p, ¬ Alive (s.c.loc p) → (s.c.fr p).stolen = 0 from
    ⟨hx.1, few_of_dead hd hp hx.1 hx.2⟩
  have hd' := disc_tgt (may := may) hd
  induction h with
  | start x => exact ⟨.start x, fun p _ => rfl⟩
  | @submit s c w _ hc ih =>
    have hf := few_of_dead hd hp ih.1 ih.2
    refine ⟨.submit w ih.1 hf hc, ?_⟩
    obtain ⟨es, r, hr, hrel⟩ := reach_rel hd ih.1 fun _ => .nil
    have hi := Verif.Runtime.reach_inv hd' hr
    have h0 : ∀ p, ¬ Alive (r.loc p) → (r.fr p).stolen = 0 := by
      intro p hn; rw [hrel.base.stolen]; exact ih.2 p (by rw [← hrel.base.loc]; exact hn)
    have h1 := Verif.Runtime.dead_step hd' hi (hrel.few.2 hf) h0 (P := fun _ => True)
      (.submit _ (norm body may ((fun _ => Orc.nil : Nat → Orc E) s.c.nf) c []) w trivial)
    have hrel' := sim_submit w c hrel
    intro p hn
    rw [← hrel'.base.stolen]
    exact h1 p (by rw [hrel'.base.loc]; exact hn)
  | @step s s' w ch _ hch hs ih =>
    have hf := few_of_dead hd hp ih.1 ih.2
    refine ⟨.step ih.1 hf hch hs, ?_⟩
    obtain ⟨es, r, hr, hrel⟩ := reach_rel hd ih.1 (orcBefore body (fun _ => .nil) s w ch)
    have hi := Verif.Runtime.reach_inv hd' hr
    have h0 : ∀ p, ¬ Alive (r.loc p) → (r.fr p).stolen = 0 := by
      intro p hn; rw [hrel.base.stolen]; exact ih.2 p (by rw [← hrel.base.loc]; exact hn)
    have h1 := sim_step hd hch hr (hrel.few.2 hf) hrel
    rw [hs] at h1
    obtain ⟨es', r', h1, hrel'⟩ := h1
    have h2 : ∀ p, ¬ Alive (r'.loc p) → (r'.fr p).stolen = 0 := by
      split at h1
      · subst h1; exact h0
      · exact Verif.Runtime.dead_step hd' hi (hrel.few.2 hf) h0 (P := fun _ => True) (Verif.Runtime.step_rel h1)
    intro p hn
    rw [← hrel'.base.stolen]
    exact h2 p (by rw [hrel'.base.loc]; exact hn)

/-- What a failing fork, call or switch of the task `f` may do: nothing, but that the task goes on where the exception leads it. -/
def Untouched (s s' : XS σ V E) (f : Nat) (x : σ) : Prop :=
  s'.c.q = s.c.q ∧ s'.c.al = s.c.al ∧ s'.c.wk = s.c.wk ∧ s'.c.inbox = s.c.inbox ∧ s'.c.pc = s.c.pc ∧ s'.c.log = s.c.log ∧
  s'.exc = s.exc ∧ s'.c.nf = s.c.nf ∧ (s'.c.fr f).st = x ∧ (∀ g, g ≠ f → s'.c.fr g = s.c.fr g) ∧
  (s'.c.fr f).steal = (s.c.fr f).steal ∧ (s'.c.fr f).join = (s.c.fr f).join ∧ (s'.c.fr f).slots = (s.c.fr f).slots

/-- C56: a fork, call or switch that throws has no effect: nothing is queued, submitted or left on a stack (a child's frame that had
already been allocated is destroyed, on top of the worker's stack), and no counter, return object or captured exception is changed.
The exception is thrown in the task. -/
theorem fail_atomic {s : XS σ V E} {w f : Nat} {e : E} (late : Bool) (hp : s.c.pc w = .run f) {x : E → σ}
    (hb : (∃ c k, body (s.c.fr f).st = .fork c k x) ∨ (∃ c k, body (s.c.fr f).st = .call c k x) ∨ ∃ d k, body (s.c.fr f).st = .switch d k x) :
    ∃ s', step body w (.fail e late) s = .ok s' ∧ Untouched s s' f (x e) := by
  have hu : Untouched s { s with c := goOn s.c f (x e) } f (x e) := by
    refine ⟨rfl, rfl, rfl, rfl, rfl, rfl, rfl, rfl, ?_, fun g hg => ?_, ?_, ?_, ?_⟩ <;> simp [goOn, upd_apply]
    exact fun h => absurd h hg
  unfold step
  simp only [hp]
  unfold run
  dsimp only
  rcases hb with ⟨c, k, hb⟩ | ⟨c, k, hb⟩ | ⟨d, k, hb⟩
  · rw [hb]; dsimp only; rw [failed_eq]; exact ⟨_, rfl, hu⟩
  · rw [hb]; dsimp only; rw [failed_eq]; exact ⟨_, rfl, hu⟩
  · rw [hb]; exact ⟨_, rfl, hu⟩

/-- C56: what a sync fork answers. When a task that waits after a fork goes on, it does so with an answer `b`; `true` is only answered
if the child has returned or thrown, `false` only if the task has been stolen since. -/
theorem sync_fork (hd : Disc body pend dirty) {s s' : XS σ V E} (h : Reach body pend may s) {w p c : Nat}
    {ch : Choice E} (hs : step body w ch s = .ok s') (hlog : s'.c.log = .resume p w :: s.c.log)
    (hst : status p s.c.log = .waiting (.fork c)) :
    ∃ c0 k x b, body (s.c.fr p).st = .fork c0 k x ∧ (s'.c.fr p).st = k b ∧ (b = true → (∃ r, Ev.done c r ∈ s.c.log) ∧ (s'.c.fr p).stolen = (s.c.fr p).stolen) ∧
      (b = false → (s'.c.fr p).stolen = (s.c.fr p).stolen + 1) := by
  obtain ⟨es, r, hr, hrel⟩ := reach_rel hd h fun _ => .nil
  have hi := Verif.Runtime.reach_inv (disc_tgt hd) hr
  have hg := hi.log
  have hstr : status p r.log = .waiting (.fork c) := by rw [hrel.base.log.status]; exact hst
  have ne : ∀ {α : Type} (a : α) (l : List α), l ≠ a :: l := fun a l e => by
    have := congrArg List.length e; simp at this
  have nst : ∀ {g g' : Nat} {y : Why} {l : List (Ev σ (Except E V))}, Ev.resume g w :: Ev.suspend g' y :: l ≠ .resume p w :: l := by
    intro g g' y l e; have := congrArg List.length e; simp at this
  have hnj : ∀ v, r.loc p ≠ .winning v := by
    intro v hx; have := hg.wi v p hx; rw [hstr] at this; cases this
  have hnr : ∀ v, r.loc p ≠ .running v → r.pc v ≠ .run p := by
    intro v hx hy; exact hx ((hi.loc.run v p).2 (Or.inl hy))
  -- a pass through a join resumes a task that was not waiting after a fork
  have hpass : ∀ {s0 s1 : XS σ V E} {f : Nat}, passJoin body s0 w f = .ok s1 → s1.c.log = .resume f w :: s0.c.log := by
    intro s0 s1 f hx
    unfold passJoin at hx
    dsimp only at hx
    split at hx
    · split at hx <;> cases hx <;> rfl
    · cases hx
  unfold step at hs
  cases hp : s.c.pc w with
  | idle =>
    rw [hp] at hs
    cases ch with
    | go ch =>
      cases ch with
      | take =>
        exfalso
        dsimp only at hs
        unfold take at hs
        cases hb : s.c.inbox w with
        | nil => rw [hb] at hs; cases hs
        | cons f l =>
          rw [hb] at hs
          dsimp only at hs
          split at hs
          · cases hs
            cases hlog
            have h1 := (hi.loc.inb w p).2 (by rw [hrel.base.inbox, hb]; exact List.mem_cons_self ..)
            have h2 := hg.ib w p h1
            rw [hstr] at h2
            exact h2
          · cases hs
      | steal v =>
        exfalso
        dsimp only at hs
        unfold steal at hs
        split at hs
        · split at hs
          · cases hs; exact ne _ _ hlog
          · split at hs <;> cases hs
        · cases hs
    | fail e late => cases hs
    | ready => cases hs
  | run f =>
    rw [hp] at hs
    have hrun : status f s.c.log = .running w := by rw [← hrel.base.log.status]; exact hg.rn w f (by rw [hrel.base.pc]; exact hp)
    exfalso
    dsimp only at hs
    unfold run at hs
    cases ch with
    | fail e late =>
      dsimp only at hs
      split at hs
      · rw [failed_eq] at hs; cases hs; exact ne _ _ hlog
      · rw [failed_eq] at hs; cases hs; exact ne _ _ hlog
      · cases hs; exact ne _ _ hlog
      · cases hs
    | ready =>
      dsimp only at hs
      split at hs
      · cases hs; exact ne _ _ hlog
      · cases hs
    | go ch =>
      have hend : ∀ v, doEnd body s w f v = .ok s' → False := by
        intro v hx
        unfold doEnd at hx
        dsimp only at hx
        split at hx
        · split at hx
          · split at hx
            · split at hx <;> cases hx
              cases hlog
            · cases hx
          · split at hx
            · split at hx <;> cases hx
              have := congrArg List.length hlog; simp at this
            · cases hx
          · split at hx
            · split at hx <;> cases hx
              cases hlog
            · cases hx
        · cases hx
      dsimp only at hs
      split at hs
      · exact hend _ hs
      · exact hend _ hs
      · cases hs; exact nst hlog
      · cases hs; exact nst hlog
      · unfold doJoin at hs
        dsimp only at hs
        split at hs
        · have := hpass hs
          rw [this] at hlog
          have := congrArg List.length hlog; simp at this
        · cases hs; cases hlog
      · unfold Verif.Runtime.doSwitch at hs
        dsimp only at hs
        split at hs <;> cases hs
        cases hlog
  | joinLoad f =>
    rw [hp] at hs
    exfalso
    dsimp only at hs
    unfold joinLoad at hs
    dsimp only at hs
    split at hs <;> cases hs <;> exact ne _ _ hlog
  | joinSub f =>
    rw [hp] at hs
    exfalso
    dsimp only at hs
    unfold joinSub at hs
    dsimp only at hs
    split at hs <;> cases hs <;> exact ne _ _ hlog
  | joinTake f =>
    rw [hp] at hs
    exfalso
    dsimp only at hs
    unfold joinTake at hs
    split at hs
    · have := hpass hs
      rw [this] at hlog
      cases hlog
      exact hnj w ((hi.loc.win w p).2 (Or.inl (by rw [hrel.base.pc]; exact hp)))
    · cases hs
  | finPop p' k =>
    rw [hp] at hs
    have hpr : r.pc w = .finPop p' k := by rw [hrel.base.pc]; exact hp
    dsimp only at hs
    cases hq : s.c.q w with
    | nil =>
      rw [hq] at hs
      exfalso
      dsimp only at hs
      unfold finPop at hs
      rw [hq] at hs
      dsimp only at hs
      split at hs <;> cases hs
      exact ne _ _ hlog
    | cons e l =>
      rw [hq] at hs
      dsimp only at hs
      unfold finPop at hs
      rw [hq] at hs
      dsimp only at hs
      split at hs
      · rename_i hc
        obtain ⟨rfl, -⟩ := hc
        simp only [plain, Res.bind] at hs
        have hle : r.loc e.1 = .queued w e.2 := (hi.loc.queue w e.1 e.2).2 (by rw [hrel.base.q, hq]; exact List.mem_cons_self ..)
        have hae := hrel.aw e.1
        rw [← hrel.base.loc, hle] at hae
        have hae : s.aw e.1 = some (.fork (s.c.fr e.1).steal) := hae
        have hek : e.2 = k := by
          have := hi.q.fp w e.1 k hpr e (by rw [hrel.base.q, hq]; rfl)
          exact this
        have hdone : status k s.c.log = .done := by
          rw [← hrel.base.log.status]; exact hg.fi w k ((hi.loc.fin w k).2 ⟨e.1, Or.inl hpr⟩)
        unfold wake at hs
        simp only [hae] at hs
        split at hs
        · rename_i c0 k0 x0 hsome hbd
          cases hs
          cases hlog
          cases hsome
          have hck : c = k := by
            have := hg.qd w e.1 e.2 hle
            rw [hstr] at this; cases this; exact hek
          refine ⟨c0, k0, x0, true, ?_, ?_, fun _ => ⟨?_, ?_⟩, (fun h => by cases h)⟩
          · simpa [report, upd_same] using hbd
          · simp [goOn, report, upd_same]
          · subst hck; exact Verif.Runtime.done_of_status hdone
          · simp [goOn, report, upd_same]
        · cases hs
      · cases hs
  | finDec p' k same =>
    rw [hp] at hs
    exfalso
    dsimp only at hs
    unfold finDec at hs
    dsimp only at hs
    split at hs
    · split at hs <;> cases hs <;> exact ne _ _ hlog
    · cases hs
  | finWin p' same =>
    rw [hp] at hs
    exfalso
    have hwin : ∀ {s0}, s0.c.log = s.c.log → passJoin body s0 w p' = .ok s' → False := by
      intro s0 e hx
      have := hpass hx
      rw [this, e] at hlog
      cases hlog
      exact hnj w ((hi.loc.win w p).2 (Or.inr ⟨same, by rw [hrel.base.pc]; exact hp⟩))
    dsimp only at hs
    unfold finWin at hs
    split at hs
    · dsimp only at hs
      split at hs
      · exact hwin (by rfl) hs
      · split at hs
        · exact hwin (by rfl) hs
        · cases hs
    · cases hs
  | finLose same =>
    rw [hp] at hs
    exfalso
    dsimp only at hs
    unfold finLose at hs
    cases same <;> simp only [Bool.false_eq_true, if_false, if_true] at hs <;> split at hs <;> cases hs <;> exact ne _ _ hlog
  | selfSteal =>
    rw [hp] at hs
    exfalso
    dsimp only at hs
    unfold selfSteal at hs
    split at hs
    · cases hs; exact ne _ _ hlog
    · split at hs <;> cases hs; exact ne _ _ hlog
  | stole p' =>
    rw [hp] at hs
    dsimp only at hs
    unfold stole at hs
    split at hs
    · simp only [plain, Res.bind] at hs
      have hae := hrel.aw p'
      rw [← hrel.base.loc, (hi.loc.sto w p').2 (by rw [hrel.base.pc]; exact hp)] at hae
      have hae : s.aw p' = some (.fork (s.c.fr p').steal) := hae
      unfold wake at hs
      simp only [hae] at hs
      split at hs
      · rename_i c0 k0 x0 hsome hbd
        cases hs
        cases hlog
        cases hsome
        refine ⟨c0, k0, x0, false, ?_, ?_, (fun h => by cases h), fun _ => ?_⟩
        · simpa [upd_same] using hbd
        · simp only [goOn, upd_same, U16]
          congr 1
          simp only [decide_eq_false_iff_not]; omega
        · simp [goOn, upd_same]
      · cases hs
    · cases hs
  | switchRel z =>
    rw [hp] at hs
    exfalso
    dsimp only at hs
    unfold switchRel at hs
    cases z <;> simp only [Bool.false_eq_true, if_false, if_true] at hs <;> split at hs <;> cases hs <;> exact ne _ _ hlog

end Verif.Exn
