import Mathlib.Tactic.Convert
import Verif.Except.Inv

/-!
Properties C14, C15, C16 and C38 about exception propagation. The vocabulary of the statements is the history of a
task (`Ev`) and `pend`, both in `Verif.Except.Model` and `Verif.Except.Inv`.
-/
namespace Verif.Except

variable {X : Type}

theorem inv_reach {thr : Kind → Bool} {kind : Nat → Kind} {s : St X} (h : Reach thr kind s) : Inv s := by
  induction h with
  | init => exact inv_init kind
  | step _ hs ih => exact inv_step ih hs

/-- Every step extends the history by at most one event. -/
theorem log_step {thr : Kind → Bool} {s s' : St X} (hs : Step thr s s') :
    s'.log = s.log ∨ ∃ ev, s'.log = ev :: s.log := by
  have hr : ∀ (s : St X) h k r b, (rethrowThen s h k r b).log = s.log ∨ ∃ ev, (rethrowThen s h k r b).log = ev :: s.log := by
    intro s h k r b
    unfold rethrowThen rethrow resumeWith
    repeat' split
    all_goals simp_all
    all_goals grind
  have ha : ∀ (s : St X) a h k pre r, (awaitResume s a h k pre r).log = s.log ∨
      ∃ ev, (awaitResume s a h k pre r).log = ev :: s.log := by
    intro s a h k pre r
    unfold awaitResume substituteThen
    repeat' split
    all_goals first
      | exact hr _ _ _ _ _
      | simp [resumeWith]
  cases hs with
  | resumeFork => exact ha _ _ _ _ _ _
  | resumeStolen => exact ha _ _ _ _ _ _
  | resumeCall => exact ha _ _ _ _ _ _
  | resumeJust => unfold justResume; split <;> simp [resumeWith]
  | join => split <;> simp
  | _ => simp

/-- A property of the newest event, established by every step, holds of every event in the history. -/
theorem log_forall {thr : Kind → Bool} {kind : Nat → Kind} (P : Ev X → List (Ev X) → Prop)
    (hP : ∀ s s' : St X, Reach thr kind s → Step thr s s' → ∀ ev, s'.log = ev :: s.log → P ev s.log)
    {s : St X} (h : Reach thr kind s) : ∀ l1 ev l2, s.log = l1 ++ ev :: l2 → P ev l2 := by
  induction h with
  | init => intro l1 ev l2 h; simp [init] at h
  | @step s s' hr hs ih =>
    intro l1 ev l2 h
    rcases log_step hs with h1 | ⟨ev', h1⟩
    · exact ih l1 ev l2 (h1 ▸ h)
    · rw [h1] at h
      cases l1 with
      | nil =>
        simp only [List.nil_append, List.cons.injEq] at h
        obtain ⟨rfl, rfl⟩ := h
        exact hP s s' hr hs _ h1
      | cons e1 l1 =>
        simp only [List.cons_append, List.cons.injEq] at h
        exact ih l1 ev l2 h.2

/-- What the history says about the children. -/
structure Hist (s : St X) : Prop where
  exn : ∀ k kd e, (s.child k = .unhandled kd e ∨ (s.child k = .construct e ∧ kd = .plain) ∨ s.child k = .done kd (.exn e)) →
    Ev.threw k kd e ∈ s.log
  val : ∀ k kd, s.child k = .done kd .value → Ev.returned k ∈ s.log
  nostole : ∀ k, Ev.stole k ∈ s.log → s.child k ≠ .idle ∧ ¬ s.par.current k
  stole : ∀ k m pre, s.par = .stolen k m pre → Ev.stole k ∈ s.log
  act : ∀ k, s.par.current k → s.child k ≠ .idle
  cur : ∀ k e, s.par.current k → s.child k = .done .plain (.exn e) → s.except = true ∧ e ∈ pend s.log

/-- Resuming the parent adds no event about the children and touches no child. -/
theorem await_shape (s : St X) (a h k pre r) : (awaitResume s a h k pre r).child = s.child ∧
    (∀ j, ¬ (awaitResume s a h k pre r).par.current j) ∧
    (∀ j m p, (awaitResume s a h k pre r).par ≠ .stolen j m p) ∧
    ((awaitResume s a h k pre r).log = s.log ∨ ∃ o, (awaitResume s a h k pre r).log = .awaited h k (s.kind k) r o :: s.log) := by
  unfold awaitResume substituteThen rethrowThen rethrow resumeWith
  repeat' split
  all_goals simp_all [Par.current]
  all_goals grind [Par.current]

theorem hist_step {thr : Kind → Bool} {s s' : St X} (hi : Inv s) (hh : Hist s) (hs : Step thr s s') : Hist s' := by
  have ha : ∀ a h k pre r, Hist (awaitResume s a h k pre r) := by
    intro a h k pre r
    obtain ⟨h1, h2, h3, h4⟩ := await_shape s a h k pre r
    generalize awaitResume s a h k pre r = t at *
    cases hh
    rcases h4 with h4 | ⟨o, h4⟩ <;> constructor <;> simp_all
  cases hs with
  | resumeFork => exact ha _ _ _ _ _
  | resumeStolen => exact ha _ _ _ _ _
  | resumeCall => exact ha _ _ _ _ _
  | resumeJust k kd r hp hd =>
      unfold justResume resumeWith
      cases hh
      split <;> constructor <;> simp_all [Par.current]
  | join hp hq =>
      have hn : NoStash s := by simp [NoStash, hp]
      rcases rethrow_quiet hi hq hn with ⟨hx, h1, h2⟩ | ⟨e, _, _, _, h1⟩
      all_goals
        simp only [h1]
        cases hh
        constructor <;> simp_all [Par.current]
  | fork k m hp hk => cases hh; constructor <;> simp only [set_eq, pend, Par.current, List.mem_cons] <;> grind [Par.current]
  | call k m hp hk => cases hh; constructor <;> simp only [set_eq, pend, Par.current, List.mem_cons] <;> grind [Par.current]
  | just k hp hk hkd => cases hh; constructor <;> simp only [set_eq, pend, Par.current, List.mem_cons] <;> grind [Par.current]
  | steal k m pre hp => cases hh; constructor <;> simp only [set_eq, pend, Par.current, List.mem_cons] <;> grind [Par.current]
  | ret k kd hk => cases hh; constructor <;> simp only [set_eq, pend, List.mem_cons] <;> grind
  | throw k kd e hk => cases kd <;> (cases hh; constructor <;> simp only [set_eq, pend, List.mem_cons] <;> grind)
  | stashRet k e hk => cases hh; constructor <;> simp only [set_eq] <;> grind
  | capture k e hk =>
      have := hi.pUnh k e hk
      cases hh; constructor <;> simp only [set_eq] <;> grind
  | construct k e hk =>
      have := hi.con k e hk
      cases hh; constructor <;> simp only [set_eq] <;> grind [Par.current]
  | stash e hp => cases hh; constructor <;> simp only [pend, Par.current, List.mem_cons] <;> grind [Par.current]
  | stashX e hp => cases hh; constructor <;> grind [Par.current]
  | stashC e hp => cases hh; constructor <;> grind [Par.current]
  | final hp => cases hh; constructor <;> grind [Par.current]

theorem hist_reach {thr : Kind → Bool} {kind : Nat → Kind} {s : St X} (h : Reach thr kind s) : Hist s := by
  induction h with
  | init => constructor <;> simp [init, Par.current]
  | step hr hs ih => exact hist_step (inv_reach hr) ih hs

theorem kind_reach {thr : Kind → Bool} {kind : Nat → Kind} {s : St X} (h : Reach thr kind s) : s.kind = kind := by
  have ha : ∀ (s : St X) a h k pre r, (awaitResume s a h k pre r).kind = s.kind := by
    intro s a h k pre r
    unfold awaitResume substituteThen rethrowThen rethrow resumeWith
    repeat' split
    all_goals simp_all
    all_goals grind
  induction h with
  | init => rfl
  | step _ hs ih =>
    rw [← ih]
    cases hs with
    | resumeFork => exact ha _ _ _ _ _ _
    | resumeStolen => exact ha _ _ _ _ _ _
    | resumeCall => exact ha _ _ _ _ _ _
    | resumeJust => unfold justResume resumeWith; split <;> rfl
    | join => unfold rethrow; repeat' split
              all_goals simp_all
              all_goals grind
    | _ => rfl

/-! ### C14 -/

/-- **C14.** Every `co_await join` that returned or threw did so correctly: with nothing pending it returned normally,
otherwise it threw exactly one of the pending exceptions. Pending are the exceptions thrown by this task's children (with
plain return addresses) or stashed by the task, since an exception was last delivered: so a delivered exception is never
delivered again, and none is left over for a later scope. Any choice `thr` of awaitables is allowed. -/
theorem join_rethrows {thr : Kind → Bool} {kind : Nat → Kind} {s : St X} (h : Reach thr kind s)
    (l1 l2 : List (Ev X)) (o : Out X) (hl : s.log = l1 ++ .joined o :: l2) :
    (pend l2 = [] ∧ o = .ok true) ∨ ∃ e, e ∈ pend l2 ∧ o = .threw e := by
  refine log_forall (P := fun ev l2 => ∀ o, ev = .joined o → (pend l2 = [] ∧ o = .ok true) ∨ ∃ e, e ∈ pend l2 ∧ o = .threw e)
    ?_ h l1 _ l2 hl o rfl
  intro s s' hr hs ev hev o ho
  subst ho
  have hna : ∀ a h k pre r, (awaitResume s a h k pre r).log ≠ .joined o :: s.log := by
    intro a h k pre r hx
    rcases (await_shape s a h k pre r).2.2.2 with h4 | ⟨o', h4⟩ <;> simp [h4] at hx
  cases hs with
  | resumeFork => exact absurd hev (hna _ _ _ _ _)
  | resumeStolen => exact absurd hev (hna _ _ _ _ _)
  | resumeCall => exact absurd hev (hna _ _ _ _ _)
  | resumeJust => unfold justResume resumeWith at hev; split at hev <;> simp at hev
  | join hp hq =>
      rcases rethrow_quiet (inv_reach hr) hq (by simp [NoStash, hp]) with ⟨hx, h1, h2⟩ | ⟨e, _, _, h2, h1⟩
      · simp only [h1, List.cons.injEq, Ev.joined.injEq, and_true] at hev
        exact .inl ⟨h2, hev.symm⟩
      · simp only [h1, List.cons.injEq, Ev.joined.injEq, and_true] at hev
        exact .inr ⟨e, h2, hev.symm⟩
  | _ => simp at hev

theorem pend_source {l : List (Ev X)} {e : X} (h : e ∈ pend l) : (∃ k, Ev.threw k .plain e ∈ l) ∨ Ev.stashed e ∈ l := by
  induction l with
  | nil => simp [pend] at h
  | cons ev l ih =>
    have key : e ∈ pend l → (∃ k, Ev.threw k .plain e ∈ ev :: l) ∨ Ev.stashed e ∈ ev :: l := by
      intro h
      rcases ih h with ⟨k, h⟩ | h
      · exact .inl ⟨k, by simp [h]⟩
      · exact .inr (by simp [h])
    unfold pend at h
    split at h
    all_goals first
      | exact key h
      | (simp at h; done)
      | skip
    · rename_i k e' l' heq
      simp only [List.cons.injEq] at heq
      obtain ⟨rfl, rfl⟩ := heq
      rcases List.mem_cons.1 h with rfl | h
      · exact .inl ⟨k, by simp⟩
      · exact key h
    · rename_i e' l' heq
      simp only [List.cons.injEq] at heq
      obtain ⟨rfl, rfl⟩ := heq
      rcases List.mem_cons.1 h with rfl | h
      · exact .inr (by simp)
      · exact key h
    · rename_i heq
      simp only [List.cons.injEq] at heq
      obtain ⟨rfl, rfl⟩ := heq
      exact key h

/-- **C14.** The exception a join throws was thrown by a child with a plain return address or stashed by the task. -/
theorem join_exception_source {thr : Kind → Bool} {kind : Nat → Kind} {s : St X} (h : Reach thr kind s)
    (l1 l2 : List (Ev X)) (e : X) (hl : s.log = l1 ++ .joined (.threw e) :: l2) :
    (∃ k, Ev.threw k .plain e ∈ l2) ∨ Ev.stashed e ∈ l2 := by
  rcases join_rethrows h l1 l2 _ hl with ⟨_, h⟩ | ⟨e', h1, h2⟩
  · simp at h
  · cases h2
    exact pend_source h1

/-- **C14.** Concurrent captures never corrupt the frame: the exception pointer is never read unconstructed and never
constructed twice, and `just` never reads an empty return object. What can go wrong is only a broken promise of the
program: an `*_outside` modifier inside a scope, or a task that finishes with an open scope or an undelivered exception. -/
theorem frame_never_corrupted {thr : Kind → Bool} {kind : Nat → Kind} {s : St X} (h : Reach thr kind s) (w : Why)
    (hw : s.par = .bad w) : w = .notOutside ∨ w = .finalOpen ∨ w = .finalException := by
  have := (inv_reach h).par
  rw [hw] at this
  exact this

/-! ### C16 -/

/-- **C16.** A finished child's return object holds what the child produced: its value, or, if the return address can
stash exceptions, its exception. A child whose return address is plain never puts an exception there. -/
theorem slot_holds_result {thr : Kind → Bool} {kind : Nat → Kind} {s : St X} (h : Reach thr kind s) (k : Nat) :
    (∀ kd, s.child k = .done kd .value → s.slot k = .value) ∧
    (∀ e, s.child k = .done .stash (.exn e) → s.slot k = .exn e) ∧
    (∀ e, s.child k = .done .plain (.exn e) → s.slot k = .empty) ∧
    (∀ kd e, s.child k = .done kd (.exn e) → kd = kind k ∧ Ev.threw k kd e ∈ s.log) ∧
    (∀ e, s.slot k = .exn e → kind k = .stash ∧ Ev.threw k .stash e ∈ s.log) ∧
    (∀ kd, s.child k = .run kd → s.slot k = .empty) := by
  have hok := (inv_reach h).ok k
  have hh := hist_reach h
  rw [kind_reach h] at hok
  have hx := hh.exn k
  refine ⟨?_, ?_, ?_, ?_, ?_, ?_⟩
  · intro kd hc; rw [hc] at hok; exact hok.2
  · intro e hc; rw [hc] at hok; exact hok.2
  · intro e hc; rw [hc] at hok; exact hok.2
  · intro kd e hc
    rw [hc] at hok
    refine ⟨?_, hx kd e (.inr (.inr hc))⟩
    cases kd <;> exact hok.1.symm
  · intro e hc
    rw [hc] at hok
    generalize hd : s.child k = c at hok
    match c with
    | .idle => simp [ChildOk] at hok
    | .run _ => simp [ChildOk] at hok
    | .unhandled _ _ => simp [ChildOk] at hok
    | .construct _ => simp [ChildOk] at hok
    | .done _ .value => simp [ChildOk] at hok
    | .done .plain (.exn _) => simp [ChildOk] at hok
    | .done .stash (.exn e') =>
      simp only [ChildOk, Slot.exn.injEq] at hok
      obtain ⟨h1, rfl⟩ := hok
      exact ⟨h1, hx .stash _ (.inr (.inr hd))⟩
  · intro kd hc; rw [hc] at hok; exact hok.2

/-- **C16.** If every return address can stash exceptions and the task stashes none itself, no join throws, whatever the
children throw. -/
theorem join_quiet_of_stash {thr : Kind → Bool} {kind : Nat → Kind} {s : St X} (h : Reach thr kind s)
    (hk : ∀ k, kind k = .stash) (hs : ∀ e, Ev.stashed e ∉ s.log) (o : Out X) (ho : Ev.joined o ∈ s.log) : o = .ok true := by
  have hall : ∀ k kd e, Ev.threw k kd e ∈ s.log → kd = kind k := by
    intro k kd e hm
    obtain ⟨l1, l2, hl⟩ := List.append_of_mem hm
    refine log_forall (P := fun ev l2 => ∀ k kd e, ev = .threw k kd e → kd = kind k) ?_ h l1 _ l2 hl k kd e rfl
    intro s s' hr hs ev hev k kd e ho
    subst ho
    have hna : ∀ a h k' pre r, (awaitResume s a h k' pre r).log ≠ .threw k kd e :: s.log := by
      intro a h k' pre r hx
      rcases (await_shape s a h k' pre r).2.2.2 with h4 | ⟨o', h4⟩ <;> simp [h4] at hx
    cases hs with
    | resumeFork => exact absurd hev (hna _ _ _ _ _)
    | resumeStolen => exact absurd hev (hna _ _ _ _ _)
    | resumeCall => exact absurd hev (hna _ _ _ _ _)
    | resumeJust => unfold justResume resumeWith at hev; split at hev <;> simp at hev
    | join => split at hev <;> simp at hev
    | throw j kd' e' hc =>
        simp only [List.cons.injEq, Ev.threw.injEq, and_true] at hev
        obtain ⟨rfl, rfl, rfl⟩ := hev
        have hok := (inv_reach hr).ok j
        rw [hc, kind_reach hr] at hok
        exact hok.1
    | _ => simp at hev
  obtain ⟨l1, l2, hl⟩ := List.append_of_mem ho
  rcases join_rethrows h l1 l2 o hl with ⟨_, h⟩ | ⟨e, h1, rfl⟩
  · exact h
  · rcases pend_source h1 with ⟨k, h1⟩ | h1
    · have := hall k .plain e (by simp [hl, h1])
      simp [hk] at this
    · exact absurd (by simp [hl, h1]) (hs e)

/-! ### C38 -/

theorem rethrowThen_log {s : St X} {h k r b ev} (hr : (rethrowThen s h k r b).log = ev :: s.log) :
    (s.except = true ∧ ∃ e, s.eptr = some e ∧ ev = .awaited h k (s.kind k) r (.threw e)) ∨
    (s.except = false ∧ ev = .awaited h k (s.kind k) r (.ok b)) := by
  unfold rethrowThen rethrow resumeWith at hr
  cases hx : s.except <;> cases he : s.eptr <;> simp_all

theorem substituteThen_log {s : St X} {h k r b ev} (hr : (substituteThen s h k r b).log = ev :: s.log) :
    (s.except = true ∧ ev = .awaited h k (s.kind k) r .beforeJoin) ∨
    (s.except = false ∧ ev = .awaited h k (s.kind k) r (.ok b)) := by
  unfold substituteThen resumeWith at hr
  cases hx : s.except <;> simp_all


/-- **C38.** The bool a sync fork reports is `true` exactly when the parent's continuation was not stolen while the child
ran, and then the child has finished; if the fork throws instead, the continuation was not stolen either. -/
theorem sync_fork_truthful {thr : Kind → Bool} {kind : Nat → Kind} {s : St X} (h : Reach thr kind s)
    (l1 l2 : List (Ev X)) (m : FMod) (hm : m ≠ .none) (k : Nat) (kd : Kind) (r : Option (Res X)) (o : Out X)
    (hl : s.log = l1 ++ .awaited (.fork m) k kd r o :: l2) :
    (∀ b, o = .ok b → (b = true ↔ Ev.stole k ∉ l2)) ∧
    ((∀ b, o ≠ .ok b) → Ev.stole k ∉ l2) ∧
    (Ev.stole k ∉ l2 → Ev.returned k ∈ l2 ∨ ∃ e, Ev.threw k kd e ∈ l2) := by
  refine log_forall (P := fun ev l2 => ∀ m k kd r o, m ≠ .none → ev = .awaited (.fork m) k kd r o →
    (∀ b, o = .ok b → (b = true ↔ Ev.stole k ∉ l2)) ∧ ((∀ b, o ≠ .ok b) → Ev.stole k ∉ l2) ∧
    (Ev.stole k ∉ l2 → Ev.returned k ∈ l2 ∨ ∃ e, Ev.threw k kd e ∈ l2)) ?_ h l1 _ l2 hl m k kd r o hm rfl
  clear hl hm m k kd r o l1 l2 h s
  intro s s' hr hs ev hev m k kd r o hm ho
  subst ho
  have hi := inv_reach hr
  have hh := hist_reach hr
  cases hs with
  | resumeFork k' m' pre kd' r' hp hd =>
    have hsh := (await_shape s (transformFork (thr (s.kind k')) m') (.fork m') k' pre (some r')).2.2.2
    rw [hev] at hsh
    rcases hsh with h | ⟨o', h⟩
    · simp at h
    simp only [List.cons.injEq, Ev.awaited.injEq, How.fork.injEq, and_true] at h
    obtain ⟨rfl, rfl, rfl, rfl, rfl⟩ := h
    have hpre : s.steals = pre := by have := hi.par; rw [hp] at this; exact this
    have hns : Ev.stole k ∉ s.log := fun hx => (hh.nostole k hx).2 (by simp [hp, Par.current])
    refine ⟨?_, fun _ => hns, fun _ => ?_⟩
    · intro b hb
      subst hb
      simp only [hns, not_false_eq_true, iff_true]
      have k1 : ∀ b', (rethrowThen s (.fork m) k (some r') b').log = .awaited (.fork m) k (s.kind k) (some r') (.ok b) :: s.log →
          b = b' := by
        intro b' hb
        rcases rethrowThen_log hb with ⟨_, e', he', hv⟩ | ⟨hx, hv⟩ <;> simp at hv
        exact hv
      have k2 : ∀ b', (substituteThen s (.fork m) k (some r') b').log = .awaited (.fork m) k (s.kind k) (some r') (.ok b) :: s.log →
          b = b' := by
        intro b' hb
        rcases substituteThen_log hb with ⟨_, hv⟩ | ⟨hx, hv⟩ <;> simp at hv
        exact hv
      cases m <;> simp only [transformFork, awaitResume, hpre, if_true] at hev
      · exact absurd rfl hm
      all_goals
        repeat' split at hev
        all_goals first
          | exact k1 _ hev
          | exact k2 _ hev
          | (simp only [resumeWith, List.cons.injEq, Ev.awaited.injEq, Out.ok.injEq, and_true, true_and] at hev; exact hev.symm)
          | (simp at hev; done)
    · have hok := hi.ok k
      rw [hd] at hok
      cases r' with
      | value => exact .inl (hh.val k kd' hd)
      | exn e =>
        refine .inr ⟨e, ?_⟩
        have := hh.exn k kd' e (.inr (.inr hd))
        cases kd' <;> rw [hok.1] <;> exact this
  | resumeStolen k' m' pre hp =>
    have hsh := (await_shape s (transformFork (thr (s.kind k')) m') (.fork m') k' pre none).2.2.2
    rw [hev] at hsh
    rcases hsh with h | ⟨o', h⟩
    · simp at h
    simp only [List.cons.injEq, Ev.awaited.injEq, How.fork.injEq, and_true] at h
    obtain ⟨rfl, rfl, rfl, rfl, rfl⟩ := h
    have hpre : s.steals = pre + 1 := by have := hi.par; rw [hp] at this; exact this
    have hst := hh.stole _ _ _ hp
    have hof : o = .ok false := by
      unfold awaitResume transformFork at hev
      cases m <;> simp_all [resumeWith]
    subst hof
    simp [hst]
  | resumeCall k' m' kd' r' hp hd =>
    have hsh := (await_shape s (transformCall (thr (s.kind k')) m') (.call m') k' 0 (some r')).2.2.2
    rw [hev] at hsh
    rcases hsh with h | ⟨o', h⟩ <;> simp at h
  | resumeJust => unfold justResume resumeWith at hev; split at hev <;> simp at hev
  | join => split at hev <;> simp at hev
  | _ => simp at hev

/-! ### C15 -/

/-- The awaits that document an immediate rethrow (control_flow.hpp:126-139). -/
def How.eager : How → Prop
  | .fork m => m ≠ .none
  | .call m => m ≠ .none
  | .just => True

/-- **C15** as a statement about a choice `thr` of awaitables: whenever an await with a documented immediate rethrow
resumes after its child (with a plain return address) has synchronously finished with an exception, the await throws: an
exception that is pending (the child's own, if nothing else is), or the substitute `exception_before_join`. -/
def EagerRethrows (X : Type) (thr : Kind → Bool) : Prop :=
  ∀ (kind : Nat → Kind) (s : St X), Reach thr kind s → ∀ l1 l2 h k e o, h.eager →
    s.log = l1 ++ .awaited h k .plain (some (.exn e)) o :: l2 →
    o = .beforeJoin ∨ ∃ e', o = .threw e' ∧ e' ∈ pend l2

/-- The choice promise.hpp:217 seems to intend: check the frame's exception when the child puts its exception there. -/
def fixedThrowing : Kind → Bool
  | .plain => true
  | .stash => false

/-- With the intended choice of awaitables the property holds. -/
theorem eager_rethrows_if_fixed : EagerRethrows X fixedThrowing := by
  intro kind s h l1 l2 hw k e o he hl
  refine log_forall (P := fun ev l2 => ∀ h k e o, h.eager → ev = .awaited h k .plain (some (.exn e)) o →
    o = .beforeJoin ∨ ∃ e', o = .threw e' ∧ e' ∈ pend l2) ?_ h l1 _ l2 hl hw k e o he rfl
  clear hl he hw k e o l1 l2 h s
  intro s s' hr hs ev hev hw k e o he ho
  subst ho
  have hi := inv_reach hr
  have hh := hist_reach hr
  have hall : ∀ a, a ≠ .call → a ≠ .fork → (∀ b g, a = .syncFork b g → b = true) → ∀ h' k' r pre, s.steals = pre ∨ (∃ g, a = .eagerCall g) →
      (s.kind k' = .plain → ∀ e, r = some (Res.exn e) → s.except = true) →
      (awaitResume s a h' k' pre r).log = .awaited hw k .plain (some (.exn e)) o :: s.log →
      o = .beforeJoin ∨ ∃ e', o = .threw e' ∧ e' ∈ pend s.log := by
    intro a h1 h2 h3 h' k' r pre hpre hex hlog
    have k1 : ∀ b, (rethrowThen s h' k' r b).log = .awaited hw k .plain (some (.exn e)) o :: s.log →
        o = .beforeJoin ∨ ∃ e', o = .threw e' ∧ e' ∈ pend s.log := by
      intro b hb
      rcases rethrowThen_log hb with ⟨_, e', he', hv⟩ | ⟨hx, hv⟩
      · simp only [Ev.awaited.injEq] at hv
        exact .inr ⟨e', hv.2.2.2.2, hi.pEptr e' he'⟩
      · simp only [Ev.awaited.injEq] at hv
        have := hex hv.2.2.1.symm e hv.2.2.2.1.symm
        simp [hx] at this
    have k2 : ∀ b, (substituteThen s h' k' r b).log = .awaited hw k .plain (some (.exn e)) o :: s.log →
        o = .beforeJoin ∨ ∃ e', o = .threw e' ∧ e' ∈ pend s.log := by
      intro b hb
      rcases substituteThen_log hb with ⟨_, hv⟩ | ⟨hx, hv⟩
      · simp only [Ev.awaited.injEq] at hv
        exact .inl hv.2.2.2.2
      · simp only [Ev.awaited.injEq] at hv
        have := hex hv.2.2.1.symm e hv.2.2.2.1.symm
        simp [hx] at this
    unfold awaitResume at hlog
    repeat' split at hlog
    all_goals first
      | exact k1 _ hlog
      | exact k2 _ hlog
      | (simp at hlog)
      | (exfalso; simp_all)
  cases hs with
  | resumeFork k' m' pre kd' r' hp hd =>
    have hsh := (await_shape s (transformFork (fixedThrowing (s.kind k')) m') (.fork m') k' pre (some r')).2.2.2
    rw [hev] at hsh
    rcases hsh with h | ⟨o', h⟩
    · simp at h
    simp only [List.cons.injEq, Ev.awaited.injEq, and_true] at h
    obtain ⟨rfl, rfl, hkd, hr', rfl⟩ := h
    have hpre : s.steals = pre := by have := hi.par; rw [hp] at this; exact this
    rw [← hkd] at hev
    simp only [Option.some.injEq] at hr'
    subst hr'
    have hok := hi.ok k
    rw [hd, ← hkd] at hok
    have hkp : kd' = .plain := by cases kd' <;> simp_all [ChildOk]
    subst hkp
    refine hall _ ?_ ?_ ?_ _ _ _ _ (.inl hpre) ?_ hev
    · cases m' <;> simp [transformFork]
    · cases m' <;> simp_all [transformFork, How.eager]
    · cases m' <;> simp_all [transformFork, fixedThrowing]
    · intro _ _ _
      exact (hh.cur k e (by simp [hp, Par.current]) hd).1
  | resumeStolen k' m' pre hp =>
    have hsh := (await_shape s (transformFork (fixedThrowing (s.kind k')) m') (.fork m') k' pre none).2.2.2
    rw [hev] at hsh
    rcases hsh with h | ⟨o', h⟩ <;> simp at h
  | resumeCall k' m' kd' r' hp hd =>
    have hsh := (await_shape s (transformCall (fixedThrowing (s.kind k')) m') (.call m') k' 0 (some r')).2.2.2
    rw [hev] at hsh
    rcases hsh with h | ⟨o', h⟩
    · simp at h
    simp only [List.cons.injEq, Ev.awaited.injEq, and_true] at h
    obtain ⟨rfl, rfl, hkd, hr', rfl⟩ := h
    rw [← hkd] at hev
    simp only [Option.some.injEq] at hr'
    subst hr'
    have hok := hi.ok k
    rw [hd, ← hkd] at hok
    have hkp : kd' = .plain := by cases kd' <;> simp_all [ChildOk]
    subst hkp
    refine hall _ ?_ ?_ ?_ _ _ _ _ (.inr ?_) ?_ hev
    · cases m' <;> simp_all [transformCall, How.eager, fixedThrowing]
    · cases m' <;> simp_all [transformCall, fixedThrowing]
    · cases m' <;> simp_all [transformCall, fixedThrowing]
    · cases m' <;> simp_all [transformCall, How.eager, fixedThrowing]
    · intro _ _ _
      exact (hh.cur k e (by simp [hp, Par.current]) hd).1
  | resumeJust k' kd' r' hp hd =>
    have hj : s.kind k' = .stash := by have := hi.par; rw [hp] at this; exact this
    unfold justResume resumeWith at hev
    split at hev <;> simp_all
  | join => split at hev <;> simp at hev
  | _ => simp at hev

/-- The code's choice (promise.hpp:217) is the opposite one: an await of a child whose exception goes to the parent's frame
never throws, whatever the modifier. -/
theorem eager_never_rethrows {kind : Nat → Kind} {s : St X} (h : Reach codeThrowing kind s)
    (l1 l2 : List (Ev X)) (hw : How) (hj : hw ≠ .just) (k : Nat) (r : Option (Res X)) (o : Out X)
    (hl : s.log = l1 ++ .awaited hw k .plain r o :: l2) : ∃ b, o = .ok b := by
  refine log_forall (P := fun ev l2 => ∀ h k r o, h ≠ .just → ev = .awaited h k .plain r o → ∃ b, o = .ok b)
    ?_ h l1 _ l2 hl hw k r o hj rfl
  clear hl hj hw k r o l1 l2 h s
  intro s s' hr hs ev hev hw k r o hj ho
  subst ho
  cases hs with
  | resumeFork k' m' pre kd' r' hp hd =>
    have hsh := (await_shape s (transformFork (codeThrowing (s.kind k')) m') (.fork m') k' pre (some r')).2.2.2
    rw [hev] at hsh
    rcases hsh with h | ⟨o', h⟩ <;> simp at h
    rw [← h.2.2.1] at hev
    cases m' <;> simp [codeThrowing, transformFork, awaitResume, resumeWith] at hev <;> grind
  | resumeStolen k' m' pre hp =>
    have hsh := (await_shape s (transformFork (codeThrowing (s.kind k')) m') (.fork m') k' pre none).2.2.2
    rw [hev] at hsh
    rcases hsh with h | ⟨o', h⟩ <;> simp at h
    rw [← h.2.2.1] at hev
    cases m' <;> simp [codeThrowing, transformFork, awaitResume, resumeWith] at hev <;> grind
  | resumeCall k' m' kd' r' hp hd =>
    have hsh := (await_shape s (transformCall (codeThrowing (s.kind k')) m') (.call m') k' 0 (some r')).2.2.2
    rw [hev] at hsh
    rcases hsh with h | ⟨o', h⟩ <;> simp at h
    rw [← h.2.2.1] at hev
    cases m' <;> simp [codeThrowing, transformCall, awaitResume, resumeWith] at hev <;> grind
  | resumeJust k' kd' r' hp hd =>
    unfold justResume resumeWith at hev
    split at hev <;> simp_all
  | join => split at hev <;> simp at hev
  | _ => simp at hev

/-- A task that calls one child with `eager_throw_outside`, which throws 7. -/
theorem run_eager : Reach codeThrowing (fun _ => .plain)
    (⟨true, some 7, 0, .run, set (fun _ => .idle) 0 (.done .plain (.exn 7)), fun _ => .plain, fun _ => .empty,
      [.awaited (.call .eagerOutside) 0 .plain (some (.exn 7)) (.ok true), .threw 0 .plain 7]⟩ : St Nat) := by
  have h0 : Reach (X := Nat) codeThrowing (fun _ => .plain) _ := .init
  have h1 := h0.step (.call _ 0 .eagerOutside rfl rfl)
  have h2 := h1.step (.throw _ 0 .plain 7 rfl)
  have h3 := h2.step (.capture _ 0 7 rfl)
  have h4 := h3.step (.construct _ 0 7 rfl)
  have h5 := h4.step (.resumeCall _ 0 .eagerOutside .plain (.exn 7) rfl rfl)
  simp only [init, codeThrowing, transformCall, awaitResume, resumeWith, if_false, Bool.false_eq_true] at h5
  convert h5 using 2
  funext j
  simp only [set]
  split <;> rfl

/-- A task that forks one child with `sync_outside`, which throws 7 before the continuation is stolen. -/
theorem run_sync : Reach codeThrowing (fun _ => .plain)
    (⟨true, some 7, 0, .run, set (fun _ => .idle) 0 (.done .plain (.exn 7)), fun _ => .plain, fun _ => .empty,
      [.awaited (.fork .syncOutside) 0 .plain (some (.exn 7)) (.ok true), .threw 0 .plain 7, .forked 0]⟩ : St Nat) := by
  have h0 : Reach (X := Nat) codeThrowing (fun _ => .plain) _ := .init
  have h1 := h0.step (.fork _ 0 .syncOutside rfl rfl)
  have h2 := h1.step (.throw _ 0 .plain 7 rfl)
  have h3 := h2.step (.capture _ 0 7 rfl)
  have h4 := h3.step (.construct _ 0 7 rfl)
  have h5 := h4.step (.resumeFork _ 0 .syncOutside 0 .plain (.exn 7) rfl rfl)
  simp only [init, codeThrowing, transformFork, awaitResume, resumeWith, if_true, if_false, Bool.false_eq_true,
    Option.isSome_none] at h5
  convert h5 using 2
  funext j
  simp only [set]
  split <;> rfl

/-- **C15 is violated by the code.** -/
theorem eager_rethrow_violates : ¬ EagerRethrows Nat codeThrowing := by
  intro h
  rcases h _ _ run_eager [] _ _ 0 7 _ (by simp [How.eager]) rfl with h | ⟨_, h, _⟩ <;> simp at h

/-- Consequence for `eager_throw_outside` (used by fold and scan with an asynchronous operator): the task goes on although
its child threw, and a task that returns then, without a join (which the documentation does not ask for), violates the
assertion "Must have rethrown" of promise.hpp:310, which is an assumption given to the optimiser in release builds. -/
theorem eager_throw_outside_violates : ∃ s : St Nat, Reach codeThrowing (fun _ => .plain) s ∧
    s.par = .bad .finalException ∧
    s.log = [.awaited (.call .eagerOutside) 0 .plain (some (.exn 7)) (.ok true), .threw 0 .plain 7] :=
  ⟨_, run_eager.step (.final _ rfl), rfl, rfl⟩

/-- Consequence for `sync_outside` (used by scan, which then reads the child's return object): the fork reports that the
child completed although its return object was never written. -/
theorem sync_outside_violates : ∃ s : St Nat, Reach codeThrowing (fun _ => .plain) s ∧ s.par = .run ∧ s.slot 0 = .empty ∧
    Ev.awaited (.fork .syncOutside) 0 .plain (some (.exn 7)) (.ok true) ∈ s.log :=
  ⟨_, run_sync, rfl, rfl, by simp⟩

/-- What does hold of C15, part one: `co_await just(...)` rethrows exactly its child's exception. -/
theorem just_rethrows_partial {thr : Kind → Bool} {kind : Nat → Kind} {s : St X} (h : Reach thr kind s)
    (l1 l2 : List (Ev X)) (k : Nat) (kd : Kind) (r : Option (Res X)) (o : Out X)
    (hl : s.log = l1 ++ .awaited .just k kd r o :: l2) :
    (∃ e, Ev.threw k kd e ∈ l2 ∧ o = .threw e) ∨ (Ev.returned k ∈ l2 ∧ o = .ok true) := by
  refine log_forall (P := fun ev l2 => ∀ k kd r o, ev = .awaited .just k kd r o →
    (∃ e, Ev.threw k kd e ∈ l2 ∧ o = .threw e) ∨ (Ev.returned k ∈ l2 ∧ o = .ok true)) ?_ h l1 _ l2 hl k kd r o rfl
  clear hl k kd r o l1 l2 h s
  intro s s' hr hs ev hev k kd r o ho
  subst ho
  have hna : ∀ a h k' pre r', h ≠ .just → (awaitResume s a h k' pre r').log ≠ .awaited .just k kd r o :: s.log := by
    intro a h k' pre r' hh hx
    rcases (await_shape s a h k' pre r').2.2.2 with h4 | ⟨o', h4⟩ <;> simp [h4] at hx
    exact hh hx.1
  cases hs with
  | resumeFork => exact absurd hev (hna _ _ _ _ _ (by simp))
  | resumeStolen => exact absurd hev (hna _ _ _ _ _ (by simp))
  | resumeCall => exact absurd hev (hna _ _ _ _ _ (by simp))
  | resumeJust k' kd' r' hp hd =>
    have hok := (inv_reach hr).ok k'
    have hj : s.kind k' = .stash := by have := (inv_reach hr).par; rw [hp] at this; exact this
    have hh := hist_reach hr
    rw [hd, hj] at hok
    have hx := hh.exn k' kd'
    have hv := hh.val k' kd'
    unfold justResume resumeWith at hev
    cases kd' <;> cases r' <;> simp only [ChildOk] at hok <;> split at hev <;> simp_all <;> grind
  | join => split at hev <;> simp at hev
  | _ => simp at hev

/-- What does hold of C15, part two: an exception that an await did not rethrow is still pending, so the next join (or
nothing, if the task never joins) delivers one. -/
theorem unrethrown_is_pending_partial {thr : Kind → Bool} {kind : Nat → Kind} {s : St X} (h : Reach thr kind s)
    (l1 l2 : List (Ev X)) (hw : How) (hj : hw ≠ .just) (k : Nat) (e : X) (o : Out X)
    (hl : s.log = l1 ++ .awaited hw k .plain (some (.exn e)) o :: l2) : e ∈ pend l2 := by
  refine log_forall (P := fun ev l2 => ∀ h k e o, h ≠ .just → ev = .awaited h k .plain (some (.exn e)) o →
    e ∈ pend l2) ?_ h l1 _ l2 hl hw k e o hj rfl
  clear hl hj hw k e o l1 l2 h s
  intro s s' hr hs ev hev hw k e o hj ho
  subst ho
  have hi := inv_reach hr
  have hh := hist_reach hr
  have key : ∀ a h k' pre kd' r', s.par.current k' → s.child k' = .done kd' r' →
      (awaitResume s a h k' pre (some r')).log = .awaited hw k .plain (some (.exn e)) o :: s.log → e ∈ pend s.log := by
    intro a h k' pre kd' r' hc hd hx
    rcases (await_shape s a h k' pre (some r')).2.2.2 with h4 | ⟨o', h4⟩ <;> simp [h4] at hx
    obtain ⟨_, rfl, h3, rfl, _⟩ := hx
    have hok := hi.ok k'
    rw [hd, h3] at hok
    have : kd' = .plain := by cases kd' <;> simp_all [ChildOk]
    subst this
    exact (hh.cur k' e hc hd).2
  cases hs with
  | resumeFork k' m' pre kd' r' hp hd => exact key _ _ _ _ _ _ (by simp [hp, Par.current]) hd hev
  | resumeStolen k' m' pre hp =>
    have hsh := (await_shape s (transformFork (thr (s.kind k')) m') (.fork m') k' pre none).2.2.2
    rw [hev] at hsh
    rcases hsh with h | ⟨o', h⟩ <;> simp at h
  | resumeCall k' m' kd' r' hp hd => exact key _ _ _ _ _ _ (by simp [hp, Par.current]) hd hev
  | resumeJust => unfold justResume resumeWith at hev; split at hev <;> simp_all
  | join => split at hev <;> simp at hev
  | _ => simp at hev

/-! ### Concrete histories meeting the hypotheses -/

/-- Two forked children race to capture their exceptions; the join delivers the first captured, and the next scope starts
clean. -/
example : ∃ s : St Nat, Reach codeThrowing (fun _ => .plain) s ∧
    s.log = [.joined (.ok true), .joined (.threw 8), .threw 1 .plain 8, .threw 0 .plain 7,
      .awaited (.fork .sync) 1 .plain none (.ok false), .stole 1, .forked 1,
      .awaited (.fork .none) 0 .plain none (.ok false), .stole 0, .forked 0] := by
  have r : Reach (X := Nat) codeThrowing (fun _ => .plain) _ := .init
  replace r := r.step (.fork _ 0 .none rfl rfl)
  replace r := r.step (.steal _ 0 .none 0 rfl)
  replace r := r.step (.resumeStolen _ 0 .none 0 rfl)
  replace r := r.step (.fork _ 1 .sync rfl rfl)
  replace r := r.step (.steal _ 1 .sync 1 rfl)
  replace r := r.step (.resumeStolen _ 1 .sync 1 rfl)
  replace r := r.step (.throw _ 0 .plain 7 rfl)
  replace r := r.step (.throw _ 1 .plain 8 rfl)
  replace r := r.step (.capture _ 1 8 rfl)
  replace r := r.step (.capture _ 0 7 rfl)
  replace r := r.step (.construct _ 1 8 rfl)
  replace r := r.step (.join _ rfl (fun j => match j with
    | 0 => .inr ⟨.plain, .exn 7, rfl⟩ | 1 => .inr ⟨.plain, .exn 8, rfl⟩ | _ + 2 => .inl rfl))
  replace r := r.step (.join _ rfl (fun j => match j with
    | 0 => .inr ⟨.plain, .exn 7, rfl⟩ | 1 => .inr ⟨.plain, .exn 8, rfl⟩ | _ + 2 => .inl rfl))
  exact ⟨_, r, rfl⟩

/-- A stashing child: its exception stays in the return object and the join is quiet. -/
example : ∃ s : St Nat, Reach codeThrowing (fun _ => .stash) s ∧ s.slot 0 = .exn 7 ∧
    s.log = [.awaited (.fork .none) 0 .stash (some (.exn 7)) (.ok false), .threw 0 .stash 7, .forked 0] := by
  have r : Reach (X := Nat) codeThrowing (fun _ => .stash) _ := .init
  replace r := r.step (.fork _ 0 .none rfl rfl)
  replace r := r.step (.throw _ 0 .stash 7 rfl)
  replace r := r.step (.stashRet _ 0 7 rfl)
  replace r := r.step (.resumeFork _ 0 .none 0 .stash (.exn 7) rfl rfl)
  exact ⟨_, r, rfl, rfl⟩

end Verif.Except
