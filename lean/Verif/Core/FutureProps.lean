import Verif.Core.Future

/-! Property C18: `lf::future`. -/
namespace Verif.Core.Future
variable {κ V E : Type} [DecidableEq κ]



/-- C18. In every interleaving: the shared state is never used after it was freed, no unwritten result is read, the
semaphore is acquired at most once, and the shared state is freed exactly when both the future and the task have let go. -/
theorem future_safe {i : κ} {h : List (Ev κ V E)} {s : St κ V E} (hr : Reach i h s) :
    s.bad = false ∧ s.acquires ≤ 1 ∧ (s.freed = true ↔ s.holder = none ∧ s.task = .gone) := by
  have hi := inv_reach hr
  refine ⟨hi.good, ?_, hi.freed⟩
  have := hi.sem
  split at this <;> omega

/-- C18. `get` delivers at most one result, and it is the one the task wrote. -/
theorem future_get_once {i : κ} {h : List (Ev κ V E)} {s : St κ V E} (hr : Reach i h s) :
    delivered h = [] ∨ ∃ r, delivered h = [r] ∧ written h = [r] := by
  have hi := inv_reach hr
  have hd := hi.del
  split at hd
  · obtain ⟨r, h1, h2⟩ := hd
    cases hdl : delivered h with
    | nil => exact .inl rfl
    | cons x l =>
      rw [hdl] at h2
      simp at h2
      obtain ⟨rfl, rfl, _⟩ := h2
      right
      refine ⟨x, rfl, ?_⟩
      by_cases ht : s.task = .running
      · rw [(hi.nores ht).1] at h1; cases h1
      · obtain ⟨r', h3, h4⟩ := hi.res ht
        rw [h1] at h3; cases h3; exact h4
  · simp at hd; exact .inl hd.1

/-- C18. What the operations answer: `get` and `wait` on a future without shared state throw `broken_future`; a `get` that
reaches the result after a `get` has delivered it throws `empty_future`; otherwise `get` delivers. `valid` tells the
truth. -/
theorem future_answers {i : κ} {h : List (Ev κ V E)} {s s' : St κ V E} (hr : Reach i h s) (hs : Step s none s')
    {op : Op κ} {r : Ret V E} (hnew : s.pc ≠ .ret op r) (hret : s'.pc = .ret op r) :
    match op with
    | .valid j => r = .bool (decide (s.holder = some j))
    | .wait j => (r = .broken ∧ s.holder ≠ some j) ∨ (r = .unit ∧ s.holder = some j)
    | .get j => (r = .broken ∧ s.holder ≠ some j) ∨ (s.holder = some j ∧ r = .empty ∧ delivered h ≠ []) ∨
        (s.holder = some j ∧ delivered h = [] ∧ ∃ x, r = .res x ∧ written h = [x])
    | .detach _ | .destroy _ | .move _ _ => r = .unit := by
  have hi := inv_reach hr
  cases hs
  all_goals first
    | exact absurd hret hnew
    | skip
  all_goals simp only [Pc.ret.injEq, reduceCtorEq] at hret
  all_goals obtain ⟨rfl, rfl⟩ := hret
  all_goals try trivial
  case waitBroken => simp_all
  case waitDone => simp_all
  case getBroken => simp_all
  case getEmpty j h1 h2 =>
    have hh := hi.user j (by rw [h1]; rfl)
    have hd := hi.del
    rw [if_pos h2, h1] at hd
    obtain ⟨r, _, hd⟩ := hd
    refine .inr (.inl ⟨hh, rfl, ?_⟩)
    intro hc; rw [hc] at hd; simp [pendingRes] at hd
  case getRes j x h1 h2 h3 =>
    have hh := hi.user j (by rw [h1]; rfl)
    have hd := hi.del
    rw [if_neg h2, h1] at hd
    refine .inr (.inr ⟨hh, by simpa [pendingRes] using hd, x, rfl, ?_⟩)
    by_cases ht : s.task = .running
    · rw [(hi.nores ht).1] at h3; cases h3
    · obtain ⟨r', h5, h4⟩ := hi.res ht
      rw [h5] at h3; cases h3; exact h4
  case acqWait j h1 h2 => exact .inr ⟨rfl, hi.user j (by rw [h1]; rfl)⟩

/-- The semaphore was released if the task says so. -/
theorem released_mem {i : κ} {h : List (Ev κ V E)} {s : St κ V E} (hr : Reach i h s) :
    (s.task = .released ∨ s.task = .gone) ↔ .released ∈ h := by
  induction hr with
  | init => simp [St.init]
  | tau _ hs ih => cases hs <;> simp_all [St.drop]
  | vis _ hs ih => cases hs <;> simp_all

/-- Has some operation already waited for the task? -/
def HasWaited (h : List (Ev κ V E)) : Prop :=
  ∃ j, .ret (.wait j) .unit ∈ h ∨ (∃ r, .ret (.get j) (.res r) ∈ h) ∨ .ret (.get j) .empty ∈ h

/-- The answers that prove that the operation has waited. -/
def Waits : Op κ → Ret V E → Prop
  | .wait _, .unit | .get _, .res _ | .get _, .empty => True
  | _, _ => False

theorem hasWaited_snoc {h : List (Ev κ V E)} {e : Ev κ V E} :
    HasWaited (h ++ [e]) ↔ HasWaited h ∨ ∃ op r, e = .ret op r ∧ Waits op r := by
  unfold HasWaited
  constructor
  · rintro ⟨j, h1 | ⟨r, h1⟩ | h1⟩
    · rcases List.mem_append.1 h1 with h1 | h1
      · exact .inl ⟨j, .inl h1⟩
      · simp at h1; exact .inr ⟨_, _, h1.symm, trivial⟩
    · rcases List.mem_append.1 h1 with h1 | h1
      · exact .inl ⟨j, .inr (.inl ⟨r, h1⟩)⟩
      · simp at h1; exact .inr ⟨_, _, h1.symm, trivial⟩
    · rcases List.mem_append.1 h1 with h1 | h1
      · exact .inl ⟨j, .inr (.inr h1)⟩
      · simp at h1; exact .inr ⟨_, _, h1.symm, trivial⟩
  · rintro (⟨j, h1 | ⟨r, h1⟩ | h1⟩ | ⟨op, r, rfl, hw⟩)
    · exact ⟨j, .inl (by simp [h1])⟩
    · exact ⟨j, .inr (.inl ⟨r, by simp [h1]⟩)⟩
    · exact ⟨j, .inr (.inr (by simp [h1]))⟩
    · unfold Waits at hw
      split at hw
      · exact ⟨_, .inl (List.mem_append_right _ (List.mem_singleton_self _))⟩
      · exact ⟨_, .inr (.inl ⟨_, List.mem_append_right _ (List.mem_singleton_self _)⟩)⟩
      · exact ⟨_, .inr (.inr (List.mem_append_right _ (List.mem_singleton_self _)))⟩
      · cases hw

theorem waited_status {i : κ} {h : List (Ev κ V E)} {s : St κ V E} (hr : Reach i h s) :
    (HasWaited h → s.status ≠ .noWait) ∧ (∀ op r, s.pc = .ret op r → Waits op r → s.status ≠ .noWait) := by
  induction hr with
  | init => simp [St.init, HasWaited]
  | tau hr hs ih =>
    obtain ⟨ih1, ih2⟩ := ih
    have hi := inv_reach hr
    cases hs <;> simp only [St.drop] at * <;> refine ⟨?_, ?_⟩ <;> first | exact ih1 | exact ih2 | skip
    all_goals simp_all [Waits]
  | vis hr hs ih =>
    obtain ⟨ih1, ih2⟩ := ih
    rw [hasWaited_snoc]
    cases hs with
    | ret h1 =>
      refine ⟨?_, by simp⟩
      rintro (h2 | ⟨op, r, h2, h3⟩)
      · exact ih1 h2
      · cases h2; exact ih2 _ _ h1 h3
    | write => simpa using ⟨ih1, ih2⟩
    | release => simpa using ⟨ih1, ih2⟩
    | call => simpa using ih1

/-- C18. `wait`, a delivering `get` and the destructor of a future that holds the state return only after the task has
completed. -/
theorem future_returns_after_completion {i : κ} {h : List (Ev κ V E)} {s : St κ V E} (hr : Reach i h s) :
    (HasWaited h → .released ∈ h) ∧
    ∀ j s', Step s none s' → s'.pc = .ret (.destroy j) .unit → s.pc ≠ s'.pc → s.holder = some j → .released ∈ h := by
  have hi := inv_reach hr
  have key : s.acquires = 1 ∨ 0 < s.sem → .released ∈ h := by
    intro ha
    rw [← released_mem hr]
    refine Classical.byContradiction fun hc => ?_
    have := hi.sem
    rw [if_neg hc] at this
    omega
  refine ⟨fun hw => key (.inl (hi.st ((waited_status hr).1 hw))), fun j s' hs hp hne hh => ?_⟩
  cases hs <;> simp only [St.drop, reduceCtorEq, Pc.ret.injEq, Op.destroy.injEq, and_true, true_and, false_and] at hp hne
  case drop => exact absurd rfl hne
  case getBad => exact absurd rfl hne
  case acqDestroy k h1 h2 => exact key (.inr h2)
  case destroyDone k h1 h2 h3 => exact key (.inl (hi.st h3))
  case destroyNone k h1 h2 => subst hp; exact absurd hh h2

/-- C18. Nothing blocks after the first wait: once `wait` or `get` has returned, no later operation waits on the
semaphore. -/
theorem future_waits_once {i : κ} {h : List (Ev κ V E)} {s : St κ V E} (hr : Reach i h s) (hw : HasWaited h)
    (op : Op κ) : s.pc ≠ .acquire op :=
  fun hp => (waited_status hr).1 hw ((inv_reach hr).acqs op hp)

/-- C18. A blocked operation is blocked only until the task completes: when the semaphore has been released it can go
on. -/
theorem future_blocked_only_until_completion {i : κ} {h : List (Ev κ V E)} {s : St κ V E} (hr : Reach i h s)
    {j : κ} (hp : s.pc = .acquire (.wait j) ∨ s.pc = .acquire (.get j) ∨ s.pc = .acquire (.destroy j))
    (hrel : .released ∈ h) : ∃ s', Step s none s' ∧ ∀ op, s'.pc ≠ .acquire op := by
  have hi := inv_reach hr
  rw [← released_mem hr] at hrel
  have hsem := hi.sem
  rw [if_pos hrel] at hsem
  have hh : s.holder = some j := hi.user j (by rcases hp with h | h | h <;> rw [h] <;> rfl)
  have hst : s.status = .noWait := by rcases hp with h | h | h <;> exact hi.acqs _ h
  have ha : s.acquires ≠ 1 := fun ha => hi.acq ha (by rw [hh]; simp) hst
  have hpos : 0 < s.sem := by omega
  rcases hp with h | h | h
  · exact ⟨_, .acqWait h hpos, by simp⟩
  · exact ⟨_, .acqGet h hpos, by simp⟩
  · exact ⟨_, .acqDestroy h hpos, by simp [St.drop]⟩

/-- C18. Detaching never blocks, and neither does destroying a future that has been detached. -/
theorem future_detach_nonblocking {s : St κ V E} {j : κ} :
    (s.pc = .enter (.detach j) → ∃ s', Step s none s' ∧ s'.pc = .ret (.detach j) .unit ∧ s'.holder ≠ some j) ∧
    (s.pc = .enter (.destroy j) → s.holder ≠ some j → ∃ s', Step s none s' ∧ s'.pc = .ret (.destroy j) .unit) := by
  constructor
  · intro h
    by_cases hh : s.holder = some j
    · exact ⟨_, .detachHeld h hh, rfl, by simp [St.drop]⟩
    · exact ⟨_, .detachNone h hh, rfl, hh⟩
  · intro h hh
    exact ⟨_, .destroyNone h hh, rfl⟩

/-- Specification of ownership: which future object holds the shared state after an operation. A move takes it from the source,
and from a target that held it; `detach` and destruction give it up. -/
def ownAfter (op : Op κ) (o : Option κ) : Option κ :=
  match op with
  | .detach j | .destroy j => if o = some j then none else o
  | .move a b => if o = some a then some b else if o = some b then none else o
  | _ => o

/-- Which future object holds the shared state after the history `h` if `i` was the one returned by `schedule`. -/
def owner (i : κ) (h : List (Ev κ V E)) : Option κ :=
  h.foldl (fun o e => match e with | .ret op _ => ownAfter op o | _ => o) (some i)

/-- The answers an operation may give when the shared state is held by `o`. -/
def Answer (o : Option κ) (op : Op κ) (r : Ret V E) : Prop :=
  match op with
  | .valid j => r = .bool (decide (o = some j))
  | .wait j => (r = .broken ∧ o ≠ some j) ∨ (r = .unit ∧ o = some j)
  | .get j => (r = .broken ∧ o ≠ some j) ∨ (o = some j ∧ (r = .empty ∨ ∃ x, r = .res x))
  | .detach _ | .destroy _ | .move _ _ => r = .unit

theorem owner_snoc (i : κ) (h : List (Ev κ V E)) (e : Ev κ V E) :
    owner i (h ++ [e]) = match e with | .ret op _ => ownAfter op (owner i h) | _ => owner i h := by
  simp only [owner, List.foldl_append, List.foldl_cons, List.foldl_nil]

/-- What ties the state to the history. -/
def OwnInv (i : κ) (h : List (Ev κ V E)) (s : St κ V E) : Prop :=
  match s.pc with
  | .ret op r => s.holder = ownAfter op (owner i h) ∧ Answer (owner i h) op r
  | .acquire op => s.holder = owner i h ∧ (∃ j, (op = .wait j ∨ op = .get j ∨ op = .destroy j) ∧ s.holder = some j)
  | .after op => s.holder = owner i h ∧ ∃ j, op = .get j ∧ s.holder = some j
  | _ => s.holder = owner i h

theorem own_reach {i : κ} {h : List (Ev κ V E)} {s : St κ V E} (hr : Reach i h s) : OwnInv i h s := by
  induction hr with
  | init => rfl
  | tau _ hs ih =>
    unfold OwnInv at *
    cases hs <;> simp_all [ownAfter, Answer, St.drop]
    all_goals try (split <;> simp_all; done)
    all_goals try (obtain ⟨ih1, j, rfl, ih2⟩ := ih; simp_all; done)
    all_goals try grind
  | vis _ hs ih =>
    unfold OwnInv at *
    rw [owner_snoc]
    cases hs <;> simp_all

/-- C18. Ownership and answers along every history: `valid` tells whether this object holds the shared state, `wait` and `get`
throw `broken_future` exactly on an object that does not; moving transfers the state, so that exactly one object holds it until
it is given up. -/
theorem future_ownership {i : κ} {h : List (Ev κ V E)} {s : St κ V E} (hr : Reach i h s) :
    ∀ h1 op r h2, h = h1 ++ .ret op r :: h2 → Answer (owner i h1) op r := by
  induction hr with
  | init => intro h1 op r h2 e; simp at e
  | tau _ _ ih => exact ih
  | @vis h s e s' hr hs ih =>
    intro h1 op r h2 e1
    rcases List.eq_nil_or_concat h2 with rfl | ⟨l, x, rfl⟩
    · have := List.append_inj' e1 rfl
      obtain ⟨rfl, e2⟩ := this
      cases e2
      have ho := own_reach hr
      cases hs with
      | ret hp => unfold OwnInv at ho; rw [hp] at ho; exact ho.2
    · have e2 : h ++ [e] = (h1 ++ .ret op r :: l) ++ [x] := by rw [e1]; simp
      exact ih h1 op r l (List.append_inj' e2 rfl).1

/-- A run meeting the hypotheses: a blocked `get`, the task completes with a value, the value is delivered, a second `get`
throws `empty_future`, the future is destroyed without blocking. -/
example : ∃ s : St (Fin 2) Nat String, Reach 0
    [.call (.get 0), .wrote (.val 7), .released, .ret (.get 0) (.res (.val 7)), .call (.get 0), .ret (.get 0) .empty,
     .call (.move 0 1), .ret (.move 0 1) .unit, .call (.wait 0), .ret (.wait 0) .broken,
     .call (.destroy 1), .ret (.destroy 1) .unit] s ∧ s.freed = true := by
  have r := Reach.init (κ := Fin 2) (V := Nat) (E := String) (i := 0)
  replace r := r.vis (.call (.get 0) rfl)
  replace r := r.tau (.getAcq rfl rfl rfl)
  replace r := r.vis (.write (.val 7) rfl)
  replace r := r.vis (.release rfl)
  replace r := r.tau (.acqGet rfl (by decide))
  replace r := r.tau (.getRes rfl (by decide) rfl)
  replace r := r.vis (.ret rfl)
  replace r := r.vis (.call (.get 0) rfl)
  replace r := r.tau (.getDone rfl rfl (by decide))
  replace r := r.tau (.getEmpty rfl rfl)
  replace r := r.vis (.ret rfl)
  replace r := r.vis (.call (.move 0 1) rfl)
  replace r := r.tau (.moveHeld rfl rfl)
  replace r := r.vis (.ret rfl)
  replace r := r.vis (.call (.wait 0) rfl)
  replace r := r.tau (.waitBroken rfl (by decide))
  replace r := r.vis (.ret rfl)
  replace r := r.vis (.call (.destroy 1) rfl)
  replace r := r.tau (.drop rfl)
  replace r := r.tau (.destroyDone rfl rfl (by decide))
  replace r := r.vis (.ret rfl)
  exact ⟨_, r, rfl⟩

end Verif.Core.Future
