import Verif.Except.Model

namespace Verif.Except

variable {X : Type}

set_option maxHeartbeats 4000000

/-! ### Specification, in terms of the history only -/

/-- The exceptions that a history (newest first) has put in the parent's care and that have not been delivered yet:
those thrown by children with a plain return address and those the parent stashed itself, since the last time one
was delivered by a join or an eager await. -/
def pend : List (Ev X) → List X
  | [] => []
  | .threw _ .plain e :: l => e :: pend l
  | .stashed e :: l => e :: pend l
  | .joined (.threw _) :: _ => []
  | .awaited (.fork _) _ _ _ (.threw _) :: _ => []
  | .awaited (.call _) _ _ _ (.threw _) :: _ => []
  | _ :: l => pend l

/-! ### Invariant -/

/-- Child `k` is the one the parent is suspended on, with nobody else running the parent. -/
def Par.current : Par X → Nat → Prop
  | .inFork k _ _, j => j = k
  | .inCall k _, j => j = k
  | .inJust k, j => j = k
  | _, _ => False

/-- What holds of one child: its return object and the kind of its return address. -/
def ChildOk (kd : Kind) (sl : Slot X) : Child X → Prop
  | .idle => sl = .empty
  | .run kd' => kd' = kd ∧ sl = .empty
  | .unhandled kd' _ => kd' = kd ∧ sl = .empty
  | .construct _ => kd = .plain ∧ sl = .empty
  | .done kd' .value => kd' = kd ∧ sl = .value
  | .done .plain (.exn _) => kd = .plain ∧ sl = .empty
  | .done .stash (.exn e) => kd = .stash ∧ sl = .exn e

/-- What holds of the parent. -/
def ParOk (s : St X) : Par X → Prop
  | .bad w => w = .notOutside ∨ w = .finalOpen ∨ w = .finalException
  | .stash e => e ∈ pend s.log
  | .stash2 e => e ∈ pend s.log ∧ s.except = true ∧ s.eptr = none ∧ ∀ k e, s.child k ≠ .construct e
  | .stolen _ _ pre => s.steals = pre + 1
  | .inFork _ _ pre => s.steals = pre
  | .inJust k => s.kind k = .stash
  | _ => True

structure Inv (s : St X) : Prop where
  par : ParOk s s.par
  ok : ∀ k, ChildOk (s.kind k) (s.slot k) (s.child k)
  con : ∀ k e, s.child k = .construct e → s.except = true ∧ s.eptr = none ∧ e ∈ pend s.log
  uniq : ∀ j k e f, s.child j = .construct e → s.child k = .construct f → j = k
  clean : s.except = false → s.eptr = none
  some : s.except = true → s.eptr = none → (∃ k e, s.child k = .construct e) ∨ ∃ e, s.par = .stash2 e
  pEptr : ∀ e, s.eptr = .some e → e ∈ pend s.log
  pUnh : ∀ k e, s.child k = .unhandled .plain e → e ∈ pend s.log
  flag : pend s.log ≠ [] → s.except = true ∨ (∃ k e, s.child k = .unhandled .plain e) ∨ ∃ e, s.par = .stash e
  sync : s.steals = 0 → ∀ j, s.child j = .idle ∨ (∃ kd r, s.child j = .done kd r) ∨ s.par.current j

theorem inv_init (kind : Nat → Kind) : Inv (init kind : St X) := by
  constructor <;> simp [init, pend, Par.current, ParOk, ChildOk]

theorem set_eq {α : Type} (f : Nat → α) (k : Nat) (a : α) (j : Nat) : set f k a j = if j = k then a else f j := rfl

/-- The child the parent is suspended on, if any, has finished. -/
def CurDone (s : St X) : Prop := ∀ j, s.par.current j → ∃ kd r, s.child j = .done kd r

/-- The parent is not in the middle of `stash_exception()`. -/
def NoStash (s : St X) : Prop := (∀ e, s.par ≠ .stash e) ∧ ∀ e, s.par ≠ .stash2 e

theorem inv_move {s : St X} (hi : Inv s) (hc : CurDone s) (hn : NoStash s) (p : Par X) (l : List (Ev X))
    (hl : pend l = pend s.log) (hp : p = .run ∨ p = .final ∨ ∃ w, p = .bad w ∧ (w = .notOutside ∨ w = .finalOpen ∨ w = .finalException)) :
    Inv { s with par := p, log := l } := by
  obtain ⟨hn1, hn2⟩ := hn
  have hp1 : ∀ e, p ≠ .stash e ∧ p ≠ .stash2 e := by
    rcases hp with h | h | ⟨w, h, _⟩ <;> simp [h]
  refine ⟨?_, hi.ok, ?_, hi.uniq, hi.clean, ?_, ?_, ?_, ?_, ?_⟩
  · rcases hp with h | h | ⟨w, h, hw⟩ <;> subst h <;> simp only [ParOk]
    exact hw
  · simpa only [hl] using hi.con
  · intro h1 h2
    rcases hi.some h1 h2 with h | ⟨e, h⟩
    · exact .inl h
    · exact absurd h (hn2 e)
  · simpa only [hl] using hi.pEptr
  · simpa only [hl] using hi.pUnh
  · intro h
    rcases hi.flag (by simpa only [hl] using h) with h | h | ⟨e, h⟩
    · exact .inl h
    · exact .inr (.inl h)
    · exact absurd h (hn1 e)
  · intro h0 j
    rcases hi.sync h0 j with h | h | h
    · exact .inl h
    · exact .inr (.inl h)
    · exact .inr (.inl (hc j h))

theorem inv_resume {s : St X} (hi : Inv s) (hc : CurDone s) (hn : NoStash s) (h k r o)
    (ho : h = .just ∨ ∀ e, o ≠ .threw e) : Inv (resumeWith s h k r o) := by
  have hp : pend (.awaited h k (s.kind k) r o :: s.log) = pend s.log := by
    cases o <;> cases h <;> simp_all [pend]
  exact inv_move hi hc hn .run _ hp (.inl rfl)

theorem inv_bad {s : St X} (hi : Inv s) (hn : NoStash s) (hc : CurDone s) (w : Why)
    (hw : w = .notOutside ∨ w = .finalOpen ∨ w = .finalException) : Inv { s with par := .bad w } :=
  inv_move hi hc hn (.bad w) s.log rfl (.inr (.inr ⟨w, rfl, hw⟩))

theorem inv_quiet {s : St X} (hi : Inv s) (hc : CurDone s) (h0 : s.steals = 0) : quiet s := by
  intro j
  rcases hi.sync h0 j with h | h | h
  · exact .inl h
  · exact .inr h
  · exact .inr (hc j h)

theorem rethrow_quiet {s : St X} (hi : Inv s) (hq : quiet s) (hn : NoStash s) :
    (s.except = false ∧ rethrow s = some (none, s) ∧ pend s.log = []) ∨
    ∃ e, s.except = true ∧ s.eptr = some e ∧ e ∈ pend s.log ∧
      rethrow s = some (some e, { s with except := false, eptr := none }) := by
  have nq : ∀ k, (∀ kd e, s.child k ≠ .unhandled kd e) ∧ ∀ e, s.child k ≠ .construct e := by
    intro k
    rcases hq k with h | ⟨kd, r, h⟩ <;> simp [h]
  cases hx : s.except
  · refine .inl ⟨rfl, by simp [rethrow, hx], ?_⟩
    apply Classical.byContradiction
    intro hp
    rcases hi.flag hp with h | ⟨k, e, h⟩ | ⟨e, h⟩
    · simp [hx] at h
    · exact (nq k).1 _ _ h
    · exact hn.1 e h
  · cases he : s.eptr
    · rcases hi.some hx he with ⟨k, e, h⟩ | ⟨e, h⟩
      · exact absurd h ((nq k).2 e)
      · exact absurd h (hn.2 e)
    · rename_i e
      exact .inr ⟨e, rfl, rfl, hi.pEptr e he, by simp [rethrow, hx, he]⟩

/-- Delivering the stored exception at a quiet moment keeps the invariant. -/
theorem inv_deliver {s : St X} (hi : Inv s) (hq : quiet s) (l : List (Ev X)) (hl : pend l = []) (n : Nat)
    :
    Inv { s with par := .run, except := false, eptr := none, steals := n, log := l } := by
  have nq : ∀ k, (∀ kd e, s.child k ≠ .unhandled kd e) ∧ ∀ e, s.child k ≠ .construct e := by
    intro k
    rcases hq k with h | ⟨kd, r, h⟩ <;> simp [h]
  refine ⟨trivial, hi.ok, ?_, hi.uniq, by simp, by simp, by simp, ?_, by simp [hl], ?_⟩
  · intro k e h; exact absurd h ((nq k).2 e)
  · intro k e h; exact absurd h ((nq k).1 _ e)
  · intro _ j
    rcases hq j with h | h
    · exact .inl h
    · exact .inr (.inl h)

theorem inv_rethrowThen {s : St X} (hi : Inv s) (hc : CurDone s) (hn : NoStash s) (h0 : s.steals = 0) (h k r b)
    (hh : h ≠ .just) : Inv (rethrowThen s h k r b) := by
  have hq := inv_quiet hi hc h0
  rcases rethrow_quiet hi hq hn with ⟨_, h1, _⟩ | ⟨e, _, _, _, h1⟩
  · simp only [rethrowThen, h1]
    exact inv_resume hi hc hn _ _ _ _ (.inr (by simp))
  · simp only [rethrowThen, h1, resumeWith]
    exact inv_deliver hi hq _ (by cases h <;> simp_all [pend]) _

theorem inv_substituteThen {s : St X} (hi : Inv s) (hc : CurDone s) (hn : NoStash s) (h k r b) :
    Inv (substituteThen s h k r b) := by
  unfold substituteThen
  split <;> exact inv_resume hi hc hn _ _ _ _ (.inr (by simp))

theorem inv_await {s : St X} (hi : Inv s) (hc : CurDone s) (hn : NoStash s) (a h k pre r) (hh : h ≠ .just) :
    Inv (awaitResume s a h k pre r) := by
  unfold awaitResume
  repeat' split
  all_goals first
    | exact inv_resume hi hc hn _ _ _ _ (.inr (by simp))
    | exact inv_bad hi hn hc _ (.inl rfl)
    | exact inv_substituteThen hi hc hn _ _ _ _
    | exact inv_rethrowThen hi hc hn (by assumption) _ _ _ _ hh

theorem inv_step {thr : Kind → Bool} {s s' : St X} (hi : Inv s) (hs : Step thr s s') : Inv s' := by
  cases hs with
  | resumeFork k m pre kd r hp hd =>
      exact inv_await hi (by simp [CurDone, hp, Par.current]; exact ⟨_, _, hd⟩) (by simp [NoStash, hp]) _ _ _ _ _ (by simp)
  | resumeStolen k m pre hp =>
      exact inv_await hi (by simp [CurDone, hp, Par.current]) (by simp [NoStash, hp]) _ _ _ _ _ (by simp)
  | resumeCall k m kd r hp hd =>
      exact inv_await hi (by simp [CurDone, hp, Par.current]; exact ⟨_, _, hd⟩) (by simp [NoStash, hp]) _ _ _ _ _ (by simp)
  | resumeJust k kd r hp hd =>
      have hc : CurDone s := by simp [CurDone, hp, Par.current]; exact ⟨_, _, hd⟩
      have hn : NoStash s := by simp [NoStash, hp]
      unfold justResume
      split
      · exact inv_resume hi hc hn _ _ _ _ (.inl rfl)
      · exact inv_resume hi hc hn _ _ _ _ (.inl rfl)
      · rename_i he
        have h1 := hi.ok k
        have h2 := hi.par
        rw [hp] at h2
        rw [hd, he, show s.kind k = .stash from h2] at h1
        cases kd <;> cases r <;> simp [ChildOk] at h1
  | join hp hq =>
      have hn : NoStash s := by simp [NoStash, hp]
      rcases rethrow_quiet hi hq hn with ⟨hx, h1, h2⟩ | ⟨e, _, _, _, h1⟩
      · simp only [h1]
        have := inv_deliver hi hq (.joined (.ok true) :: s.log) (by simpa [pend] using h2) 0
        have he := hi.clean hx
        simpa [hp, hx, he] using this
      · simp only [h1]
        have := inv_deliver hi hq (.joined (.threw e) :: s.log) (by simp [pend]) 0
        simpa [hp] using this
  | final hp =>
      have hn : NoStash s := by simp [NoStash, hp]
      have hc : CurDone s := by simp [CurDone, hp, Par.current]
      split
      · exact inv_bad hi hn hc _ (.inr (.inl rfl))
      · split
        · exact inv_bad hi hn hc _ (.inr (.inr rfl))
        · exact inv_move hi hc hn .final s.log rfl (.inr (.inl rfl))
  | fork k m hp hk =>
      have h1 := hi.ok k; have h2 := hi.sync
      cases hi; constructor <;> simp_all only [set_eq, pend, Par.current, ParOk] <;> grind [ChildOk, Par.current, ParOk]
  | call k m hp hk =>
      have h1 := hi.ok k; have h2 := hi.sync
      cases hi; constructor <;> simp_all only [set_eq, pend, Par.current, ParOk] <;> grind [ChildOk, Par.current, ParOk]
  | just k hp hk hkd =>
      have h1 := hi.ok k; have h2 := hi.sync
      cases hi; constructor <;> simp_all only [set_eq, pend, Par.current, ParOk] <;> grind [ChildOk, Par.current, ParOk]
  | steal k m pre hp =>
      have h1 := hi.ok k; have h2 := hi.sync
      cases hi; constructor <;> simp_all only [set_eq, pend, Par.current, ParOk] <;> grind [ChildOk, Par.current, ParOk]
  | ret k kd hk =>
      have h1 := hi.ok k; have h2 := hi.sync
      cases hi; constructor <;> simp_all only [set_eq, pend, Par.current, ParOk] <;> grind [ChildOk, Par.current, ParOk]
  | throw k kd e hk =>
      have h1 := hi.ok k; have h2 := hi.sync
      cases kd
      · have h3 : ∃ j f, set s.child k (.unhandled .plain e) j = .unhandled .plain f := ⟨k, e, by simp [set_eq]⟩
        cases hi; constructor
        case flag => exact fun _ => .inr (.inl h3)
        all_goals clear h3
        all_goals simp_all only [set_eq, pend, Par.current, ParOk] <;> grind [ChildOk, Par.current, ParOk]
      · cases hi; constructor <;> simp_all only [set_eq, pend, Par.current, ParOk] <;> grind [ChildOk, Par.current, ParOk]
  | stashRet k e hk =>
      have h1 := hi.ok k; have h2 := hi.sync
      cases hi; constructor <;> simp_all only [set_eq, pend, Par.current, ParOk] <;> grind [ChildOk, Par.current, ParOk]
  | capture k e hk =>
      have h1 := hi.ok k; have h2 := hi.sync
      cases hi; constructor <;> simp_all only [set_eq, pend, Par.current, ParOk] <;> grind [ChildOk, Par.current, ParOk]
  | construct k e hk =>
      have h1 := hi.ok k; have h2 := hi.sync
      cases hi; constructor <;> simp_all only [set_eq, pend, Par.current, ParOk] <;> grind [ChildOk, Par.current, ParOk]
  | stash e hp =>
      have h1 := hi.ok 0; have h2 := hi.sync
      cases hi; constructor <;> simp_all only [set_eq, pend, Par.current, ParOk] <;> grind [ChildOk, Par.current, ParOk]
  | stashX e hp =>
      have h1 := hi.par; have h2 := hi.sync
      cases hx : s.except
      · have h3 : ∃ f : X, Par.stash2 e = Par.stash2 f := ⟨e, rfl⟩
        cases hi; constructor <;> simp_all [Par.current, ParOk] <;> grind
      · cases hi; constructor <;> simp_all [Par.current, ParOk] <;> grind
  | stashC e hp =>
      have h1 := hi.ok 0; have h2 := hi.sync
      cases hi; constructor <;> simp_all only [set_eq, pend, Par.current, ParOk] <;> grind [ChildOk, Par.current, ParOk]

end Verif.Except
