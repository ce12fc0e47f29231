import Verif.Weak.StartReach

/-!
C50: a pool is constructed and destroyed properly under the C++ memory model, for every number of workers and every interleaving.
-/
namespace Verif.Weak.Start

/-- Zero or more steps. -/
inductive Runs (N : Nat) : St → St → Prop where
  | nil {s} : Runs N s s
  | cons {s t u} : Step N s t → Runs N t u → Runs N s u

variable {N : Nat} {s s' : St}

/-- No data race on a context pointer, and no null context is used: not by the constructor, not by a worker, not by `schedule`,
not by the finalisation. -/
theorem start_no_ub (r : Reach N s) : s.ub = false := (Inv.reach r).c.ub

/-- Once a worker has entered its loop, or the constructor has passed the latch, every worker has initialised its context. -/
theorem started_after_all (r : Reach N s)
    (h : (∃ i, i < N ∧ (s.wpc i = .loop ∨ s.wpc i = .drain)) ∨ (∃ k, s.mpc = .read k) ∨ s.mpc = .up) (j : Nat) (hj : j < N) :
    s.wpc j ≠ .unborn ∧ s.wpc j ≠ .init ∧ s.wpc j ≠ .done ∧ s.val (.ctx j) = (j : Int) + 1 := by
  obtain ⟨a, b, c⟩ := Inv.reach r
  have hx : ∃ t, (t = N ∧ 3 ≤ mph s.mpc ∧ mph s.mpc ≤ 4 ∨ t < N ∧ 4 ≤ ph (s.wpc t) ∧ ph (s.wpc t) ≤ 5) := by
    rcases h with ⟨i, hi, h⟩ | ⟨k, h⟩ | h
    · exact ⟨i, .inr ⟨hi, by rcases h with h | h <;> rw [h] <;> simp [ph]⟩⟩
    · exact ⟨N, .inl ⟨rfl, by rw [h]; simp [mph]⟩⟩
    · exact ⟨N, .inl ⟨rfl, by rw [h]; simp [mph]⟩⟩
  obtain ⟨t, ht⟩ := hx
  have hv := (ctxOk a b hj ht).2
  have cl := a.cl j hj
  refine ⟨fun e => ?_, fun e => ?_, fun e => ?_, hv⟩
  · have h3 := a.all3 (by rcases ht with ⟨_, h, _⟩ | ⟨h, h4, _⟩; exact a.mpast h; exact a.past t h h4) hj
    rw [e] at h3; simp [ph] at h3
  · have h3 := a.all3 (by rcases ht with ⟨_, h, _⟩ | ⟨h, h4, _⟩; exact a.mpast h; exact a.past t h h4) hj
    rw [e] at h3; simp [ph] at h3
  · rcases ht with ⟨_, _, h⟩ | ⟨h, _, h5⟩
    · have := a.fm (a.seen j hj (by rw [e]; simp [ph])); omega
    · have := a.noFin h (by omega) hj; rw [e] at this; simp [ph] at this

/-- When the constructor returns, `contexts()` has the context of every worker, in order. -/
theorem contexts_complete (r : Reach N s) (h : s.mpc = .up) : s.got = (List.range N).map fun i : Nat => (i : Int) + 1 :=
  (Inv.reach r).c.up (by rw [h]; exact Nat.le_refl _)

/-- No context is taken away while some worker may still use one: when a worker has been finalised, every worker has left its loop. -/
theorem finalised_last (r : Reach N s) {i j : Nat} (hi : i < N) (h : s.wpc i = .done) (hj : j < N) :
    s.wpc j = .wait2 ∨ s.wpc j = .fin ∨ s.wpc j = .done := by
  have := (Inv.reach r).a.all8 hi (by rw [h]; simp [ph]) hj
  cases e : s.wpc j <;> rw [e] at this <;> simp [ph] at this ⊢

/-- No worker stops before the destructor has been called. -/
theorem stops_when_told (r : Reach N s) {i : Nat} (hi : i < N) (h : s.mpc = .up ∨ (∃ k, s.mpc = .read k) ∨ s.mpc = .wait) :
    s.wpc i = .init ∨ s.wpc i = .arrive ∨ s.wpc i = .wait ∨ s.wpc i = .loop := by
  obtain ⟨a, b, c⟩ := Inv.reach r
  have hm : mph s.mpc ≤ 4 ∧ mph s.mpc ≠ 0 := by rcases h with h | ⟨k, h⟩ | h <;> rw [h] <;> simp [mph]
  have h4 : ¬ 5 ≤ ph (s.wpc i) := fun e => by have := a.fm (a.seen i hi e); omega
  have hb := a.born hm.2 i hi
  cases e : s.wpc i <;> rw [e] at h4 hb <;> simp [ph] at h4 hb ⊢

/-- When the destructor returns all workers have ended, and everything they have done happens before its end, so that the
members of the pool can be destroyed. -/
theorem gone_alone (r : Reach N s) (h : s.mpc = .gone) (i : Nat) (hi : i < N) :
    s.wpc i = .done ∧ (∀ l, (s.tv i).cur l ≤ (s.tv N).cur l) ∧ s.knows N (.ctx i) ∧
    ∀ j, s.knows N (.rd i j) := by
  have v := Inv.reach r
  obtain ⟨h1, h2⟩ := v.c.gn h i hi
  have cl := v.a.cl i hi
  rw [h1] at cl
  replace cl : s.mem.len (.ctx i) = 3 := cl
  refine ⟨h1, h2, ?_, fun j => ?_⟩
  · have := v.b.own2 i hi (by rw [h1]; exact Nat.le_refl _)
    have := h2 (.ctx i)
    exact knows_of v.b (by omega)
  · have := v.b.rown i j
    have := h2 (.rd i j)
    exact knows_of v.b (by omega)

/-! ### Nobody waits forever -/

/-- The sum of `f 0, ..., f (n - 1)`. -/
def tot : Nat → (Nat → Nat) → Nat
  | 0, _ => 0
  | n + 1, f => tot n f + f n

theorem tot_same {n : Nat} {f g : Nat → Nat} (h : ∀ j, j < n → f j = g j) : tot n f = tot n g := by
  induction n with
  | zero => rfl
  | succ n ih => simp only [tot]; rw [ih fun j hj => h j (by omega), h n (by omega)]

theorem tot_lt {n i : Nat} {f g : Nat → Nat} (hi : i < n) (h : f i < g i) (h' : ∀ j, j ≠ i → f j = g j) : tot n f < tot n g := by
  induction n with
  | zero => omega
  | succ n ih =>
    simp only [tot]
    by_cases e : i = n
    · subst e
      rw [tot_same (g := g) fun j hj => h' j (by omega)]; omega
    · have := ih (by omega); have := h' n (by omega); omega

theorem tot_le {n c : Nat} {f : Nat → Nat} (h : ∀ j, f j ≤ c) : tot n f ≤ c * n := by
  induction n with
  | zero => exact Nat.le_refl _
  | succ n ih => simp only [tot]; have := h n; rw [Nat.mul_succ]; omega

/-- How much has been done: the phases of the workers and the steps of the owner. -/
def work (N : Nat) (s : St) : Nat :=
  tot N (fun i => ph (s.wpc i)) + match s.mpc with
    | .spawn k => k | .arrive => N + 1 | .wait => N + 2 | .read k => N + 3 + k | .up => 2 * N + 4 | .join k => 2 * N + 5 + k | .gone => 3 * N + 6

theorem work_w {i : Nat} {p : WPc} (hi : i < N) (h : ph (s.wpc i) < ph p) (hm : s'.mpc = s.mpc) (hw : s'.wpc = upd s.wpc i p) :
    work N s < work N s' := by
  have := tot_lt (n := N) (f := fun j => ph (s.wpc j)) (g := fun j => ph (s'.wpc j)) hi (by show ph (s.wpc i) < ph (s'.wpc i); rw [hw, upd_same]; exact h)
    (fun j hj => by rw [hw, upd_ne _ _ hj])
  unfold work; rw [hm]; omega

theorem work_m (hw : s'.wpc = s.wpc) (h : work N { s with wpc := fun _ => .unborn } < work N { s' with wpc := fun _ => .unborn }) :
    work N s < work N s' := by
  unfold work at *
  rw [hw]
  dsimp only at *
  omega

/-- The use of a context by a worker or by the owner: the only steps that do not bring construction and destruction forward. -/
def IsUse (N : Nat) (s s' : St) : Prop := ∃ t j, t ≤ N ∧ j < N ∧ s' = s.write t (.rd t j) 0

/-- Every step is a use of a context or brings construction and destruction forward. -/
theorem step_work (r : Reach N s) (st : Step N s s') : IsUse N s s' ∨ work N s < work N s' := by
  have ⟨a, b, c⟩ := Inv.reach r
  have ub := start_no_ub (r.step st)
  cases st
  case use i j hi hj _ _ _ => exact .inl ⟨i, j, by omega, hj, rfl⟩
  case schedule j _ hj _ _ => exact .inl ⟨N, j, by omega, hj, rfl⟩
  case mreadRace => cases ub
  case scheduleBad => cases ub
  case initRace => cases ub
  case useBad => cases ub
  case finaliseRace => cases ub
  case spawn k h hk =>
    right
    have hu := (a.sp k h).2 k (Nat.le_refl _)
    have h1 : work N s < work N (s.w k .init) := work_w (p := .init) hk (by rw [hu]; simp [ph]) rfl rfl
    refine Nat.lt_trans h1 ?_
    unfold work
    show _ + (match s.mpc with | .spawn k => k | .arrive => N + 1 | .wait => N + 2 | .read k => N + 3 + k | .up => 2 * N + 4 | .join k => 2 * N + 5 + k | .gone => 3 * N + 6) < tot N (fun i => ph (upd s.wpc k .init i)) + (k + 1)
    rw [h]; exact Nat.lt_succ_self _
  case spawned h => exact .inr (work_m rfl (by simp only [work, h, St.m]; omega))
  case marrive h => exact .inr (work_m rfl (by simp only [work, h, St.m]; omega))
  case mwake k h _ _ => exact .inr (work_m rfl (by simp only [work, h, St.m]; omega))
  case mread k h hk _ => exact .inr (work_m rfl (by simp only [work, h, St.m]; omega))
  case built h => exact .inr (work_m rfl (by simp only [work, h, St.m]; omega))
  case stop h => exact .inr (work_m rfl (by simp only [work, h, St.m]; omega))
  case join k h hk hd => exact .inr (work_m rfl (by simp only [work, h, St.m]; omega))
  case joined h => exact .inr (work_m rfl (by simp only [work, h, St.m]; omega))
  case init i hi h _ => exact .inr (work_w (p := .arrive) hi (by rw [h]; simp [ph]) rfl rfl)
  case arrive i hi h => exact .inr (work_w (p := .wait) hi (by rw [h]; simp [ph]) rfl rfl)
  case wake i k hi h _ _ => exact .inr (work_w (p := .loop) hi (by rw [h]; simp [ph]) rfl rfl)
  case see i k hi h _ _ => exact .inr (work_w (p := .drain) hi (by rw [h]; simp [ph]) rfl rfl)
  case leave i hi h => exact .inr (work_w (p := .leave) hi (by rw [h]; simp [ph]) rfl rfl)
  case flag i hi h => exact .inr (work_w (p := .arrive2) hi (by rw [h]; simp [ph]) rfl rfl)
  case arrive2 i hi h => exact .inr (work_w (p := .wait2) hi (by rw [h]; simp [ph]) rfl rfl)
  case wake2 i k hi h _ _ => exact .inr (work_w (p := .fin) hi (by rw [h]; simp [ph]) rfl rfl)
  case finalise i hi h _ _ => exact .inr (work_w (p := .done) hi (by rw [h]; simp [ph]) rfl rfl)

/-- There is an end to it. -/
theorem work_le (r : Reach N s) : work N s ≤ 13 * N + 6 := by
  have ⟨a, b, c⟩ := Inv.reach r
  have := tot_le (n := N) (c := 10) (f := fun i => ph (s.wpc i)) (fun j => by cases s.wpc j <;> simp [ph])
  unfold work
  cases e : s.mpc <;> dsimp only
  case spawn k => have := (a.sp k e).1; omega
  case read k => have := (c.rd k e).1; omega
  case join k => have := (c.jn k e).1; omega
  all_goals omega

theorem not_use (h : work N s < work N s') : ¬ IsUse N s s' := by
  rintro ⟨t, j, _, _, rfl⟩
  exact absurd h (Nat.lt_irrefl _)

/-- A step that brings construction and destruction forward, of worker `i`. -/
theorem worker_step (v : Inv N s) {i : Nat} (hi : i < N) (h0 : s.wpc i ≠ .unborn) (h8 : ph (s.wpc i) < 8) (hs : N + 2 ≤ s.mem.len .start ∨ ph (s.wpc i) ≤ 2)
    (hf : 1 < s.mem.len .flag ∨ ph (s.wpc i) ≠ 4) : ∃ s', Step N s s' ∧ work N s < work N s' := by
  obtain ⟨a, b, c⟩ := v
  have wf := b.wt i
  have can : ∀ l, CanRead s.mem (s.tv i) l (s.mem.last l) := fun l => by
    have := wf.cur l; have := b.wm.pos l
    unfold CanRead Mem.last; omega
  cases e : s.wpc i
  case unborn => exact absurd e h0
  case init => exact ⟨_, .init i hi e (initOk a b hi e), work_w (p := .arrive) hi (by rw [e]; simp [ph]) rfl rfl⟩
  case arrive => exact ⟨_, .arrive i hi e, work_w (p := .wait) hi (by rw [e]; simp [ph]) rfl rfl⟩
  case wait =>
    have hs' : N + 2 ≤ s.mem.len .start := hs.resolve_right (by rw [e]; simp [ph])
    have h2 := a.sl
    have h3 : cnt N 3 s.wpc ≤ N := Verif.EventCount.num_le _ _
    have hv := a.sv (s.mem.last .start) (can .start).2
    refine ⟨_, .wake i _ hi e (can _) ?_, work_w (p := .loop) hi (by rw [e]; simp [ph]) rfl rfl⟩
    rw [hv]; unfold Mem.last; split at h2 <;> omega
  case loop =>
    have hf' := hf.resolve_right (by rw [e]; simp [ph])
    refine ⟨_, .see i _ hi e (can _) ?_, work_w (p := .drain) hi (by rw [e]; simp [ph]) rfl rfl⟩
    rw [c.fz _ (by unfold Mem.last; omega) (can _).2]; decide
  case drain => exact ⟨_, .leave i hi e, work_w (p := .leave) hi (by rw [e]; simp [ph]) rfl rfl⟩
  case leave => exact ⟨_, .flag i hi e, work_w (p := .arrive2) hi (by rw [e]; simp [ph]) rfl rfl⟩
  case arrive2 => exact ⟨_, .arrive2 i hi e, work_w (p := .wait2) hi (by rw [e]; simp [ph]) rfl rfl⟩
  all_goals rw [e] at h8; simp [ph] at h8

theorem cnt_full {n : Nat} {w : Nat → WPc} (h : ∀ i, i < N → n ≤ ph (w i)) : cnt N n w = N := by
  unfold cnt Verif.EventCount.num
  have : List.countP (fun i => decide (n ≤ ph (w i))) (List.range N) = (List.range N).length :=
    List.countP_eq_length.2 fun i hi => decide_eq_true (h i (List.mem_range.1 hi))
  rw [this, List.length_range]

/-- Construction and destruction do not block: until the pool is destroyed some thread can always bring them forward, even if no
context is ever used. Together with `step_work` and `work_le`: after at most `13 N + 6` steps that are not uses of contexts, the
pool has been destroyed. -/
theorem never_stuck (r : Reach N s) (h : s.mpc ≠ .gone) : ∃ s', Step N s s' ∧ ¬ IsUse N s s' ∧ work N s < work N s' := by
  have v := Inv.reach r
  obtain ⟨a, b, c⟩ := v
  suffices hh : ∃ s', Step N s s' ∧ work N s < work N s' by
    obtain ⟨s', st, hw⟩ := hh
    exact ⟨s', st, not_use hw, hw⟩
  have fwd : ∀ s', Step N s s' → ¬ IsUse N s s' → ∃ s', Step N s s' ∧ work N s < work N s' := fun s' st hn =>
    ⟨s', st, (step_work r st).resolve_left hn⟩
  have nm : ∀ s', s'.mpc ≠ s.mpc → ¬ IsUse N s s' := by
    rintro s' hm ⟨t, j, _, _, rfl⟩; exact hm rfl
  cases e : s.mpc
  case spawn k =>
    have := (a.sp k e).1
    by_cases ek : k = N
    · subst ek; exact fwd _ (.spawned e) (nm _ (by rw [e]; exact nofun))
    · exact fwd _ (.spawn e (by omega)) (nm _ (by rw [e]; simp [St.m]))
  case arrive => exact fwd _ (.marrive e) (nm _ (by rw [e]; exact nofun))
  case wait =>
    by_cases hall : ∀ i, i < N → 3 ≤ ph (s.wpc i)
    · have h2 := a.sl
      rw [cnt_full hall, e, if_pos (by simp [mph])] at h2
      have hv := a.sv (N + 1) (by omega)
      have := (b.wt N).cur .start
      exact fwd _ (.mwake (N + 1) e ⟨by omega, by omega⟩ (by rw [hv]; omega)) (nm _ (by rw [e]; exact nofun))
    · obtain ⟨i, hi⟩ := Classical.not_forall.1 hall
      obtain ⟨hi, h3⟩ := Classical.not_imp.1 hi
      exact worker_step ⟨a, b, c⟩ hi (a.born (by rw [e]; simp [mph]) i hi) (by omega) (.inr (by omega)) (.inr (by omega))
  case read k =>
    have := (c.rd k e).1
    by_cases ek : k = N
    · subst ek; exact fwd _ (.built e) (nm _ (by rw [e]; exact nofun))
    · have hk : k < N := by omega
      have := (ctxOk a b hk (.inl ⟨rfl, by rw [e]; exact Nat.le_refl _, by rw [e]; simp [mph]⟩)).1
      exact fwd _ (.mread e hk this) (nm _ (by rw [e]; simp [St.m]))
  case up => exact fwd _ (.stop e) (nm _ (by rw [e]; exact nofun))
  case join k =>
    have := (c.jn k e).1
    have hsl : N + 2 ≤ s.mem.len .start := a.mpast (by rw [e]; simp [mph])
    have hfl := c.fg (by rw [e]; simp [mph])
    by_cases ek : k = N
    · subst ek; exact fwd _ (.joined e) (nm _ (by rw [e]; exact nofun))
    · have hk : k < N := by omega
      by_cases hall : ∀ i, i < N → 8 ≤ ph (s.wpc i)
      · have h2 := a.tl
        rw [cnt_full hall] at h2
        have h8 := hall k hk
        cases ek : s.wpc k
        case done => exact fwd _ (.join e hk ek) (nm _ (by rw [e]; simp [St.m]))
        case fin =>
          obtain ⟨f1, f2⟩ := finOk a b hk ek
          exact ⟨_, .finalise k hk ek f1 f2, work_w (p := .done) hk (by rw [ek]; simp [ph]) rfl rfl⟩
        case wait2 =>
          have hv := a.tv N (by omega)
          have := (b.wt k).cur .stopL
          exact ⟨_, .wake2 k N hk ek ⟨by omega, by omega⟩ (by rw [hv]; omega), work_w (p := .fin) hk (by rw [ek]; simp [ph]) rfl rfl⟩
        all_goals rw [ek] at h8; simp [ph] at h8
      · obtain ⟨i, hi⟩ := Classical.not_forall.1 hall
        obtain ⟨hi, h3⟩ := Classical.not_imp.1 hi
        exact worker_step ⟨a, b, c⟩ hi (a.born (by rw [e]; simp [mph]) i hi) (by omega) (.inl hsl) (.inl hfl)
  case gone => exact absurd e h

/-- From every reachable state the pool can be destroyed. -/
theorem can_finish (r : Reach N s) : ∃ s', Runs N s s' ∧ s'.mpc = .gone := by
  have : ∀ n s, Reach N s → 13 * N + 6 - work N s ≤ n → ∃ s', Runs N s s' ∧ s'.mpc = .gone := by
    intro n
    induction n with
    | zero =>
      intro s r h
      by_cases e : s.mpc = .gone
      · exact ⟨s, .nil, e⟩
      · obtain ⟨s', st, -, hw⟩ := never_stuck r e
        have := work_le (r.step st); omega
    | succ n ih =>
      intro s r h
      by_cases e : s.mpc = .gone
      · exact ⟨s, .nil, e⟩
      · obtain ⟨s', st, -, hw⟩ := never_stuck r e
        have := work_le (r.step st)
        obtain ⟨u, hu, hg⟩ := ih s' (r.step st) (by omega)
        exact ⟨u, .cons st hu, hg⟩
  exact this _ s r (Nat.le_refl _)

/-- Two workers: construction, uses of both contexts by the owner and by a worker, destruction. -/
theorem run_two : ∃ s, Reach 2 s ∧ s.mpc = .gone ∧ s.got = [1, 2] ∧ s.mem.len (.rd 2 1) = 3 ∧ s.mem.len (.rd 1 0) = 2 := by
  have r : Reach 2 _ := .init
  replace r := r.step (.spawn (k := 0) rfl (by decide))
  replace r := r.step (.spawn (k := 1) rfl (by decide))
  replace r := r.step (.spawned rfl)
  replace r := r.step (.init 1 (by decide) rfl (by unfold St.knows; decide +kernel))
  replace r := r.step (.arrive 1 (by decide) rfl)
  replace r := r.step (.marrive rfl)
  replace r := r.step (.init 0 (by decide) rfl (by unfold St.knows; decide +kernel))
  replace r := r.step (.arrive 0 (by decide) rfl)
  replace r := r.step (.wake 1 3 (by decide) rfl (by unfold CanRead; decide +kernel) (by decide +kernel))
  replace r := r.step (.use 1 0 (by decide) (by decide) (.inl rfl) (by unfold St.knows; decide +kernel) (by decide +kernel))
  replace r := r.step (.mwake 3 rfl (by unfold CanRead; decide +kernel) (by decide +kernel))
  replace r := r.step (.mread (k := 0) rfl (by decide) (by unfold St.knows; decide +kernel))
  replace r := r.step (.mread (k := 1) rfl (by decide) (by unfold St.knows; decide +kernel))
  replace r := r.step (.built rfl)
  replace r := r.step (.schedule 1 rfl (by decide) (by unfold St.knows; decide +kernel) (by decide +kernel))
  replace r := r.step (.stop rfl)
  replace r := r.step (.wake 0 3 (by decide) rfl (by unfold CanRead; decide +kernel) (by decide +kernel))
  replace r := r.step (.see 0 1 (by decide) rfl (by unfold CanRead; decide +kernel) (by decide +kernel))
  replace r := r.step (.leave 0 (by decide) rfl)
  replace r := r.step (.flag 0 (by decide) rfl)
  replace r := r.step (.arrive2 0 (by decide) rfl)
  replace r := r.step (.see 1 2 (by decide) rfl (by unfold CanRead; decide +kernel) (by decide +kernel))
  replace r := r.step (.leave 1 (by decide) rfl)
  replace r := r.step (.flag 1 (by decide) rfl)
  replace r := r.step (.arrive2 1 (by decide) rfl)
  replace r := r.step (.wake2 0 2 (by decide) rfl (by unfold CanRead; decide +kernel) (by decide +kernel))
  replace r := r.step (.finalise 0 (by decide) rfl (by unfold St.knows; decide +kernel) (by unfold St.knows; decide +kernel))
  replace r := r.step (.wake2 1 2 (by decide) rfl (by unfold CanRead; decide +kernel) (by decide +kernel))
  replace r := r.step (.finalise 1 (by decide) rfl (by unfold St.knows; decide +kernel) (by unfold St.knows; decide +kernel))
  replace r := r.step (.join (k := 0) rfl (by decide) rfl)
  replace r := r.step (.join (k := 1) rfl (by decide) rfl)
  replace r := r.step (.joined rfl)
  exact ⟨_, r, rfl, by decide +kernel, by decide +kernel, by decide +kernel⟩

end Verif.Weak.Start
