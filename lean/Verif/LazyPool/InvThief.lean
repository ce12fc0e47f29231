import Verif.LazyPool.InvSub

/-! If a worker is active, no domain without thieves has a sleeper, except while a wake-up is on its way. -/
namespace Verif.LazyPool
open Verif.EventCount

/-- Worker `w` will by itself become a thief of domain `i`, without blocking first. -/
def coming (c : Cfg) (s : St) (i w : Nat) : Prop :=
  c.dom w = i ∧ (s.pc w = .leave ∨ s.pc w = .wake ∨ s.pc w = .cancelWake ∨ s.pc w = .chk ∨ (s.pc w = .look ∧ s.at_ w < s.n i))

/-- Worker `w` will still notify domain `i`, or look whether it must. -/
def notifying (c : Cfg) (s : St) (i w : Nat) : Prop :=
  (s.pc w = .tws2 ∧ c.dom w = i) ∨ (s.pc w = .sc2 ∧ s.idx w ≤ i) ∨ (s.pc w = .scan ∧ s.idx w ≤ i) ∨ (s.pc w = .sc3 ∧ s.idx w < i)

/-- Worker `w` has advanced the epoch of domain `i` in `notify_one`, and wakes a worker next. -/
def waking (c : Cfg) (s : St) (i w : Nat) : Prop := (s.pc w = .tws3 ∧ c.dom w = i) ∨ (s.pc w = .sc3 ∧ s.idx w = i)

/-- A wake-up of domain `i` is on its way. -/
def InFlight (c : Cfg) (s : St) (i : Nat) : Prop :=
  (∃ w, w < c.N ∧ (coming c s i w ∨ notifying c s i w)) ∨
  ∃ w v, w < c.N ∧ v < c.N ∧ waking c s i w ∧ s.pc v = .asleep ∧ c.dom v = i ∧ s.at_ v < s.n i

/-- In `wait`, blocked or about to look whether it must block. -/
def sleepy : Pc → Bool
  | .look | .asleep => true
  | _ => false

def Watch (c : Cfg) (s : St) : Prop :=
  s.stop = false → s.active > 0 → ∀ i, i < c.D → s.thief i = 0 → ∀ v, v < c.N → sleepy (s.pc v) = true → c.dom v = i → InFlight c s i

theorem thief_of {c : Cfg} {s : St} (h : Counts c s) {w : Nat} (hw : w < c.N) (hp : isThief (s.pc w) = true) : 0 < s.thief (c.dom w) := by
  rw [h.thief]; exact cnt_pos.2 ⟨w, hw, hp, rfl⟩

theorem active_of {c : Cfg} {s : St} (h : Counts c s) {w : Nat} (hw : w < c.N) (hp : isActive (s.pc w) = true) : 0 < s.active := by
  rw [h.active]; exact num_pos.2 ⟨w, hw, hp⟩

theorem watch_start (c : Cfg) : Watch c (St.start c) := by
  intro _ h; simp [St.start] at h

set_option maxHeartbeats 4000000 in
theorem coming_step {c : Cfg} {a : Actor} {s s' : St} (h : Counts c s) (h' : Counts c s') (hd : Data c s) (few : Few c s)
    (st : Step c a s s') {i w : Nat} (hw : w < c.N) (hact : s'.active > 0) (ht : s'.thief i = 0)
    (hf : coming c s i w) : coming c s' i w := by
  have h3 := fun w => look_at h hd few (w := w)
  have h4 := fun w => thief_of h' (w := w)
  have h5 : isThief .pop1 = true := rfl
  clear h h' hd few
  obtain ⟨hdom, hp⟩ := hf
  refine ⟨hdom, ?_⟩
  subst hdom
  have h6 := h4 w hw
  clear h4
  cases st <;> simp only [doWake, doPop, doPrep, doCancel, St.bump, doUnthief, doSleep, doAct, doNext, St.go, upd_apply, LazyPool.rouse, Eligible] at * <;> grind

set_option maxHeartbeats 4000000 in
/-- `v` is registered in domain `i`. -/
theorem notifying_step {c : Cfg} {a : Actor} {s s' : St} (h : Counts c s) (hd : Data c s)
    (st : Step c a s s') {i w v : Nat} (hw : w < c.N) (hi : i < c.D) (ht : s'.thief i = 0) (hv : v < c.N)
    (hs : sleepy (s.pc v) = true) (hdv : c.dom v = i) (hf : notifying c s i w) : InFlight c s' i := by
  have h1 : s.must i = true := hdv ▸ must_of h hv (by revert hs; cases s.pc v <;> simp [sleepy, reg])
  have h2 := hd.atle v
  rw [hdv] at h2
  have h3 : s.pc v = .look ∨ s.pc v = .asleep := by revert hs; cases s.pc v <;> simp [sleepy]
  have ho := others st w
  clear h hd hs
  by_cases ha : a = .worker w
  · subst ha
    unfold notifying at hf
    have key : notifying c s' i w ∨ (waking c s' i w ∧ s'.pc v = s.pc v ∧ s'.at_ v = s.at_ v ∧ s'.n i = s.n i + 1) := by
      unfold notifying waking
      cases st <;> simp only [doWake, doPop, doPrep, doCancel, St.bump, doUnthief, doSleep, doAct, doNext, St.go, upd_apply, LazyPool.rouse, Eligible] at * <;> grind
    rcases key with k | ⟨k1, k2, k3, k4⟩
    · exact .inl ⟨w, hw, .inr k⟩
    · rcases h3 with e | e
      · exact .inl ⟨v, hv, .inl ⟨hdv, .inr (.inr (.inr (.inr ⟨by rw [k2, e], by omega⟩)))⟩⟩
      · exact .inr ⟨w, v, hw, hv, k1, by rw [k2, e], hdv, by omega⟩
  · refine .inl ⟨w, hw, .inr ?_⟩
    have hpc : s'.pc w = s.pc w := by
      rcases ho ha with e | ⟨e, _⟩
      · exact e
      · unfold notifying at hf; simp [e] at hf
    have hidx : s'.idx w = s.idx w := by
      cases st <;> simp only [doWake, doPop, doPrep, doCancel, St.bump, doUnthief, doSleep, doAct, doNext, St.go, upd_apply, LazyPool.rouse, Eligible] at * <;> grind
    unfold notifying at *
    rw [hpc, hidx]; exact hf

set_option maxHeartbeats 4000000 in
theorem waking_step {c : Cfg} {a : Actor} {s s' : St} (hd : Data c s)
    (st : Step c a s s') {i w v : Nat} (hw : w < c.N) (hv : v < c.N) (hf : waking c s i w) (hp : s.pc v = .asleep)
    (hdv : c.dom v = i) (hlt : s.at_ v < s.n i) : InFlight c s' i := by
  have hsl := hd.slept
  have ho := others st
  have hat : s'.at_ v = s.at_ v := by
    clear hsl ho hd
    cases st <;> simp only [doWake, doPop, doPrep, doCancel, St.bump, doUnthief, doSleep, doAct, doNext, St.go, upd_apply, LazyPool.rouse, Eligible] at * <;> grind
  have hn : s.n i ≤ s'.n i := by
    clear hsl ho hd
    cases st <;> simp only [doWake, doPop, doPrep, doCancel, St.bump, doUnthief, doSleep, doAct, doNext, St.go, upd_apply, LazyPool.rouse, Eligible] at * <;> grind
  by_cases ha : a = .worker w
  · subst ha
    have key : ∃ v', v' < c.N ∧ s.pc v' = .asleep ∧ c.dom v' = i ∧ s.at_ v' < s.n i ∧ s'.pc v' = .look ∧ s'.at_ v' = s.at_ v' := by
      unfold waking at hf
      have hwv : w ≠ v := by intro e; subst e; simp [hp] at hf
      cases st with
      | tws3 _ _ x hw' hp' hx he =>
        have := hsl x hx he.1
        obtain ⟨e1, e2, e3⟩ := he
        have hxw : x ≠ w := by intro e; subst e; rw [e1] at hp'; cases hp'
        refine ⟨x, hx, e1, ?_, ?_, ?_, rfl⟩
        · simp [hp'] at hf; rw [e2, hf]
        · simp [hp'] at hf; rw [← this, ← hf]; exact e3
        · simp [upd_apply, hxw]
      | sc3 _ _ x hw' hp' hx he =>
        have := hsl x hx he.1
        obtain ⟨e1, e2, e3⟩ := he
        have hxw : x ≠ w := by intro e; subst e; rw [e1] at hp'; cases hp'
        refine ⟨x, hx, e1, ?_, ?_, ?_, rfl⟩
        · simp [hp'] at hf; rw [e2, hf]
        · simp [hp'] at hf; rw [← this, ← hf]; exact e3
        · simp [upd_apply, hxw]
      | tws3None _ _ hw' hp' hn' =>
        simp [hp'] at hf
        exact absurd ⟨hp, by rw [hdv, hf], by rw [hsl v hv hp, hf]; exact hlt⟩ (hn' v hv)
      | sc3None _ _ hw' hp' hn' =>
        simp [hp'] at hf
        exact absurd ⟨hp, by rw [hdv, hf], by rw [hsl v hv hp, hf]; exact hlt⟩ (hn' v hv)
      | _ => simp_all
    obtain ⟨v', k1, k2, k3, k4, k5, k6⟩ := key
    exact .inl ⟨v', k1, .inl ⟨k3, .inr (.inr (.inr (.inr ⟨k5, by omega⟩)))⟩⟩
  · have hpw : s'.pc w = s.pc w := by
      rcases ho w ha with e | ⟨e, _⟩
      · exact e
      · unfold waking at hf; simp [e] at hf
    have hidx : s'.idx w = s.idx w := by
      clear hsl ho hd hat hn
      cases st <;> simp only [doWake, doPop, doPrep, doCancel, St.bump, doUnthief, doSleep, doAct, doNext, St.go, upd_apply, LazyPool.rouse, Eligible] at * <;> grind
    have hpv : s'.pc v = .asleep ∨ s'.pc v = .look := by
      by_cases hav : a = .worker v
      · subst hav
        clear hsl ho hd hat hn
        cases st <;> simp only [doWake, doPop, doPrep, doCancel, St.bump, doUnthief, doSleep, doAct, doNext, St.go, upd_apply, LazyPool.rouse, Eligible] at * <;> grind
      · rcases ho v hav with e | ⟨_, e⟩
        · left; rw [e, hp]
        · right; exact e
    rcases hpv with e | e
    · refine .inr ⟨w, v, hw, hv, ?_, e, hdv, by omega⟩
      unfold waking at *; rw [hpw, hidx]; exact hf
    · exact .inl ⟨v, hv, .inl ⟨hdv, .inr (.inr (.inr (.inr ⟨e, by omega⟩)))⟩⟩

set_option maxHeartbeats 4000000 in
/-- The step that makes the wake-up necessary. -/
theorem fresh_step {c : Cfg} (hc : c.Ok) {a : Actor} {s s' : St} (h : Counts c s) (hd : Data c s)
    (st : Step c a s s') {i v : Nat} (hstop : s'.stop = false) (hact : s'.active > 0)
    (ht : s'.thief i = 0) (hv : v < c.N) (hs : sleepy (s'.pc v) = true) (hdv : c.dom v = i)
    (hold : ¬ (s.active > 0 ∧ s.thief i = 0 ∧ sleepy (s.pc v) = true)) : InFlight c s' i := by
  have key : ∃ w, w < c.N ∧ (coming c s' i w ∨ notifying c s' i w) := by
    have hinc : ∀ x, x < P32 → inc x = x + 1 := fun x => inc_of
    have hle : s.thief i < P32 := by have := cnt_le c isThief i s; have := h.thief i; have := hc.small; omega
    have hb : ∀ x, 0 < x → x ≤ P32 → decr x = x - 1 := fun x => decr_of
    have hth : ∀ w, w < c.N → c.dom w = i → isThief (s.pc w) = true → 0 < s.thief i := fun w hw e hp => e ▸ thief_of h hw hp
    have hq := hd.quit
    have hac : ∀ w, w < c.N → isActive (s.pc w) = true → 0 < s.active := fun w hw hp => active_of h hw hp
    have hs' : s'.pc v = .look ∨ s'.pc v = .asleep := by revert hs; cases s'.pc v <;> simp [sleepy]
    have hso : ¬ (s.active > 0 ∧ s.thief i = 0 ∧ (s.pc v = .look ∨ s.pc v = .asleep)) := by
      intro ⟨x, y, z⟩; exact hold ⟨x, y, by rcases z with z | z <;> rw [z] <;> rfl⟩
    clear h hd hs hold
    unfold coming notifying
    cases st <;> simp only [doWake, doPop, doPrep, doCancel, St.bump, doUnthief, doSleep, doAct, doNext, St.go, upd_apply, LazyPool.rouse, Eligible] at * <;> grind [isThief, isActive, quitting]
  exact .inl key

theorem watch_step {c : Cfg} (hc : c.Ok) {a : Actor} {s s' : St} (h : Counts c s) (hd : Data c s) (few : Few c s)
    (st : Step c a s s') (hw : Watch c s) : Watch c s' := by
  intro hstop hact i hi ht v hv hs hdv
  have h' := counts_step hc h st
  by_cases hold : s.active > 0 ∧ s.thief i = 0 ∧ sleepy (s.pc v) = true
  · obtain ⟨o1, o2, o3⟩ := hold
    have hstop0 : s.stop = false := by
      cases st <;> simp only [doWake, doPop, doPrep, doCancel, St.bump, doUnthief, doSleep, doAct, doNext, St.go, upd_apply, LazyPool.rouse, Eligible] at * <;> grind
    rcases hw hstop0 o1 i hi o2 v hv o3 hdv with ⟨w, hw, hf | hf⟩ | ⟨w, v', hw, hv', hf, hp, hdv', hlt⟩
    · exact .inl ⟨w, hw, .inl (coming_step h h' hd few st hw hact ht hf)⟩
    · exact notifying_step h hd st hw hi ht hv o3 hdv hf
    · exact waking_step hd st hw hv' hf hp hdv' hlt
  · exact fresh_step hc h hd st hstop hact ht hv hs hdv hold

theorem reach_watch {c : Cfg} (hc : c.Ok) {s : St} (h : Reach c s) : Watch c s := by
  induction h with
  | start => exact watch_start c
  | step hr few st ih => exact watch_step hc (reach_counts hc hr) (reach_data hc hr) few st ih

end Verif.LazyPool
