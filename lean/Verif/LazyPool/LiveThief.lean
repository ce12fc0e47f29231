import Verif.LazyPool.LiveSub

/-! A wake-up that is on its way arrives. -/
namespace Verif.LazyPool
open Verif.EventCount

/-- Somebody is active, domain `i` has no thief, and somebody in it is in `wait`. -/
def Bad (c : Cfg) (i : Nat) (s : St) : Prop :=
  s.active > 0 ∧ s.thief i = 0 ∧ ∃ v, v < c.N ∧ sleepy (s.pc v) = true ∧ c.dom v = i

def comingRank : Pc → Nat
  | .wake => 1
  | .leave | .cancelWake => 2
  | .chk | .look => 3
  | _ => 0

set_option maxHeartbeats 4000000 in
theorem coming_rank {c : Cfg} {s s' : St} (h : Counts c s) (h' : Counts c s') (hd : Data c s) (few : Few c s)
    {i w : Nat} (st : Step c (.worker w) s s') (hw : w < c.N) (hact : s'.active > 0) (ht : s'.thief i = 0)
    (hf : coming c s i w) : comingRank (s'.pc w) < comingRank (s.pc w) := by
  have h3 := look_at h hd few hw
  have h4 := thief_of h' hw
  have h5 : isThief .pop1 = true := rfl
  clear h h' hd few
  obtain ⟨hdom, hp⟩ := hf
  subst hdom
  cases st <;> simp only [doWake, doPop, doPrep, doCancel, St.bump, doUnthief, doSleep, doAct, doNext, St.go, upd_apply, LazyPool.rouse, Eligible] at * <;> grind [comingRank]

theorem coming_arrives {c : Cfg} (hc : c.Ok) {r : Run c} (hf : r.Fair) {t i w : Nat} (hw : w < c.N)
    (h : coming c (r.st t) i w) : ∃ t', t ≤ t' ∧ ¬ Bad c i (r.st t') := by
  refine Run.leads' hf (.worker w) (fun s => coming c s i w) (fun s => ¬ Bad c i s) (fun s => comingRank (s.pc w))
    (fun _ => True) (fun _ _ => trivial) (fun t _ h _ => ?_) (fun t b _ h hb st => ?_) t trivial h
  · obtain ⟨_, h⟩ := h
    refine ⟨hw, ?_, ?_, ?_⟩ <;> intro hp <;> simp [hp] at h
  · have hr := r.reach t
    have h1 := reach_counts hc hr
    have h1' := counts_step hc h1 st
    by_cases hb' : Bad c i (r.st (t + 1))
    · refine .inr ⟨coming_step h1 h1' (reach_data hc hr) (r.few t) st hw hb'.1 hb'.2.1 h, ?_, fun e => ?_⟩
      · by_cases e : b = .worker w
        · subst e
          exact Nat.le_of_lt (coming_rank h1 h1' (reach_data hc hr) (r.few t) st hw hb'.1 hb'.2.1 h)
        · rcases others st w e with e | ⟨e, _⟩
          · rw [e]; exact Nat.le_refl _
          · obtain ⟨_, h⟩ := h; simp [e] at h
      · subst e
        exact coming_rank h1 h1' (reach_data hc hr) (r.few t) st hw hb'.1 hb'.2.1 h
    · exact .inl hb'

/-- Some worker of domain `i` is coming. -/
def Coming (c : Cfg) (i : Nat) (s : St) : Prop := ∃ w, w < c.N ∧ coming c s i w

/-- Worker `w` wakes a worker next, and there is one to be woken. -/
def Waking (c : Cfg) (i w : Nat) (s : St) : Prop :=
  waking c s i w ∧ ∃ v, v < c.N ∧ s.pc v = .asleep ∧ c.dom v = i ∧ s.at_ v < s.n i

set_option maxHeartbeats 4000000 in
theorem Waking_step {c : Cfg} {a : Actor} {s s' : St} (hd : Data c s) (st : Step c a s s') {i w : Nat}
    (hf : Waking c i w s) : Coming c i s' ∨ (a ≠ .worker w ∧ Waking c i w s') := by
  obtain ⟨hf, v, hv, hp, hdv, hlt⟩ := hf
  have hsl := hd.slept
  have ho := others st
  have hn : s.n i ≤ s'.n i := by
    clear hsl ho hd hlt
    cases st <;> simp only [doWake, doPop, doPrep, doCancel, St.bump, doUnthief, doSleep, doAct, doNext, St.go, upd_apply, LazyPool.rouse, Eligible] at * <;> grind
  by_cases ha : a = .worker w
  · left
    subst ha
    have key : ∃ v', v' < c.N ∧ c.dom v' = i ∧ s.at_ v' < s.n i ∧ s'.pc v' = .look ∧ s'.at_ v' = s.at_ v' := by
      unfold waking at hf
      cases st with
      | tws3 _ _ x hw' hp' hx he =>
        have := hsl x hx he.1
        obtain ⟨e1, e2, e3⟩ := he
        have hxw : x ≠ w := by intro e; subst e; rw [e1] at hp'; cases hp'
        refine ⟨x, hx, ?_, ?_, ?_, rfl⟩
        · simp [hp'] at hf; rw [e2, hf]
        · simp [hp'] at hf; rw [← this, ← hf]; exact e3
        · simp [upd_apply, hxw]
      | sc3 _ _ x hw' hp' hx he =>
        have := hsl x hx he.1
        obtain ⟨e1, e2, e3⟩ := he
        have hxw : x ≠ w := by intro e; subst e; rw [e1] at hp'; cases hp'
        refine ⟨x, hx, ?_, ?_, ?_, rfl⟩
        · simp [hp'] at hf; rw [e2, hf]
        · simp [hp'] at hf; rw [← this, ← hf]; exact e3
        · simp [upd_apply, hxw]
      | tws3None _ _ hw' hp' hn' =>
        simp [hp'] at hf
        exact absurd ⟨hp, by rw [hdv, hf], by rw [hsl v hv hp, hf]; exact hlt⟩ (hn' v hv)
      | sc3None _ _ hw' hp' hn' =>
        simp [hp'] at hf
        exact absurd ⟨hp, by rw [hdv, hf], by rw [hsl v hv hp, hf]; exact hlt⟩ (hn' v hv)
      | _ => simp_all
    obtain ⟨v', k1, k3, k4, k5, k6⟩ := key
    exact ⟨v', k1, k3, .inr (.inr (.inr (.inr ⟨k5, by omega⟩)))⟩
  · have hpw : s'.pc w = s.pc w := by
      rcases ho w ha with e | ⟨e, _⟩
      · exact e
      · unfold waking at hf; simp [e] at hf
    have hidx := (frame st ha).1
    have hat : s'.at_ v = s.at_ v := by
      by_cases hav : a = .worker v
      · subst hav
        clear hsl ho hd hn hlt
        cases st <;> simp only [doWake, doPop, doPrep, doCancel, St.bump, doUnthief, doSleep, doAct, doNext, St.go, upd_apply, LazyPool.rouse, Eligible] at * <;> grind
      · exact (frame st hav).2.2
    have hpv : s'.pc v = .asleep ∨ s'.pc v = .look := by
      by_cases hav : a = .worker v
      · subst hav
        clear hsl ho hd hat hn
        cases st <;> simp only [doWake, doPop, doPrep, doCancel, St.bump, doUnthief, doSleep, doAct, doNext, St.go, upd_apply, LazyPool.rouse, Eligible] at * <;> grind
      · rcases ho v hav with e | ⟨_, e⟩
        · left; rw [e, hp]
        · right; exact e
    rcases hpv with e | e
    · refine .inr ⟨ha, ?_, v, hv, e, hdv, by omega⟩
      unfold waking at *; rw [hpw, hidx]; exact hf
    · exact .inl ⟨v, hv, hdv, .inr (.inr (.inr (.inr ⟨e, by omega⟩)))⟩

theorem waking_arrives {c : Cfg} (hc : c.Ok) {r : Run c} (hf : r.Fair) {t i w : Nat} (hw : w < c.N)
    (h : Waking c i w (r.st t)) : ∃ t', t ≤ t' ∧ Coming c i (r.st t') := by
  refine Run.leads' hf (.worker w) (Waking c i w) (Coming c i) (fun _ => 0)
    (fun _ => True) (fun _ _ => trivial) (fun t _ h _ => ?_) (fun t b _ h hb st => ?_) t trivial h
  · obtain ⟨h, _⟩ := h
    unfold waking at h
    refine ⟨hw, ?_, ?_, ?_⟩ <;> intro hp <;> simp [hp] at h
  · rcases Waking_step (reach_data hc (r.reach t)) st h with k | ⟨k1, k2⟩
    · exact .inl k
    · exact .inr ⟨k2, Nat.le_refl _, fun e => absurd e k1⟩

def notifyRank (i idx : Nat) : Pc → Nat
  | .scan => 3 * (i - idx) + 3
  | .sc2 => 3 * (i - idx) + 2
  | .sc3 => 3 * (i - idx) + 1
  | _ => 1

set_option maxHeartbeats 4000000 in
theorem notifying_own {c : Cfg} {s s' : St} (h : Counts c s) (hd : Data c s)
    {i w v : Nat} (st : Step c (.worker w) s s') (hi : i < c.D) (ht : s'.thief i = 0) (hv : v < c.N)
    (hs : sleepy (s.pc v) = true) (hdv : c.dom v = i) (hf : notifying c s i w) :
    (notifying c s' i w ∧ notifyRank i (s'.idx w) (s'.pc w) < notifyRank i (s.idx w) (s.pc w)) ∨ Waking c i w s' ∨ Coming c i s' := by
  have h1 : s.must i = true := hdv ▸ must_of h hv (by revert hs; cases s.pc v <;> simp [sleepy, reg])
  have h2 := hd.atle v
  rw [hdv] at h2
  have h3 : s.pc v = .look ∨ s.pc v = .asleep := by revert hs; cases s.pc v <;> simp [sleepy]
  clear h hd hs
  unfold notifying at hf
  have key : (notifying c s' i w ∧ notifyRank i (s'.idx w) (s'.pc w) < notifyRank i (s.idx w) (s.pc w)) ∨
      (waking c s' i w ∧ s'.pc v = s.pc v ∧ s'.at_ v = s.at_ v ∧ s'.n i = s.n i + 1) := by
    unfold notifying waking
    cases st <;> simp only [doWake, doPop, doPrep, doCancel, St.bump, doUnthief, doSleep, doAct, doNext, St.go, upd_apply, LazyPool.rouse, Eligible] at * <;> grind [notifyRank]
  rcases key with k | ⟨k1, k2, k3, k4⟩
  · exact .inl k
  · rcases h3 with e | e
    · exact .inr (.inr ⟨v, hv, hdv, .inr (.inr (.inr (.inr ⟨by rw [k2, e], by omega⟩)))⟩)
    · exact .inr (.inl ⟨k1, v, hv, by rw [k2, e], hdv, by omega⟩)

theorem notifying_other {c : Cfg} {a : Actor} {s s' : St} (st : Step c a s s') {i w : Nat} (ha : a ≠ .worker w)
    (hf : notifying c s i w) : notifying c s' i w ∧ s'.idx w = s.idx w ∧ s'.pc w = s.pc w := by
  have hpc : s'.pc w = s.pc w := by
    rcases others st w ha with e | ⟨e, _⟩
    · exact e
    · unfold notifying at hf; simp [e] at hf
  have hidx := (frame st ha).1
  refine ⟨?_, hidx, hpc⟩
  unfold notifying at *
  rw [hpc, hidx]; exact hf

theorem notifying_arrives {c : Cfg} (hc : c.Ok) {r : Run c} (hf : r.Fair) {t i w : Nat} (hw : w < c.N) (hi : i < c.D)
    (h : notifying c (r.st t) i w) : ∃ t', t ≤ t' ∧ (¬ Bad c i (r.st t') ∨ Waking c i w (r.st t') ∨ Coming c i (r.st t')) := by
  refine Run.leads' hf (.worker w) (fun s => notifying c s i w) (fun s => ¬ Bad c i s ∨ Waking c i w s ∨ Coming c i s)
    (fun s => notifyRank i (s.idx w) (s.pc w))
    (fun _ => True) (fun _ _ => trivial) (fun t _ h _ => ?_) (fun t b _ h hb st => ?_) t trivial h
  · unfold notifying at h
    refine ⟨hw, ?_, ?_, ?_⟩ <;> intro hp <;> simp [hp] at h
  · have hr := r.reach t
    have h1 := reach_counts hc hr
    by_cases hb' : Bad c i (r.st (t + 1))
    · by_cases e : b = .worker w
      · subst e
        have hbad : Bad c i (r.st t) := Classical.byContradiction fun x => hb (.inl x)
        obtain ⟨_, _, v, hv, hs, hdv⟩ := hbad
        rcases notifying_own h1 (reach_data hc hr) st hi hb'.2.1 hv hs hdv h with ⟨k1, k2⟩ | k
        · exact .inr ⟨k1, Nat.le_of_lt k2, fun _ => k2⟩
        · exact .inl (.inr k)
      · obtain ⟨k1, k2, k3⟩ := notifying_other st e h
        exact .inr ⟨k1, by rw [k2, k3]; exact Nat.le_refl _, fun x => absurd x e⟩
    · exact .inl (.inl hb')

/-- A domain does not stay without a thief while somebody is active and somebody in it is in `wait`. -/
theorem bad_ends {c : Cfg} (hc : c.Ok) {r : Run c} (hf : r.Fair) (hstop : ∀ t, (r.st t).stop = false) {i : Nat} (hi : i < c.D)
    (t : Nat) : ∃ t', t ≤ t' ∧ ¬ Bad c i (r.st t') := by
  have fin : ∀ t, Coming c i (r.st t) → ∃ t', t ≤ t' ∧ ¬ Bad c i (r.st t') := fun t ⟨w, hw, h⟩ => coming_arrives hc hf hw h
  have fin2 : ∀ t w, w < c.N → Waking c i w (r.st t) → ∃ t', t ≤ t' ∧ ¬ Bad c i (r.st t') := fun t w hw h => by
    obtain ⟨t1, l1, k1⟩ := waking_arrives hc hf hw h
    obtain ⟨t2, l2, k2⟩ := fin t1 k1
    exact ⟨t2, by omega, k2⟩
  by_cases hb : Bad c i (r.st t)
  · obtain ⟨b1, b2, v, hv, b3, b4⟩ := hb
    rcases reach_watch hc (r.reach t) (hstop t) b1 i hi b2 v hv b3 b4 with ⟨w, hw, h | h⟩ | ⟨w, v', hw, hv', h, hp, hd, hlt⟩
    · exact coming_arrives hc hf hw h
    · obtain ⟨t1, l1, k1 | k1 | k1⟩ := notifying_arrives hc hf hw hi h
      · exact ⟨t1, l1, k1⟩
      · obtain ⟨t2, l2, k2⟩ := fin2 t1 w hw k1
        exact ⟨t2, by omega, k2⟩
      · obtain ⟨t2, l2, k2⟩ := fin t1 k1
        exact ⟨t2, by omega, k2⟩
    · exact fin2 t w hw ⟨h, v', hv', hp, hd, hlt⟩
  · exact ⟨t, Nat.le_refl _, hb⟩

end Verif.LazyPool
