import Verif.LazyPool.Run

/-! Submitted jobs are started. -/
namespace Verif.LazyPool
open Verif.EventCount

/-- The steps left of `thief_work_sleep`, for a loop at position `i` and `h` jobs in hand. -/
def twsRank (D i h : Nat) : Pc → Nat
  | .deact => 2
  | .work => 3 + h
  | .sc3 => 3 * (D - i) + 2 + h
  | .sc2 => 3 * (D - i) + 3 + h
  | .scan => 3 * (D - i) + 4 + h
  | .act => 3 * D + 5 + h
  | .tws3 => 3 * D + 6 + h
  | .tws2 => 3 * D + 7 + h
  | .tws1 => 3 * D + 8 + h
  | .cancelPop => 3 * D + 9 + h
  | .steal => 3 * D + 9 + h
  | .prep => 1
  | .wake => 1
  | .leave => 2
  | .cancelWake => 2
  | .look => 3
  | .chk => 4
  | .dec => 5
  | .stopChk => 6
  | _ => 0

def rank (c : Cfg) (w : Nat) (s : St) : Nat := twsRank c.D (s.idx w) (s.hand w).length (s.pc w)

/-- A step of another actor does not touch a worker's locals, and its list only grows. -/
theorem frame {c : Cfg} {a : Actor} {s s' : St} (st : Step c a s s') {w : Nat} (h : a ≠ .worker w) :
    s'.idx w = s.idx w ∧ s'.hand w = s.hand w ∧ s'.at_ w = s.at_ w := by
  cases st <;> simp only [doWake, doPop, doPrep, doCancel, St.bump, doUnthief, doSleep, doAct, doNext, St.go, upd_apply, LazyPool.rouse, Eligible] at * <;> grind

theorem rank_frame {c : Cfg} {a : Actor} {s s' : St} (st : Step c a s s') {w : Nat} (h : a ≠ .worker w) (hp : s.pc w ≠ .asleep) :
    rank c w s' = rank c w s := by
  obtain ⟨h1, h2, _⟩ := frame st h
  rcases others st w h with e | ⟨e, _⟩
  · unfold rank; rw [h1, h2, e]
  · exact absurd e hp

theorem stop_mono {c : Cfg} {a : Actor} {s s' : St} (st : Step c a s s') (h : s.stop = true) : s'.stop = true := by
  cases st <;> simp only [doWake, doPop, doPrep, doCancel, St.bump, doUnthief, doSleep, doAct, doNext, St.go, upd_apply, LazyPool.rouse, Eligible] at * <;> grind

set_option maxHeartbeats 4000000 in
/-- Worker `w` pops its list or comes closer to doing so. -/
theorem pop_rank {c : Cfg} {s s' : St} {j w : Nat} (h : Counts c s) (hd : Data c s) (hs : Sub c s) (few : Few c s)
    (hidx : ∀ w, s.pc w = .sc2 ∨ s.pc w = .sc3 → s.idx w < c.D) (st : Step c (.worker w) s s') (hw : w < c.N)
    (hq : quitting (s'.pc w) = false) (hj : s.loc j = .inbox w) (hret : s.call j = .returned) :
    s'.loc j = .hand w ∨ (s'.loc j = .inbox w ∧ s'.call j = .returned ∧ rank c w s' < rank c w s) := by
  have h1 := hs.seen j w hw hj
  have h2 := hs.rouse j w hw hj
  have h3 := look_at h hd few hw
  have h4 : s.inbox w ≠ [] := fun e => by have := (hs.inbox j w).2 hj; rw [e] at this; cases this
  have h5 := hs.free w hw
  have h7 := hidx w
  have h9 : committed .look = true := rfl
  have h10 := (hs.hand · w)
  clear h hd hs few hidx
  unfold rank
  cases st <;> simp only [doWake, doPop, doPrep, doCancel, St.bump, doUnthief, doSleep, doAct, doNext, St.go, upd_apply, LazyPool.rouse, Eligible] at * <;>
    grind [twsRank, holds, quitting, committed]

set_option maxHeartbeats 4000000 in
/-- Worker `w` starts the job in its hands or comes closer to doing so. -/
theorem start_rank {c : Cfg} {s s' : St} {j w : Nat} (hs : Sub c s)
    (hidx : ∀ w, s.pc w = .sc2 ∨ s.pc w = .sc3 → s.idx w < c.D) (st : Step c (.worker w) s s') (hw : w < c.N)
    (hj : s.loc j = .hand w) :
    s'.loc j = .started ∨ (s'.loc j = .hand w ∧ rank c w s' < rank c w s) := by
  have h4 : s.hand w ≠ [] := fun e => by have := (hs.hand j w).2 hj; rw [e] at this; cases this
  have h5 := hs.free w hw h4
  have h7 := hidx w
  clear hs hidx
  unfold rank
  cases st <;> simp only [doWake, doPop, doPrep, doCancel, St.bump, doUnthief, doSleep, doAct, doNext, St.go, upd_apply, LazyPool.rouse, Eligible] at * <;>
    grind [twsRank, holds]

set_option maxHeartbeats 4000000 in
theorem loc_frame {c : Cfg} {a : Actor} {s s' : St} (hs : Sub c s) (st : Step c a s s') {j w : Nat} (h : a ≠ .worker w) :
    (s.loc j = .hand w → s'.loc j = .hand w) ∧ (s.loc j = .inbox w → s'.loc j = .inbox w) ∧
    (s.call j = .returned → s'.call j = .returned) := by
  have h1 := hs.unsent
  have h2 : ∀ x k ks, s.hand x = k :: ks → s.loc k = .hand x := fun x k ks e => (hs.hand k x).1 (by rw [e]; simp)
  clear hs
  cases st <;> simp only [doWake, doPop, doPrep, doCancel, St.bump, doUnthief, doSleep, doAct, doNext, St.go, upd_apply, LazyPool.rouse, Eligible] at * <;> grind

/-- How far the submission of `j` is from its end. -/
def callRank (s : St) (j : Nat) : Nat :=
  match s.call j with
  | .pushed _ => 2
  | .waking _ => 1
  | _ => 0

set_option maxHeartbeats 4000000 in
theorem call_step {c : Cfg} {a : Actor} {s s' : St} (st : Step c a s s') {j : Nat} (h : Ready c s (.submit j)) :
    (s'.call j = .returned ∨ Ready c s' (.submit j)) ∧ callRank s' j ≤ callRank s j ∧
    (a = .submit j → callRank s' j < callRank s j) := by
  unfold Ready callRank at *
  cases st <;> simp only [doWake, doPop, doPrep, doCancel, St.bump, doUnthief, doSleep, doAct, doNext, St.go, upd_apply, LazyPool.rouse, Eligible] at * <;> grind

theorem call_returns {c : Cfg} {r : Run c} (hf : r.Fair) {t j : Nat} (h : (r.st t).call j ≠ .unsent) :
    ∃ t', t ≤ t' ∧ (r.st t').call j = .returned := by
  refine Run.leads' hf (.submit j) (fun s => s.call j ≠ .unsent) (fun s => s.call j = .returned) (fun s => callRank s j)
    (fun _ => True) (fun _ _ => trivial) (fun t _ h1 h2 => ⟨h1, h2⟩) (fun t b _ h1 h2 st => ?_) t trivial h
  obtain ⟨k1, k2, k3⟩ := call_step st (j := j) ⟨h1, h2⟩
  rcases k1 with k1 | k1
  · exact .inl k1
  · exact .inr ⟨k1.1, k2, k3⟩

/-- The worker has looked at its list for the last time, if the pool has been told to stop. -/
def lastLook : Pc → Bool
  | .stopChk => true
  | p => quitting p

/-- A worker with a submission in its list does not look for the last time. -/
theorem last_step {c : Cfg} {a : Actor} {s s' : St} (hs : Sub c s) (st : Step c a s s') {j w : Nat} (hj : s.loc j = .inbox w)
    (h : lastLook (s.pc w) = false) : lastLook (s'.pc w) = false := by
  have h4 : s.inbox w ≠ [] := fun e => by have := (hs.inbox j w).2 hj; rw [e] at this; cases this
  clear hs hj
  by_cases ha : a = .worker w
  · subst ha
    cases st <;> simp only [doWake, doPop, doPrep, doCancel, St.bump, doUnthief, doSleep, doAct, doNext, St.go, upd_apply, LazyPool.rouse, Eligible] at * <;>
      grind [lastLook, quitting]
  · rcases others st w ha with e | ⟨_, e⟩ <;> rw [e]
    · exact h
    · rfl

theorem quitting_of_last {p : Pc} (h : lastLook p = false) : quitting p = false := by
  cases p <;> first | rfl | cases h

theorem popped_of {c : Cfg} (hc : c.Ok) {r : Run c} (hf : r.Fair) {t j w : Nat} (hw : w < c.N)
    (P : St → Prop) (hP : ∀ s, P s → quitting (s.pc w) = false)
    (hP' : ∀ t a, P (r.st t) → (r.st t).loc j = .inbox w → Step c a (r.st t) (r.st (t + 1)) → P (r.st (t + 1)))
    (h1 : (r.st t).loc j = .inbox w) (h2 : (r.st t).call j = .returned) (h3 : P (r.st t)) :
    ∃ t', t ≤ t' ∧ (r.st t').loc j = .hand w := by
  refine Run.leads' hf (.worker w) (fun s => s.loc j = .inbox w ∧ s.call j = .returned ∧ P s) (fun s => s.loc j = .hand w) (rank c w)
    (fun _ => True) (fun _ _ => trivial) (fun t _ h _ => ?_) (fun t b _ h _ st => ?_) t trivial ⟨h1, h2, h3⟩
  · have hs := reach_sub hc (r.reach t)
    have q : ∀ p, (r.st t).pc w = p → quitting p = true → False := fun p hp hq => by
      have := hP _ h.2.2; rw [hp, hq] at this; cases this
    refine ⟨hw, fun hp => ?_, fun hp => q _ hp rfl, fun hp => (q _ hp rfl).elim⟩
    rcases hs.rouse j w hw h.1 hp with e | e <;> rw [h.2.1] at e <;> cases e
  · have hr := r.reach t
    have hs := reach_sub hc hr
    have h4 := hP' t b h.2.2 h.1 st
    by_cases e : b = .worker w
    · subst e
      rcases pop_rank (reach_counts hc hr) (reach_data hc hr) hs (r.few t) (reach_idx hr) st hw (hP _ h4) h.1 h.2.1 with
        k | ⟨k1, k2, k3⟩
      · exact .inl k
      · exact .inr ⟨⟨k1, k2, h4⟩, Nat.le_of_lt k3, fun _ => k3⟩
    · obtain ⟨_, k2, k3⟩ := loc_frame hs st (j := j) e
      refine .inr ⟨⟨k2 h.1, k3 h.2.1, h4⟩, ?_, fun x => absurd x e⟩
      refine Nat.le_of_eq (rank_frame st e fun hp => ?_)
      rcases hs.rouse j w hw h.1 hp with e | e <;> rw [h.2.1] at e <;> cases e

/-- While the pool is not told to stop. -/
theorem popped {c : Cfg} (hc : c.Ok) {r : Run c} (hf : r.Fair) (hstop : ∀ t, (r.st t).stop = false) {t j w : Nat} (hw : w < c.N)
    (h1 : (r.st t).loc j = .inbox w) (h2 : (r.st t).call j = .returned) :
    ∃ t', t ≤ t' ∧ (r.st t').loc j = .hand w := by
  have q : ∀ t, quitting ((r.st t).pc w) = false := fun t => by
    cases hq : quitting ((r.st t).pc w) with
    | false => rfl
    | true => have := (reach_data hc (r.reach t)).quit w hw hq; rw [hstop] at this; cases this
  exact popped_of hc hf hw (fun s => quitting (s.pc w) = false) (fun _ h => h) (fun t _ _ _ _ => q (t + 1)) h1 h2 (q t)

/-- Whether or not the pool is told to stop. -/
theorem popped_last {c : Cfg} (hc : c.Ok) {r : Run c} (hf : r.Fair) {t j w : Nat} (hw : w < c.N)
    (h1 : (r.st t).loc j = .inbox w) (h2 : (r.st t).call j = .returned) (h3 : lastLook ((r.st t).pc w) = false) :
    ∃ t', t ≤ t' ∧ (r.st t').loc j = .hand w :=
  popped_of hc hf hw (fun s => lastLook (s.pc w) = false) (fun _ => quitting_of_last)
    (fun t _ h hj st => last_step (reach_sub hc (r.reach t)) st hj h) h1 h2 h3

theorem starts {c : Cfg} (hc : c.Ok) {r : Run c} (hf : r.Fair) {t j w : Nat} (h1 : (r.st t).loc j = .hand w) :
    ∃ t', t ≤ t' ∧ (r.st t').loc j = .started := by
  have hw := (reach_sub hc (r.reach t)).lt2 j w h1
  have hold : ∀ t, (r.st t).loc j = .hand w → holds ((r.st t).pc w) = true := fun t h => by
    have hs := reach_sub hc (r.reach t)
    refine hs.free w hw fun e => ?_
    have := (hs.hand j w).2 h; rw [e] at this; cases this
  refine Run.leads' hf (.worker w) (fun s => s.loc j = .hand w) (fun s => s.loc j = .started) (rank c w)
    (fun _ => True) (fun _ _ => trivial) (fun t _ h _ => ?_) (fun t b _ h _ st => ?_) t trivial h1
  · have := hold t h
    refine ⟨hw, ?_, ?_, ?_⟩ <;> intro hp <;> rw [hp] at this <;> cases this
  · have hr := r.reach t
    have hs := reach_sub hc hr
    by_cases e : b = .worker w
    · subst e
      rcases start_rank hs (reach_idx hr) st hw h with k | ⟨k1, k2⟩
      · exact .inl k
      · exact .inr ⟨k1, Nat.le_of_lt k2, fun _ => k2⟩
    · obtain ⟨k1, _, _⟩ := loc_frame hs st (j := j) e
      refine .inr ⟨k1 h, ?_, fun x => absurd x e⟩
      refine Nat.le_of_eq (rank_frame st e fun hp => ?_)
      have := hold t h; rw [hp] at this; cases this

/-- Where a job can go from a list. -/
theorem inbox_step {c : Cfg} {a : Actor} {s s' : St} (hs : Sub c s) (st : Step c a s s') {j w : Nat} (hj : s.loc j = .inbox w) :
    s'.loc j = .inbox w ∨ s'.loc j = .hand w := by
  have h1 := hs.unsent
  have h2 : ∀ x k ks, s.hand x = k :: ks → s.loc k = .hand x := fun x k ks e => (hs.hand k x).1 (by rw [e]; simp)
  clear hs
  cases st <;> simp only [doWake, doPop, doPrep, doCancel, St.bump, doUnthief, doSleep, doAct, doNext, St.go, upd_apply, LazyPool.rouse, Eligible] at * <;> grind

theorem Run.loc_walk {c : Cfg} (hc : c.Ok) (r : Run c) {j w t : Nat} (h : (r.st t).loc j = .inbox w) (d : Nat) :
    (∃ x, t ≤ x ∧ (r.st x).loc j = .hand w) ∨
      ((r.st (t + d)).loc j = .inbox w ∧ (lastLook ((r.st t).pc w) = false → lastLook ((r.st (t + d)).pc w) = false)) := by
  induction d with
  | zero => exact .inr ⟨h, id⟩
  | succ d ih =>
    rcases ih with ih | ⟨i1, i2⟩
    · exact .inl ih
    · have hs := reach_sub hc (r.reach (t + d))
      rcases r.next (t + d) with ⟨_, e⟩ | ⟨b, _, st⟩
      · exact .inr ⟨by rw [← Nat.add_assoc, e]; exact i1, by rw [← Nat.add_assoc, e]; exact i2⟩
      · rcases inbox_step hs st i1 with k | k
        · exact .inr ⟨k, fun hl => last_step hs st i1 (i2 hl)⟩
        · exact .inl ⟨t + d + 1, by omega, k⟩

/-- Every submitted job is started. -/
theorem job_starts {c : Cfg} (hc : c.Ok) {r : Run c} (hf : r.Fair) {t j : Nat} (h : (r.st t).call j ≠ .unsent)
    (hq : (∀ t, (r.st t).stop = false) ∨ ∀ w, (r.st t).loc j = .inbox w → lastLook ((r.st t).pc w) = false) :
    ∃ t', t ≤ t' ∧ (r.st t').loc j = .started := by
  have hs := reach_sub hc (r.reach t)
  have inHand : ∀ x w, t ≤ x → (r.st x).loc j = .hand w → ∃ t', t ≤ t' ∧ (r.st t').loc j = .started := fun x w hx hh => by
    obtain ⟨y, hy, e⟩ := starts hc hf hh
    exact ⟨y, by omega, e⟩
  cases hl : (r.st t).loc j with
  | unsent => exact absurd ((hs.unsent j).2 hl) h
  | started => exact ⟨t, Nat.le_refl _, hl⟩
  | hand w => exact inHand t w (Nat.le_refl _) hl
  | inbox w =>
    have hw := hs.lt1 j w hl
    obtain ⟨t1, l1, k1⟩ := call_returns hf h
    rcases Run.loc_walk hc r hl (t1 - t) with ⟨x, hx, e⟩ | ⟨e, e'⟩
    · exact inHand x w hx e
    · rw [Nat.add_sub_cancel' l1] at e e'
      have : ∃ t', t1 ≤ t' ∧ (r.st t').loc j = .hand w := by
        rcases hq with hq | hq
        · exact popped hc hf hq hw e k1
        · exact popped_last hc hf hw e k1 (e' (hq w hl))
      obtain ⟨t2, l2, k2⟩ := this
      exact inHand t2 w (by omega) k2

end Verif.LazyPool
