import Verif.LazyPool.LiveSub

/-! The destructor returns. -/
namespace Verif.LazyPool
open Verif.EventCount

/-- Nothing is submitted any more, and no theft succeeds, from time `t0` on. -/
structure Quiet {c : Cfg} (r : Run c) (t0 : Nat) : Prop where
  push : ∀ t j, t0 ≤ t → (r.st t).call j = .unsent → (r.st (t + 1)).call j = .unsent
  steal : ∀ t w, t0 ≤ t → (r.st t).pc w = .steal → (r.st (t + 1)).pc w ≠ .tws1

/-- The steps left for a worker once `stop` is set and nobody blocks. -/
def exitRank (D i h : Nat) : Pc → Nat
  | .fin4 => 0
  | .fin3 => 1
  | .fin2 => 2
  | .fin1 => 3
  | .quit4 => 4
  | .quit3 => 5
  | .quit2 => 6
  | .quit1 => 7
  | .stopChk => 8
  | .pop2 => 9
  | .prep => 10
  | .steal => 11
  | .pop1 => 12
  | .wake => 13
  | .leave | .cancelWake | .deact => 14
  | .look | .asleep => 15
  | .chk => 16
  | .dec => 17
  | .work => 15 + h
  | .sc3 => 3 * (D - i) + 14 + h
  | .sc2 => 3 * (D - i) + 15 + h
  | .scan => 3 * (D - i) + 16 + h
  | .act => 3 * D + 17 + h
  | .tws3 => 3 * D + 18 + h
  | .tws2 => 3 * D + 19 + h
  | .tws1 => 3 * D + 20 + h
  | .cancelPop => 3 * D + 21 + h

def exits (c : Cfg) (w : Nat) (s : St) : Nat :=
  (if s.inbox w = [] then 0 else 3 * c.D + 30 + (s.inbox w).length) + exitRank c.D (s.idx w) (s.hand w).length (s.pc w)

set_option maxHeartbeats 4000000 in
theorem exits_own {c : Cfg} {s s' : St} {w : Nat} (h : Counts c s) (hd : Data c s) (hs : Sub c s) (hk : Stop c s) (few : Few c s)
    (hidx : ∀ w, s.pc w = .sc2 ∨ s.pc w = .sc3 → s.idx w < c.D) (st : Step c (.worker w) s s') (hw : w < c.N)
    (hj : s.dpc = .joining) (hq : s.pc w = .steal → s'.pc w ≠ .tws1) : exits c w s' < exits c w s := by
  have h1 := hk.told w hw (by rw [hj]; trivial)
  have h2 := hk.up w hw (by rw [hj]; trivial)
  have h3 := look_at h hd few hw
  have h4 := hd.dstop (by rw [hj]; simp)
  have h5 := hs.free w hw
  have h7 := hidx w
  have e1 : retiring .look = true := rfl
  clear h hd hs hk few hidx hj
  unfold exits
  cases st <;> simp only [doWake, doPop, doPrep, doCancel, St.bump, doUnthief, doSleep, doAct, doNext, St.go, upd_apply, LazyPool.rouse, Eligible] at * <;>
    grind [exitRank, holds]

set_option maxHeartbeats 4000000 in
theorem inbox_other {c : Cfg} {a : Actor} {s s' : St} (st : Step c a s s') {w : Nat} (ha : a ≠ .worker w)
    (hq : ∀ j, s.call j = .unsent → s'.call j = .unsent) : s'.inbox w = s.inbox w := by
  cases st <;> simp only [doWake, doPop, doPrep, doCancel, St.bump, doUnthief, doSleep, doAct, doNext, St.go, upd_apply, LazyPool.rouse, Eligible] at * <;> grind

theorem exits_other {c : Cfg} {a : Actor} {s s' : St} (st : Step c a s s') {w : Nat} (ha : a ≠ .worker w)
    (hq : ∀ j, s.call j = .unsent → s'.call j = .unsent) (hp : s.pc w ≠ .asleep) : exits c w s' = exits c w s := by
  obtain ⟨h1, h2, _⟩ := frame st ha
  unfold exits
  rw [inbox_other st ha hq, h1, h2]
  rcases others st w ha with e | ⟨e, _⟩
  · rw [e]
  · exact absurd e hp

set_option maxHeartbeats 4000000 in
theorem joining_step {c : Cfg} {a : Actor} {s s' : St} (st : Step c a s s') (h : s.dpc = .joining) :
    s'.dpc = .joining ∨ (s'.dpc = .gone ∧ ∀ w, w < c.N → s.pc w = .fin4) := by
  cases st <;> simp only [doWake, doPop, doPrep, doCancel, St.bump, doUnthief, doSleep, doAct, doNext, St.go, upd_apply, LazyPool.rouse, Eligible] at * <;> grind

theorem gone_step {c : Cfg} {a : Actor} {s s' : St} (st : Step c a s s') (h : s.dpc = .gone) : s'.dpc = .gone := by
  cases st <;> simp only [doWake, doPop, doPrep, doCancel, St.bump, doUnthief, doSleep, doAct, doNext, St.go, upd_apply, LazyPool.rouse, Eligible] at * <;> grind

/-- Arrived at `latch_stop`, and stays so. -/
theorem arrived_step {c : Cfg} {a : Actor} {s s' : St} (st : Step c a s s') {w : Nat} :
    (before (s.pc w) = false → before (s'.pc w) = false) ∧ (s.pc w = .fin4 → s'.pc w = .fin4) := by
  by_cases ha : a = .worker w
  · subst ha
    cases st <;> simp only [doWake, doPop, doPrep, doCancel, St.bump, doUnthief, doSleep, doAct, doNext, St.go, upd_apply, LazyPool.rouse, Eligible] at * <;> grind [before]
  · rcases others st w ha with e | ⟨e, e'⟩
    · rw [e]; exact ⟨id, id⟩
    · rw [e, e']; simp [before]

def dtorRank (D : Nat) : DPc → Nat
  | .notify i => 2 * (D - i) + 1
  | .rousing i => 2 * (D - i)
  | _ => 0

set_option maxHeartbeats 4000000 in
theorem dtor_step {c : Cfg} {a : Actor} {s s' : St} (hk : Stop c s) (st : Step c a s s') (h1 : s.dpc ≠ .alive)
    (h2 : ¬ (s.dpc = .joining ∨ s.dpc = .gone)) :
    s'.dpc ≠ .alive ∧ dtorRank c.D s'.dpc ≤ dtorRank c.D s.dpc ∧ (a = .dtor → dtorRank c.D s'.dpc < dtorRank c.D s.dpc) := by
  have h4 := hk.dom
  have h5 := hk.dom'
  clear hk
  cases st <;> simp only [doWake, doPop, doPrep, doCancel, St.bump, doUnthief, doSleep, doAct, doNext, St.go, upd_apply, LazyPool.rouse, Eligible] at * <;> grind [dtorRank]

theorem reaches_join {c : Cfg} (hc : c.Ok) {r : Run c} (hf : r.Fair) {t : Nat} (h : (r.st t).dpc ≠ .alive) :
    ∃ t', t ≤ t' ∧ ((r.st t').dpc = .joining ∨ (r.st t').dpc = .gone) := by
  refine Run.leads' hf .dtor (fun s => s.dpc ≠ .alive) (fun s => s.dpc = .joining ∨ s.dpc = .gone) (fun s => dtorRank c.D s.dpc)
    (fun _ => True) (fun _ _ => trivial) (fun t _ h hn => ?_) (fun t b _ h hb st => ?_) t trivial h
  · exact ⟨h, fun e => hn (.inr e), fun e => absurd (.inl e) hn⟩
  · exact .inr (dtor_step (reach_stop hc (r.reach t)) st h hb)

/-- What holds at `t` and is kept by every step holds from `t` on. -/
theorem Run.keep {c : Cfg} (r : Run c) (P : St → Prop) {t : Nat} (h : P (r.st t))
    (hs : ∀ u a, t ≤ u → P (r.st u) → Step c a (r.st u) (r.st (u + 1)) → P (r.st (u + 1))) : ∀ u, t ≤ u → P (r.st u) := by
  intro u hu
  induction u with
  | zero => have : t = 0 := by omega
            rw [← this]; exact h
  | succ u ih =>
    by_cases e : t ≤ u
    · rcases r.next u with ⟨_, e'⟩ | ⟨a, _, st⟩
      · rw [e']; exact ih e
      · exact hs u a e (ih e) st
    · have : t = u + 1 := by omega
      rw [← this]; exact h

theorem arrives {c : Cfg} (hc : c.Ok) {r : Run c} (hf : r.Fair) {t0 w : Nat} (hq : Quiet r t0) (hw : w < c.N)
    (h : ∀ u, t0 ≤ u → (r.st u).dpc = .joining) : ∃ t', t0 ≤ t' ∧ before ((r.st t').pc w) = false := by
  have hup : ∀ u, t0 ≤ u → (r.st u).pc w ≠ .asleep := fun u hu =>
    (reach_stop hc (r.reach u)).up w hw (by rw [h u hu]; trivial)
  refine Run.leads' hf (.worker w) (fun _ => True) (fun s => before (s.pc w) = false) (exits c w)
    (fun t => t0 ≤ t) (fun _ h => by omega) (fun t ht _ hn => ?_) (fun t b ht _ hb st => ?_) t0 (Nat.le_refl _) trivial
  · refine ⟨hw, hup t ht, fun e => hn (by rw [e]; rfl), fun e => absurd (by rw [e]; rfl) hn⟩
  · have hr := r.reach t
    right
    refine ⟨trivial, ?_, fun e => ?_⟩
    · by_cases e : b = .worker w
      · subst e
        exact Nat.le_of_lt (exits_own (reach_counts hc hr) (reach_data hc hr) (reach_sub hc hr) (reach_stop hc hr) (r.few t)
          (reach_idx hr) st hw (h t ht) (hq.steal t w ht))
      · exact Nat.le_of_eq (exits_other st e (fun j => hq.push t j ht) (hup t ht))
    · subst e
      exact exits_own (reach_counts hc hr) (reach_data hc hr) (reach_sub hc hr) (reach_stop hc hr) (r.few t)
          (reach_idx hr) st hw (h t ht) (hq.steal t w ht)

/-- If each of finitely many things happens eventually and stays, they all do. -/
theorem all_eventually (P : Nat → Nat → Prop) (N t0 : Nat) (h : ∀ w, w < N → ∃ t, t0 ≤ t ∧ ∀ u, t ≤ u → P w u) :
    ∃ t, t0 ≤ t ∧ ∀ u, t ≤ u → ∀ w, w < N → P w u := by
  induction N with
  | zero => exact ⟨t0, Nat.le_refl _, fun _ _ w hw => absurd hw (by omega)⟩
  | succ N ih =>
    obtain ⟨t1, l1, k1⟩ := ih fun w hw => h w (by omega)
    obtain ⟨t2, l2, k2⟩ := h N (by omega)
    refine ⟨max t1 t2, by omega, fun u hu w hw => ?_⟩
    by_cases e : w = N
    · subst e; exact k2 u (by omega)
    · exact k1 u (by omega) w (by omega)

theorem fin_own {c : Cfg} {s s' : St} {w : Nat} (st : Step c (.worker w) s s') (h : s.pc w = .fin3) : s'.pc w = .fin4 := by
  cases st <;> simp only [doWake, doPop, doPrep, doCancel, St.bump, doUnthief, doSleep, doAct, doNext, St.go, upd_apply, LazyPool.rouse, Eligible] at * <;> grind

theorem dtor_join {c : Cfg} {s s' : St} (st : Step c .dtor s s') (h : s.dpc = .joining) : s'.dpc = .gone := by
  cases st <;> simp_all

theorem destroyed {c : Cfg} (hc : c.Ok) {r : Run c} (hf : r.Fair) {t0 : Nat} (hq : Quiet r t0) (h0 : (r.st t0).dpc ≠ .alive) :
    ∃ t', t0 ≤ t' ∧ (r.st t').dpc = .gone := by
  apply Classical.byContradiction
  intro hng
  have ng : ∀ u, t0 ≤ u → (r.st u).dpc ≠ .gone := fun u hu e => hng ⟨u, hu, e⟩
  obtain ⟨t1, l1, k1⟩ := reaches_join hc hf h0
  have hj : ∀ u, t1 ≤ u → (r.st u).dpc = .joining := by
    refine Run.keep r (fun s => s.dpc = .joining) (k1.resolve_right (ng t1 l1)) fun u a hu hp st => ?_
    rcases joining_step st hp with e | ⟨e, _⟩
    · exact e
    · exact absurd e (ng (u + 1) (by omega))
  have hq1 : Quiet r t1 := ⟨fun t j h => hq.push t j (by omega), fun t w h => hq.steal t w (by omega)⟩
  obtain ⟨t2, l2, k2⟩ := all_eventually (fun w u => before ((r.st u).pc w) = false) c.N t1 fun w hw => by
    obtain ⟨t, l, k⟩ := arrives hc hf hq1 hw hj
    exact ⟨t, l, r.keep (fun s => before (s.pc w) = false) k fun u a _ hp st => (arrived_step st).1 hp⟩
  have hlatch : ∀ u, t2 ≤ u → (r.st u).latch = 0 := fun u hu => by
    rw [(reach_counts hc (r.reach u)).latch]; exact num_zero.2 fun w hw => k2 u hu w hw
  obtain ⟨t3, l3, k3⟩ := all_eventually (fun w u => (r.st u).pc w = .fin4) c.N t2 fun w hw => by
    have : ∃ t', t2 ≤ t' ∧ (r.st t').pc w = .fin4 := by
      refine Run.leads' hf (.worker w) (fun _ => True) (fun s => s.pc w = .fin4) (fun s => exitRank 0 0 0 (s.pc w))
        (fun t => t2 ≤ t) (fun _ h => by omega) (fun t ht _ hn => ?_) (fun t b ht _ hb st => ?_) t2 (Nat.le_refl _) trivial
      · refine ⟨hw, fun e => ?_, hn, fun _ => hlatch t ht⟩
        have := k2 t ht w hw; rw [e] at this; cases this
      · have hp : (r.st t).pc w = .fin3 := by
          have := k2 t ht w hw
          revert this hb; cases (r.st t).pc w <;> simp [before]
        by_cases e : b = .worker w
        · subst e
          exact .inl (fin_own st hp)
        · right
          rcases others st w e with e' | ⟨e', _⟩
          · exact ⟨trivial, by rw [e']; exact Nat.le_refl _, fun x => absurd x e⟩
          · rw [e'] at hp; cases hp
    obtain ⟨t, l, k⟩ := this
    exact ⟨t, l, r.keep (fun s => s.pc w = .fin4) k fun u a _ hp st => (arrived_step st).2 hp⟩
  have : ∃ t', t3 ≤ t' ∧ (r.st t').dpc = .gone := by
    refine Run.leads' hf .dtor (fun _ => True) (fun s => s.dpc = .gone) (fun _ => 0)
      (fun t => t3 ≤ t) (fun _ h => by omega) (fun t ht _ hn => ?_) (fun t b ht _ hb st => ?_) t3 (Nat.le_refl _) trivial
    · have := hj t (by omega)
      exact ⟨by rw [this]; simp, hn, fun _ => k3 t ht⟩
    · by_cases e : b = .dtor
      · subst e
        exact .inl (dtor_join st (hj t (by omega)))
      · exact .inr ⟨trivial, Nat.le_refl _, fun x => absurd x e⟩
  obtain ⟨t4, l4, k4⟩ := this
  exact ng t4 (by omega) k4

end Verif.LazyPool
