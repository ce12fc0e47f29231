import Verif.Pool.Inv

/-! Every job is started, the destructor returns. -/
namespace Verif.Pool
open Verif.EventCount (upd upd_same upd_ne upd_apply num num_change num_congr num_zero num_pos num_le)
open Fair (Run)

/-- The steps before the worker looks at its list, with `h` jobs in hand. -/
def popRank (h : Nat) : Pc → Nat
  | .chk => 1
  | .task => 2
  | .steal => 3
  | .run => 2 + h
  | .drun => 1 + h
  | _ => 0

def rank (w : Nat) (s : St) : Nat := popRank (s.hand w).length (s.pc w)

set_option maxHeartbeats 4000000 in
theorem pop_own {c : Cfg} {s s' : St} {j w : Nat} (hs : Sub c s) (st : Step c (.worker w) s s')
    (hj : s.loc j = .inbox w) (hl : left (s.pc w) = false) :
    s'.loc j = .hand w ∨ (s'.loc j = .inbox w ∧ left (s'.pc w) = false ∧ rank w s' < rank w s) := by
  have h4 : s.inbox w ≠ [] := fun e => by have := (hs.inbox j w).2 hj; rw [e] at this; cases this
  have e2 : ∀ w j js, s.hand w = j :: js → s.loc j = .hand w := fun w j js e => (hs.hand j w).1 (by rw [e]; simp)
  clear hs
  unfold rank
  cases st <;> simp only [doPop, doRun, St.go, upd_apply] at * <;> grind [popRank, left]

set_option maxHeartbeats 4000000 in
theorem start_own {c : Cfg} {s s' : St} {j w : Nat} (hs : Sub c s) (st : Step c (.worker w) s s') (hw : w < c.N)
    (hj : s.loc j = .hand w) : s'.loc j = .started ∨ (s'.loc j = .hand w ∧ rank w s' < rank w s) := by
  have h4 : s.hand w ≠ [] := fun e => by have := (hs.hand j w).2 hj; rw [e] at this; cases this
  have h5 := hs.free w hw h4
  clear hs
  unfold rank
  cases st <;> simp only [doPop, doRun, St.go, upd_apply] at * <;> grind [popRank]

theorem loc_other {c : Cfg} {a : Actor} {s s' : St} (hs : Sub c s) (st : Step c a s s') {j w : Nat} (h : a ≠ .worker w) :
    (s.loc j = .hand w → s'.loc j = .hand w) ∧ (s.loc j = .inbox w → s'.loc j = .inbox w) := by
  have h1 := hs.unsent
  have h2 : ∀ x k ks, s.hand x = k :: ks → s.loc k = .hand x := fun x k ks e => (hs.hand k x).1 (by rw [e]; simp)
  clear hs
  cases st <;> simp only [doPop, doRun, St.go, upd_apply] at * <;> grind

theorem rank_other {c : Cfg} {a : Actor} {s s' : St} (st : Step c a s s') {w : Nat} (h : a ≠ .worker w) : rank w s' = rank w s := by
  unfold rank; rw [(others st w h).1, (others st w h).2]

theorem popped {c : Cfg} {r : Run (sys c)} (hf : r.Fair) {t j w : Nat} (h1 : (r.st t).loc j = .inbox w)
    (h2 : left ((r.st t).pc w) = false) : ∃ t', t ≤ t' ∧ (r.st t').loc j = .hand w := by
  have hw := (reach_sub (r.reach t)).lt1 j w h1
  refine Run.leads' hf (.worker w) (fun s => s.loc j = .inbox w ∧ left (s.pc w) = false) (fun s => s.loc j = .hand w) (rank w)
    (fun _ => True) (fun _ _ => trivial) (fun t _ h _ => ?_) (fun t b _ h _ st => ?_) t trivial ⟨h1, h2⟩
  · have := h.2
    refine ⟨hw, ?_, ?_⟩ <;> intro hp <;> rw [hp] at this <;> cases this
  · have hs := reach_sub (r.reach t)
    by_cases e : b = .worker w
    · subst e
      rcases pop_own hs st h.1 h.2 with k | ⟨k1, k2, k3⟩
      · exact .inl k
      · exact .inr ⟨⟨k1, k2⟩, Nat.le_of_lt k3, fun _ => k3⟩
    · exact .inr ⟨⟨(loc_other hs st (j := j) e).2 h.1, by rw [(others st w e).1]; exact h.2⟩, Nat.le_of_eq (rank_other st e),
        fun x => absurd x e⟩

theorem starts {c : Cfg} {r : Run (sys c)} (hf : r.Fair) {t j w : Nat} (h1 : (r.st t).loc j = .hand w) :
    ∃ t', t ≤ t' ∧ (r.st t').loc j = .started := by
  have hw := (reach_sub (r.reach t)).lt2 j w h1
  refine Run.leads' hf (.worker w) (fun s => s.loc j = .hand w) (fun s => s.loc j = .started) (rank w)
    (fun _ => True) (fun _ _ => trivial) (fun t _ h _ => ?_) (fun t b _ h _ st => ?_) t trivial h1
  · have hs := reach_sub (r.reach t)
    have := hs.free w hw (fun e => by have := (hs.hand j w).2 h; rw [e] at this; cases this)
    refine ⟨hw, ?_, ?_⟩ <;> intro hp <;> rcases this with k | k <;> rw [hp] at k <;> cases k
  · have hs := reach_sub (r.reach t)
    by_cases e : b = .worker w
    · subst e
      rcases start_own hs st hw h with k | ⟨k1, k2⟩
      · exact .inl k
      · exact .inr ⟨k1, Nat.le_of_lt k2, fun _ => k2⟩
    · exact .inr ⟨(loc_other hs st (j := j) e).1 h, Nat.le_of_eq (rank_other st e), fun x => absurd x e⟩

/-- From time `t0` on nothing is submitted. -/
def Quiet {c : Cfg} (r : Run (sys c)) (t0 : Nat) : Prop := ∀ t j, t0 ≤ t → (r.st t).sent j = false → (r.st (t + 1)).sent j = false

/-- The steps left of a worker once it is to stop and nothing is submitted: `i` jobs in its list, `h` in hand. -/
def exitRank (i h : Nat) : Pc → Nat
  | .fin4 => 0
  | .fin3 => 1
  | .fin2 => 2
  | .fin1 => 3
  | .dpop => 4 + i
  | .drun => 5 + h + i
  | .chk => 7 + i
  | .task => 8 + i
  | .steal => 9 + i
  | .run => 8 + h + i
  | .pop => 10 + i

def exits (w : Nat) (s : St) : Nat :=
  exitRank (if s.inbox w = [] then 0 else (s.inbox w).length + 3) (s.hand w).length (s.pc w)

set_option maxHeartbeats 4000000 in
theorem exits_own {c : Cfg} {s s' : St} {w : Nat} (hstop : s.stop = true) (st : Step c (.worker w) s s') : exits w s' < exits w s := by
  unfold exits
  cases st <;> simp only [doPop, doRun, St.go, upd_apply] at * <;> grind [exitRank]

theorem exits_other {c : Cfg} {a : Actor} {s s' : St} (st : Step c a s s') {w : Nat} (ha : a ≠ .worker w)
    (hq : ∀ j, s.sent j = false → s'.sent j = false) : exits w s' = exits w s := by
  have : s'.inbox w = s.inbox w := by
    cases st <;> simp only [doPop, doRun, St.go, upd_apply] at * <;> grind
  unfold exits
  rw [(others st w ha).1, (others st w ha).2, this]

theorem stop_mono {c : Cfg} {a : Actor} {s s' : St} (st : Step c a s s') (h : s.stop = true) : s'.stop = true := by
  cases st <;> simp only [doPop, doRun, St.go, upd_apply] at * <;> grind

theorem stays {c : Cfg} {a : Actor} {s s' : St} (st : Step c a s s') {w : Nat} :
    (before (s.pc w) = false → before (s'.pc w) = false) ∧ (s.pc w = .fin4 → s'.pc w = .fin4) := by
  by_cases ha : a = .worker w
  · subst ha
    cases st <;> simp only [doPop, doRun, St.go, upd_apply] at * <;> grind [before]
  · rw [(others st w ha).1]; exact ⟨id, id⟩

theorem fin_own {c : Cfg} {s s' : St} {w : Nat} (st : Step c (.worker w) s s') (h : before (s.pc w) = false) : s'.pc w = .fin4 := by
  cases st <;> simp only [doPop, doRun, St.go, upd_apply] at * <;> grind [before]

/-- Every worker arrives at the latch. -/
theorem arrives {c : Cfg} {r : Run (sys c)} (hf : r.Fair) {t0 w : Nat} (hq : Quiet r t0) (hw : w < c.N) (hs : (r.st t0).stop = true) :
    ∃ t', t0 ≤ t' ∧ before ((r.st t').pc w) = false := by
  refine Run.leads' hf (.worker w) (fun s => s.stop = true) (fun s => before (s.pc w) = false) (exits w)
    (fun t => t0 ≤ t) (fun _ h => by omega) (fun t ht _ hn => ?_) (fun t b ht h hb st => ?_) t0 (Nat.le_refl _) hs
  · refine ⟨hw, fun e => hn (by rw [e]; rfl), fun e => absurd (by rw [e]; rfl) hn⟩
  · by_cases e : b = .worker w
    · subst e
      have := exits_own h st
      exact .inr ⟨stop_mono st h, Nat.le_of_lt this, fun _ => this⟩
    · exact .inr ⟨stop_mono st h, Nat.le_of_eq (exits_other st e fun j => hq t j ht), fun x => absurd x e⟩

/-- Every worker ends. -/
theorem ends {c : Cfg} {r : Run (sys c)} (hf : r.Fair) {t0 : Nat} (hq : Quiet r t0) (hs : (r.st t0).stop = true) :
    ∃ t', t0 ≤ t' ∧ ∀ u, t' ≤ u → ∀ w, w < c.N → (r.st u).pc w = .fin4 := by
  obtain ⟨t1, l1, k1⟩ := Fair.all_eventually (fun w u => before ((r.st u).pc w) = false) c.N t0 fun w hw => by
    obtain ⟨t, l, k⟩ := arrives hf hq hw hs
    exact ⟨t, l, Run.keep r (fun s => before (s.pc w) = false) k fun u a _ h st => (stays st).1 h⟩
  have hlatch : ∀ u, t1 ≤ u → ∀ w, w < c.N → (r.st u).pc w = .fin3 → (r.st u).latch = 0 := fun u hu w hw hp => by
    cases hc : c.unit with
    | false =>
      rw [(reach_latch hc (r.reach u)).latch]
      exact num_zero.2 fun v hv => k1 u hu v hv
    | true =>
      have : ∀ s, Fair.Reach (sys c) s → s.pc w ≠ .fin1 ∧ s.pc w ≠ .fin2 ∧ s.pc w ≠ .fin3 := fun s h => by
        induction h with
        | start h => rw [h]; simp [St.start]
        | step _ st ih =>
          clear hf hq hs k1 hp
          cases st <;> simp only [doPop, doRun, St.go, upd_apply] at * <;> grind
      exact absurd hp (this _ (r.reach u)).2.2
  obtain ⟨t2, l2, k2⟩ := Fair.all_eventually (fun w u => (r.st u).pc w = .fin4) c.N t1 fun w hw => by
    have : ∃ t', t1 ≤ t' ∧ (r.st t').pc w = .fin4 := by
      refine Run.leads' hf (.worker w) (fun s => before (s.pc w) = false) (fun s => s.pc w = .fin4) (fun _ => 0)
        (fun t => t1 ≤ t) (fun _ h => by omega) (fun t ht _ hn => ⟨hw, hn, hlatch t ht w hw⟩) (fun t b ht h hb st => ?_) t1
        (Nat.le_refl _) (k1 t1 (Nat.le_refl _) w hw)
      by_cases e : b = .worker w
      · subst e
        exact .inl (fin_own st h)
      · exact .inr ⟨(stays st).1 h, Nat.le_refl _, fun x => absurd x e⟩
    obtain ⟨t, l, k⟩ := this
    exact ⟨t, l, Run.keep r (fun s => s.pc w = .fin4) k fun u a _ h st => (stays st).2 h⟩
  exact ⟨t2, by omega, k2⟩

theorem dtor_step {c : Cfg} {a : Actor} {s s' : St} (st : Step c a s s') (h : s.dpc = .joining) :
    (a ≠ .dtor ∧ s'.dpc = .joining) ∨ s'.dpc = .gone := by
  cases st <;> simp only [doPop, doRun, St.go, upd_apply] at * <;> grind

theorem gone_step {c : Cfg} {a : Actor} {s s' : St} (st : Step c a s s') (h : s.dpc = .gone) : s'.dpc = .gone := by
  cases st <;> simp only [doPop, doRun, St.go] at * <;> grind

theorem destroyed {c : Cfg} {r : Run (sys c)} (hf : r.Fair) {t0 : Nat} (hq : Quiet r t0) (h0 : (r.st t0).dpc ≠ .alive) :
    ∃ t', t0 ≤ t' ∧ (r.st t').dpc = .gone := by
  obtain ⟨t1, l1, k1⟩ := ends hf hq ((reach_stop (r.reach t0)).dstop h0)
  have hd := Run.keep r (fun s => s.dpc = .joining ∨ s.dpc = .gone) (t := t0)
    (by cases h : (r.st t0).dpc <;> simp_all) (fun u a _ h st => by
      rcases h with h | h
      · rcases dtor_step st h with k | k
        · exact .inl k.2
        · exact .inr k
      · exact .inr (gone_step st h)) t1 l1
  rcases hd with hd | hd
  · have := Run.leads' hf .dtor (fun s => s.dpc = .joining) (fun s => s.dpc = .gone) (fun _ => 0)
      (fun t => t1 ≤ t) (fun _ h => by omega) (fun t ht h _ => ⟨h, k1 t ht⟩) (fun t b ht h hb st => by
        rcases dtor_step st h with ⟨k1, k2⟩ | k
        · exact .inr ⟨k2, Nat.le_refl _, fun x => absurd x k1⟩
        · exact .inl k) t1 (Nat.le_refl _) hd
    obtain ⟨t, l, k⟩ := this
    exact ⟨t, by omega, k⟩
  · exact ⟨t1, l1, hd⟩

end Verif.Pool
