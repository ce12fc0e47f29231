import Verif.EventCount.Inv

/-! The invariants are preserved. -/
namespace Verif.EventCount

def PendP (N : Nat) (pc : Nat → Pc) : Prop := ∃ u, u < N ∧ isNA (pc u) = true
def WakeP (N : Nat) (pc : Nat → Pc) : Prop := ∃ u, u < N ∧ isWA (pc u) = true

theorem pend_mono {N : Nat} {pc pc' : Nat → Pc} (h : ∀ u, isNA (pc u) = true → isNA (pc' u) = true) : PendP N pc → PendP N pc' :=
  fun ⟨u, h1, h2⟩ => ⟨u, h1, h u h2⟩
theorem wake_mono {N : Nat} {pc pc' : Nat → Pc} (h : ∀ u, isWA (pc u) = true → isWA (pc' u) = true) : WakeP N pc → WakeP N pc' :=
  fun ⟨u, h1, h2⟩ => ⟨u, h1, h u h2⟩

theorem asleep_reg {p : Pc} (h : isAsleep p = true) : reg p = true := by cases p <;> first | rfl | cases h

theorem look_ne {N t k : Nat} {aw : Bool} {s : St} (h : Inv N s) (hr : InvRep N s) (hf : Few N s) (ht : t < N)
    (hp : s.pc t = .waiting k aw) (hlt : s.at_ t < s.n) : epochOf s.val ≠ k := by
  rw [h.key t k ht (by rw [hp]; rfl), Rep.epoch hr]
  exact epoch_ne hlt (hf t ht (by rw [hp]; rfl))

theorem look_eq {N t k : Nat} {aw : Bool} {s : St} (h : Inv N s) (hr : InvRep N s) (hf : Few N s) (ht : t < N)
    (hp : s.pc t = .waiting k aw) (he : epochOf s.val = k) : s.at_ t = s.n := by
  rcases Nat.lt_or_ge (s.at_ t) s.n with hlt | hge
  · exact absurd he (look_ne h hr hf ht hp hlt)
  · exact Nat.le_antisymm (h.atle t) hge

/-- A step that changes only where `t` is. -/
theorem plain {N t : Nat} {s : St} (h : Inv N s) (ht : t < N) (v : Nat) (b : Bool) (p : Pc)
    (h1 : ∀ k, keyOf p = some k → keyOf (s.pc t) = some k) (h2 : isAsleep p = false)
    (h3 : ∀ c, callOf p = some c → c = s.clock + 1) (h3' : ∀ c, p ≠ .wakeAll c ∧ p ≠ .wakeOne c) (h4 : reg p = true → reg (s.pc t) = true)
    (h5 : awWait p = true → awWait (s.pc t) = true ∨ b = false)
    (h6 : isNA (s.pc t) = false) (h7 : isWA (s.pc t) = false) (h8 : b = s.cond ∨ b = false ∨ isNA p = true) :
    Inv N { s with val := v, cond := b, pc := upd s.pc t p, clock := s.clock + 1 } := by
  obtain ⟨atle, key, slept, clk, call, bestle, wk, best, aw1, aw2⟩ := h
  have hP : PendP N s.pc → PendP N (upd s.pc t p) := pend_mono fun u hu => by
    rw [upd_apply]; split
    · rename_i e; rw [e, h6] at hu; cases hu
    · exact hu
  have hW : WakeP N s.pc → WakeP N (upd s.pc t p) := wake_mono fun u hu => by
    rw [upd_apply]; split
    · rename_i e; rw [e, h7] at hu; cases hu
    · exact hu
  have hN : isNA p = true → PendP N (upd s.pc t p) := fun e => ⟨t, ht, by rw [upd_same]; exact e⟩
  refine ⟨atle, ?_, ?_, ?_, ?_, ?_, ?_, ?_, ?_, ?_⟩
  · intro u k hu; simp only [upd_apply]; intro hk; split at hk
    · rename_i e; subst e; exact key u k hu (h1 k hk)
    · exact key u k hu hk
  · intro u hu; simp only [upd_apply]; intro hk; split at hk
    · rw [h2] at hk; cases hk
    · exact slept u hu hk
  · intro u; have := clk u; simp only; omega
  · intro u c hu; simp only [upd_apply]; intro hk; split at hk
    · have := h3 c hk; omega
    · have := call u c hu hk; omega
  · simp only; omega
  · intro u u' c hu hu'; simp only [upd_apply]; intro hk hr
    split at hk
    · exact (hk.elim (h3' c).1 (h3' c).2).elim
    · refine wk u u' c hu hu' hk ?_
      split at hr
      · rename_i e; subst e; exact h4 hr
      · exact hr
  · intro u hu; simp only [upd_apply]; intro hr hb
    split at hr
    · rename_i e; subst e
      exact ⟨(best u hu (h4 hr) hb).1, by rw [if_pos rfl]; exact h2⟩
    · rename_i e; rw [if_neg e]; exact best u hu hr hb
  · intro hb u hu; simp only [upd_apply]; intro hk
    rcases h8 with h8 | h8 | h8
    · have hk : awWait (s.pc u) = true := by
        split at hk
        · rename_i e; subst e; exact (h5 hk).resolve_right (by simp only at hb; simp [hb])
        · exact hk
      exact (aw1 (by simp only at hb; rw [← h8, hb]) u hu hk).imp hP id
    · simp only at hb; rw [hb] at h8; cases h8
    · exact Or.inl (hN h8)
  · intro hb u hu; simp only [upd_apply]; intro hk ha
    rcases h8 with h8 | h8 | h8
    · split at ha
      · rw [h2] at ha; cases ha
      · rename_i e
        rw [if_neg e] at hk
        exact (aw2 (by simp only at hb; rw [← h8, hb]) u hu hk ha).imp hP hW
    · simp only at hb; rw [hb] at h8; cases h8
    · exact Or.inl (hN h8)

/-- A thread prepares. -/
theorem prep_inv {N t : Nat} {s : St} (h : Inv N s) (hr : InvRep N s) (ht : t < N) (p : Nat → Pc)
    (h0 : s.pc t = .idle ∨ s.pc t = .prep) (hp : p = .prepared ∨ p = .check) : Inv N (doPrepare s t p) := by
  obtain ⟨atle, key, slept, clk, call, bestle, wk, best, aw1, aw2⟩ := h
  have hn : ∀ k, isAsleep (p k) = false ∧ callOf (p k) = none ∧ awWait (p k) = false ∧ keyOf (p k) = some k ∧ ∀ c, p k ≠ .wakeAll c ∧ p k ≠ .wakeOne c := by
    intro k; rcases hp with rfl | rfl <;> simp [isAsleep, callOf, awWait, keyOf]
  have h6 : isNA (s.pc t) = false ∧ isWA (s.pc t) = false := by rcases h0 with e | e <;> rw [e] <;> exact ⟨rfl, rfl⟩
  have hep : epochOf s.val = s.n % P32 := Rep.epoch hr
  have hP : PendP N s.pc → PendP N (upd s.pc t (p (epochOf s.val))) := pend_mono fun u hu => by
    rw [upd_apply]; split
    · rename_i e; rw [e, h6.1] at hu; cases hu
    · exact hu
  have hW : WakeP N s.pc → WakeP N (upd s.pc t (p (epochOf s.val))) := wake_mono fun u hu => by
    rw [upd_apply]; split
    · rename_i e; rw [e, h6.2] at hu; cases hu
    · exact hu
  obtain ⟨a1, a2, a3, a4, a5⟩ := hn (epochOf s.val)
  refine ⟨?_, ?_, ?_, ?_, ?_, ?_, ?_, ?_, ?_, ?_⟩ <;> simp only [doPrepare, St.go, upd_apply]
  · intro u; split
    · exact Nat.le_refl _
    · exact atle u
  · intro u k hu hk; split at hk
    · rename_i e; rw [if_pos e]; rw [a4] at hk; cases hk; exact hep
    · rename_i e; rw [if_neg e]; exact key u k hu hk
  · intro u hu hk; split at hk
    · rw [a1] at hk; cases hk
    · rename_i e; rw [if_neg e]; exact slept u hu hk
  · intro u; have := clk u; split <;> omega
  · intro u c hu hk; split at hk
    · rw [a2] at hk; cases hk
    · have := call u c hu hk; omega
  · omega
  · intro u u' c hu hu' hk hr hc
    split at hk
    · exact (hk.elim (a5 c).1 (a5 c).2).elim
    · have hcl := call u c hu (by rcases hk with hk | hk <;> rw [hk] <;> rfl)
      split at hr
      · rename_i e; rw [if_pos e] at hc; omega
      · rename_i e; rw [if_neg e] at hc ⊢; exact wk u u' c hu hu' hk hr hc
  · intro u hu hr hb
    split at hr
    · rename_i e; rw [if_pos e] at hb; omega
    · rename_i e; rw [if_neg e] at hb ⊢; rw [if_neg e]; exact best u hu hr hb
  · intro hb u hu hk
    split at hk
    · rw [a3] at hk; cases hk
    · rename_i e; rw [if_neg e]; exact (aw1 hb u hu hk).imp hP id
  · intro hb u hu hk ha
    split at hk
    · rw [a3] at hk; cases hk
    · rename_i e; rw [if_neg e] at ha; exact (aw2 hb u hu hk ha).imp hP hW

/-- A notification: the epoch changes. -/
theorem notify_inv {N t : Nat} {s : St} (h : Inv N s) (hr : InvRep N s) (ht : t < N) (v c : Nat) (p : Pc) (b : Nat) (all : Bool)
    (h0 : (s.pc t = .notifyAll c ∧ all = true) ∨ (s.pc t = .notifyOne c ∧ all = false))
    (hp : (waitersOf s.val ≠ 0 ∧ p = (if all then .wakeAll c else .wakeOne c) ∧ b = s.best) ∨
      (waitersOf s.val = 0 ∧ p = .idle ∧ (b = s.best ∨ all = true ∧ b = max s.best c))) :
    Inv N { s with val := v, pc := upd s.pc t p, clock := s.clock + 1, n := s.n + 1, best := b } := by
  obtain ⟨atle, key, slept, clk, call, bestle, wk, best, aw1, aw2⟩ := h
  have hnone : waitersOf s.val = 0 → ∀ u, u < N → reg (s.pc u) = false := by
    intro e; rw [Rep.waiters hr] at e; exact num_zero.1 e
  have hregt : reg (s.pc t) = false := by rcases h0 with ⟨e, _⟩ | ⟨e, _⟩ <;> rw [e] <;> rfl
  have hcl : ∀ c', callOf p = some c' → c' ≤ s.clock := by
    intro c' hc'
    rcases h0 with ⟨e, rfl⟩ | ⟨e, rfl⟩ <;> rcases hp with ⟨_, rfl, _⟩ | ⟨_, rfl, _⟩ <;> simp [callOf] at hc'
    all_goals subst hc'; exact call t c ht (by rw [e]; rfl)
  have hpk : keyOf p = none ∧ isAsleep p = false ∧ reg p = false ∧ awWait p = false := by
    rcases hp with ⟨_, rfl, _⟩ | ⟨_, rfl, _⟩
    · cases all <;> exact ⟨rfl, rfl, rfl, rfl⟩
    · exact ⟨rfl, rfl, rfl, rfl⟩
  have hble : b ≤ s.clock := by
    rcases hp with ⟨_, _, rfl⟩ | ⟨_, _, rfl | ⟨ha, rfl⟩⟩
    · exact bestle
    · exact bestle
    · have := call t c ht (by rcases h0 with ⟨e, _⟩ | ⟨e, e'⟩; rw [e]; rfl; rw [ha] at e'; cases e')
      omega
  obtain ⟨a1, a2, a3, a4⟩ := hpk
  refine ⟨?_, ?_, ?_, ?_, ?_, ?_, ?_, ?_, ?_, ?_⟩ <;> simp only [upd_apply]
  · intro u; have := atle u; omega
  · intro u k hu hk; split at hk
    · rw [a1] at hk; cases hk
    · exact key u k hu hk
  · intro u hu hk; split at hk
    · rw [a2] at hk; cases hk
    · exact slept u hu hk
  · intro u; have := clk u; omega
  · intro u c hu hk; split at hk
    · have := hcl c hk; omega
    · have := call u c hu hk; omega
  · omega
  · intro u u' c hu hu' hk hr hc
    have := atle u'; omega
  · intro u hu hrg hb
    split at hrg
    · rw [a3] at hrg; cases hrg
    · rename_i e
      rw [if_neg e]
      rcases hp with ⟨_, _, rfl⟩ | ⟨hz, _, _⟩
      · have := best u hu hrg hb; exact ⟨by omega, this.2⟩
      · rw [hnone hz u hu] at hrg; cases hrg
  · intro hb u hu hk
    have := atle u; right; omega
  · intro hb u hu hk ha
    split at ha
    · rw [a2] at ha; cases ha
    · rename_i e
      rw [if_neg e] at hk
      rcases h0 with ⟨e0, rfl⟩ | ⟨e0, rfl⟩
      · right
        rcases hp with ⟨_, rfl, _⟩ | ⟨hz, _, _⟩
        · exact ⟨t, ht, by simp only [upd_apply]; rfl⟩
        · have := asleep_reg ha; rw [hnone hz u hu] at this; cases this
      · have := aw2 hb u hu hk ha
        refine this.imp (pend_mono fun u hu => ?_) (wake_mono fun u hu => ?_)
        · simp only [upd_apply]; split
          · rename_i e; rw [e, e0] at hu; cases hu
          · exact hu
        · simp only [upd_apply]; split
          · rename_i e; rw [e, e0] at hu; cases hu
          · exact hu

theorem rouse_key (p : Pc) : keyOf (rouse p) = keyOf p := by cases p <;> rfl
theorem rouse_asleep (p : Pc) : isAsleep (rouse p) = false := by cases p <;> rfl
theorem rouse_call (p : Pc) : callOf (rouse p) = callOf p := by cases p <;> rfl
theorem rouse_aw (p : Pc) : awWait (rouse p) = awWait p := by cases p <;> rfl
theorem rouse_na (p : Pc) : isNA (rouse p) = isNA p := by cases p <;> rfl
theorem rouse_wa (p : Pc) : isWA (rouse p) = isWA p := by cases p <;> rfl
theorem rouse_wake (p : Pc) (c : Nat) : rouse p = .wakeAll c ↔ p = .wakeAll c := by cases p <;> simp [rouse]

theorem rouse_wake1 (p : Pc) (c : Nat) : rouse p = .wakeOne c ↔ p = .wakeOne c := by cases p <;> simp [rouse]

theorem wakeAll_inv {N t : Nat} {s : St} (h : Inv N s) (ht : t < N) (c : Nat) (h0 : s.pc t = .wakeAll c) : Inv N (doWakeAll s t c) := by
  obtain ⟨atle, key, slept, clk, call, bestle, wk, best, aw1, aw2⟩ := h
  have hcl := call t c ht (by rw [h0]; rfl)
  refine ⟨atle, ?_, ?_, ?_, ?_, ?_, ?_, ?_, ?_, ?_⟩ <;> simp only [doWakeAll, upd_apply]
  · intro u k hu hk; split at hk
    · cases hk
    · rw [rouse_key] at hk; exact key u k hu hk
  · intro u hu hk; split at hk
    · cases hk
    · rw [rouse_asleep] at hk; cases hk
  · intro u; have := clk u; omega
  · intro u c hu hk; split at hk
    · cases hk
    · rw [rouse_call] at hk; have := call u c hu hk; omega
  · omega
  · intro u u' c' hu hu' hk hr hc
    split at hk
    · rcases hk with hk | hk <;> cases hk
    · rw [rouse_wake, rouse_wake1] at hk
      split at hr
      · cases hr
      · rw [reg_rouse] at hr; exact wk u u' c' hu hu' hk hr hc
  · intro u hu hr hb
    split at hr
    · cases hr
    · rename_i e; rw [if_neg e, rouse_asleep]
      rw [reg_rouse] at hr
      refine ⟨?_, rfl⟩
      by_cases hc : s.prepAt u < c
      · exact wk t u c ht hu (Or.inl h0) hr hc
      · exact (best u hu hr (by omega)).1
  · intro hb u hu hk
    split at hk
    · cases hk
    · rw [rouse_aw] at hk
      refine (aw1 hb u hu hk).imp (pend_mono fun u hu => ?_) id
      simp only [upd_apply]; split
      · rename_i e; rw [e, h0] at hu; cases hu
      · rw [rouse_na]; exact hu
  · intro hb u hu hk ha
    split at ha
    · cases ha
    · rw [rouse_asleep] at ha; cases ha

theorem wakeOne_inv {N t v : Nat} {s : St} (h : Inv N s) (ht : t < N) (c : Nat) (h0 : s.pc t = .wakeOne c) :
    Inv N { s with pc := upd (upd s.pc v (rouse (s.pc v))) t .idle, clock := s.clock + 1 } := by
  obtain ⟨atle, key, slept, clk, call, bestle, wk, best, aw1, aw2⟩ := h
  have hx : ∀ u, upd (upd s.pc v (rouse (s.pc v))) t .idle u = if u = t then .idle else if u = v then rouse (s.pc u) else s.pc u := by
    intro u; simp only [upd_apply]; split
    · rfl
    · split
      · rename_i e; rw [e]
      · rfl
  have hP : PendP N s.pc → PendP N (upd (upd s.pc v (rouse (s.pc v))) t .idle) := pend_mono fun u hu => by
    rw [hx]; split
    · rename_i e; rw [e, h0] at hu; cases hu
    · split
      · rw [rouse_na]; exact hu
      · exact hu
  have hW : WakeP N s.pc → WakeP N (upd (upd s.pc v (rouse (s.pc v))) t .idle) := wake_mono fun u hu => by
    rw [hx]; split
    · rename_i e; rw [e, h0] at hu; cases hu
    · split
      · rw [rouse_wa]; exact hu
      · exact hu
  refine ⟨atle, ?_, ?_, ?_, ?_, ?_, ?_, ?_, ?_, ?_⟩ <;> simp only [hx]
  · intro u k hu hk; split at hk
    · cases hk
    · split at hk
      · rw [rouse_key] at hk; exact key u k hu hk
      · exact key u k hu hk
  · intro u hu hk; split at hk
    · cases hk
    · split at hk
      · rw [rouse_asleep] at hk; cases hk
      · exact slept u hu hk
  · intro u; have := clk u; omega
  · intro u c hu hk; split at hk
    · cases hk
    · split at hk
      · rw [rouse_call] at hk; have := call u c hu hk; omega
      · have := call u c hu hk; omega
  · omega
  · intro u u' c' hu hu' hk hr hc
    refine wk u u' c' hu hu' ?_ ?_ hc
    · split at hk
      · rcases hk with hk | hk <;> cases hk
      · split at hk
        · rw [rouse_wake, rouse_wake1] at hk; exact hk
        · exact hk
    · split at hr
      · cases hr
      · split at hr
        · rw [reg_rouse] at hr; exact hr
        · exact hr
  · intro u hu hr hb
    split at hr
    · cases hr
    · rename_i e; rw [if_neg e]
      split at hr
      · rename_i e'; rw [if_pos e', rouse_asleep]; rw [reg_rouse] at hr; exact ⟨(best u hu hr hb).1, rfl⟩
      · rename_i e'; rw [if_neg e']; exact best u hu hr hb
  · intro hb u hu hk
    split at hk
    · cases hk
    · split at hk
      · rw [rouse_aw] at hk; exact (aw1 hb u hu hk).imp hP id
      · exact (aw1 hb u hu hk).imp hP id
  · intro hb u hu hk ha
    split at ha
    · cases ha
    · rename_i e
      rw [if_neg e] at hk
      split at ha
      · rw [rouse_asleep] at ha; cases ha
      · rename_i e'; rw [if_neg e'] at hk; exact (aw2 hb u hu hk ha).imp hP hW

/-- The epoch has not changed: the thread blocks. -/
theorem sleep_inv {N t k : Nat} {aw : Bool} {s : St} (h : Inv N s) (ht : t < N) (h0 : s.pc t = .waiting k aw) (he : s.at_ t = s.n) :
    Inv N { s.go t (.asleep k aw) with slept := upd s.slept t s.n } := by
  obtain ⟨atle, key, slept, clk, call, bestle, wk, best, aw1, aw2⟩ := h
  have hP : PendP N s.pc → PendP N (upd s.pc t (.asleep k aw)) := pend_mono fun u hu => by
    rw [upd_apply]; split
    · rename_i e; rw [e, h0] at hu; cases hu
    · exact hu
  have hW : WakeP N s.pc → WakeP N (upd s.pc t (.asleep k aw)) := wake_mono fun u hu => by
    rw [upd_apply]; split
    · rename_i e; rw [e, h0] at hu; cases hu
    · exact hu
  refine ⟨atle, ?_, ?_, ?_, ?_, ?_, ?_, ?_, ?_, ?_⟩ <;> simp only [St.go, upd_apply]
  · intro u k' hu hk; split at hk
    · rename_i e; subst e; exact key u k' hu (by rw [h0]; exact hk)
    · exact key u k' hu hk
  · intro u hu hk; split at hk
    · rename_i e; subst e; rw [if_pos rfl, he]
    · rename_i e; rw [if_neg e]; exact slept u hu hk
  · intro u; have := clk u; omega
  · intro u c hu hk; split at hk
    · cases hk
    · have := call u c hu hk; omega
  · omega
  · intro u u' c' hu hu' hk hr hc
    split at hk
    · rcases hk with hk | hk <;> cases hk
    · refine wk u u' c' hu hu' hk ?_ hc
      split at hr
      · rename_i e; subst e; rw [h0]; rfl
      · exact hr
  · intro u hu hr hb
    split at hr
    · rename_i e; subst e
      have := (best u hu (by rw [h0]; rfl) hb).1
      omega
    · rename_i e; rw [if_neg e]; exact best u hu hr hb
  · intro hb u hu hk
    split at hk
    · rename_i e; subst e; exact (aw1 hb u hu (by rw [h0]; exact hk)).imp hP id
    · exact (aw1 hb u hu hk).imp hP id
  · intro hb u hu hk ha
    split at hk
    · rename_i e; subst e
      rcases aw1 hb u hu (by rw [h0]; exact hk) with h1 | h1
      · exact Or.inl (hP h1)
      · omega
    · rename_i e; rw [if_neg e] at ha; exact (aw2 hb u hu hk ha).imp hP hW

theorem Inv.setOut {N : Nat} {s : St} (h : Inv N s) (o : Nat → Option Bool) : Inv N { s with out := o } := by
  cases h; constructor <;> assumption

theorem inv_step {N t : Nat} {s s' : St} (h : Inv N s) (hr : InvRep N s) (hf : Few N s) (st : Step N t s s') : Inv N s' := by
  have pl : ∀ (v : Nat) (p : Pc) (o : Nat → Option Bool), t < N → isNA (s.pc t) = false → isWA (s.pc t) = false → isAsleep p = false →
      (∀ k, keyOf p = some k → keyOf (s.pc t) = some k) → (∀ c, callOf p = some c → c = s.clock + 1) → (∀ c, p ≠ .wakeAll c ∧ p ≠ .wakeOne c) →
      (reg p = true → reg (s.pc t) = true) → (awWait p = true → awWait (s.pc t) = true ∨ s.cond = false) →
      Inv N { s with val := v, cond := s.cond, pc := upd s.pc t p, clock := s.clock + 1, out := o } :=
    fun v p o ht a1 a2 a3 a4 a5 a6 a7 a8 => (plain h ht v s.cond p a4 a3 a5 a6 a7 a8 a1 a2 (Or.inl rfl)).setOut o
  cases st with
  | prepare ht hp => exact prep_inv h hr ht _ (Or.inl hp) (Or.inl rfl)
  | cancel k ht hp => apply pl <;> simp [hp, isNA, isWA, isAsleep, keyOf, callOf, reg, awWait, ht]
  | wait k ht hp => apply pl <;> simp [hp, isNA, isWA, isAsleep, keyOf, callOf, reg, awWait, ht]
  | look k aw ht hp =>
    unfold doLook
    split
    · rename_i he; exact sleep_inv h ht hp (look_eq h hr hf ht hp he)
    · apply pl <;> simp [hp, isNA, isWA, isAsleep, keyOf, callOf, reg, awWait, ht]
  | spurious k aw ht hp => apply pl <;> simp +contextual [hp, isNA, isWA, isAsleep, keyOf, callOf, reg, awWait, ht]
  | leave aw ht hp => cases aw <;> apply pl <;> simp [hp, isNA, isWA, isAsleep, keyOf, callOf, reg, awWait, ht]
  | callAll ht hp => apply pl <;> simp +contextual [hp, isNA, isWA, isAsleep, keyOf, callOf, reg, awWait, ht]
  | notifyAll c ht hp =>
    unfold doNotifyAll
    split
    · rename_i hz
      exact notify_inv h hr ht (addEpoch s.val) c (.wakeAll c) s.best true (Or.inl ⟨hp, rfl⟩) (Or.inl ⟨hz, rfl, rfl⟩)
    · rename_i hz
      exact notify_inv h hr ht (addEpoch s.val) c .idle (max s.best c) true (Or.inl ⟨hp, rfl⟩)
        (Or.inr ⟨by simpa using hz, rfl, Or.inr ⟨rfl, rfl⟩⟩)
  | wakeAll c ht hp => exact wakeAll_inv h ht c hp
  | callOne ht hp => apply pl <;> simp [hp, isNA, isWA, isAsleep, keyOf, callOf, reg, awWait, ht]
  | notifyOne c ht hp =>
    unfold doNotifyOne
    split
    · rename_i hz
      exact notify_inv h hr ht (addEpoch s.val) c (.wakeOne c) s.best false (Or.inr ⟨hp, rfl⟩) (Or.inl ⟨hz, rfl, rfl⟩)
    · rename_i hz
      exact notify_inv h hr ht (addEpoch s.val) c .idle s.best false (Or.inr ⟨hp, rfl⟩)
        (Or.inr ⟨by simpa using hz, rfl, Or.inl rfl⟩)
  | wakeOne c v ht hp hv he => exact wakeOne_inv h ht c hp
  | wakeNone c ht hp hn => apply pl <;> simp [hp, isNA, isWA, isAsleep, keyOf, callOf, reg, awWait, ht]
  | post ht hp =>
    refine plain h ht s.val true (.notifyAll (s.clock + 1)) ?_ ?_ ?_ ?_ ?_ ?_ ?_ ?_ ?_ <;>
      simp +contextual [hp, isNA, isWA, isAsleep, keyOf, callOf, reg, awWait]
  | clear ht hp =>
    refine plain h ht s.val false .idle ?_ ?_ ?_ ?_ ?_ ?_ ?_ ?_ ?_ <;>
      simp +contextual [hp, isNA, isWA, isAsleep, keyOf, callOf, reg, awWait]
  | await ht hp => apply pl <;> simp [hp, isNA, isWA, isAsleep, keyOf, callOf, reg, awWait, ht]
  | first ht hp => apply pl <;> cases hc : s.cond <;> simp [hp, isNA, isWA, isAsleep, keyOf, callOf, reg, awWait, ht]
  | firstThrow ht hp => apply pl <;> simp [hp, isNA, isWA, isAsleep, keyOf, callOf, reg, awWait, ht]
  | awaitPrep ht hp => exact prep_inv h hr ht _ (Or.inr hp) (Or.inr rfl)
  | check k ht hp => apply pl <;> cases hc : s.cond <;> simp [hp, isNA, isWA, isAsleep, keyOf, callOf, reg, awWait, ht]
  | checkThrow k ht hp => apply pl <;> simp [hp, isNA, isWA, isAsleep, keyOf, callOf, reg, awWait, ht]
  | awaitCancel threw ht hp => apply pl <;> simp [hp, isNA, isWA, isAsleep, keyOf, callOf, reg, awWait, ht]

theorem inv_start (N : Nat) : Inv N St.start := by
  refine ⟨fun _ => Nat.le_refl _, ?_, ?_, fun _ => Nat.le_refl _, ?_, Nat.le_refl _, ?_, ?_, ?_, ?_⟩ <;>
    intros <;> simp_all [St.start, keyOf, isAsleep, callOf, reg]

theorem reach_inv {N : Nat} (hN : N < P32) {s : St} (h : Reach N s) : Inv N s := by
  induction h with
  | start => exact inv_start N
  | step h1 hf st ih => exact inv_step ih (reach_rep hN h1.any) hf st

end Verif.EventCount
