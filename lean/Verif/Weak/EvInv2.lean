import Verif.Weak.EvInv

/-! C46: more invariants of `Weak/EvModel.lean`: the words and the threads. -/
namespace Verif.Weak.Ev
open Verif.EventCount (addEpoch addWaiter subWaiter epochOf waitersOf num num_change num_lt num_pos num_congr Rep P32)

def waiters (N : Nat) (s : St) : Nat := num N fun t => reg (s.pc t)

/-- The words in memory. -/
structure IW (N : Nat) (s : St) : Prop where
  cur : Rep s.val (s.cnt (s.mem.last .word)) (waiters N s)
  all : ∀ i, i < s.mem.len .word → ∃ c, Rep (s.mem.val .word i).toNat (s.cnt i) c
  mono : ∀ i, i + 1 < s.mem.len .word → s.cnt i ≤ s.cnt (i + 1)

theorem IW.le {N : Nat} {s : St} (h : IW N s) {i j : Nat} (hij : i ≤ j) (hj : j < s.mem.len .word) : s.cnt i ≤ s.cnt j := by
  induction j with
  | zero => obtain rfl : i = 0 := by omega
            exact Nat.le_refl _
  | succ j ih =>
    by_cases e : i = j + 1
    · subst e; exact Nat.le_refl _
    · exact Nat.le_trans (ih (by omega) (by omega)) (h.mono j hj)

/-- The key a thread waits with. -/
def keyOf : Pc → Option Nat
  | .prepared k | .waiting k _ | .blocked k _ _ | .check k => some k
  | _ => none

/-- The message that told a blocked thread to block. -/
def blockOf : Pc → Option Nat
  | .blocked _ i _ => some i
  | _ => none

def isLeaving : Pc → Bool
  | .leaving _ => true
  | _ => false

/-- In `await`, after the condition was found to be false. -/
def awWait : Pc → Bool
  | .waiting _ aw | .blocked _ _ aw => aw
  | _ => false

/-- One thread. -/
structure PT (s : St) (t : Nat) : Prop where
  at_ : reg (s.pc t) = true → s.at_ t ≤ (s.tv t).cur .word
  key : ∀ k, keyOf (s.pc t) = some k → k = s.cnt (s.at_ t) % P32
  blocked : ∀ i, blockOf (s.pc t) = some i →
    s.at_ t ≤ i ∧ i ≤ (s.tv t).cur .word ∧ s.cnt i % P32 = s.cnt (s.at_ t) % P32
  leaving : isLeaving (s.pc t) = true →
    ∃ i, s.at_ t ≤ i ∧ i ≤ (s.tv t).cur .word ∧ s.cnt i % P32 ≠ s.cnt (s.at_ t) % P32
  aw : awWait (s.pc t) = true → s.saw t < s.mem.len (.data 0) ∧ s.mem.val (.data 0) (s.saw t) = 0 ∧
    s.mem.view .word (s.at_ t) (.data 0) ≤ s.saw t

theorem key_reg {p : Pc} {k : Nat} (h : keyOf p = some k) : reg p = true := by cases p <;> first | rfl | cases h
theorem block_reg {p : Pc} {k : Nat} (h : blockOf p = some k) : reg p = true := by cases p <;> first | rfl | cases h
theorem leaving_reg {p : Pc} (h : isLeaving p = true) : reg p = true := by cases p <;> first | rfl | cases h
theorem aw_reg {p : Pc} (h : awWait p = true) : reg p = true := by cases p <;> first | rfl | cases h

theorem PT.grow {s s' : St} {t : Nat} (hv : IV s) (h : PT s t) (g : Grow s s') (e1 : s'.pc t = s.pc t) (e2 : s'.at_ t = s.at_ t)
    (e3 : s'.saw t = s.saw t) : PT s' t := by
  have hl := (hv.tv t).cur.lt .word
  have hg := g.cur t .word
  refine ⟨?_, ?_, ?_, ?_, ?_⟩
  · rw [e1, e2]; intro h1; have := h.at_ h1; omega
  · rw [e1, e2]; intro k h1
    rw [g.cnt _ (by have := h.at_ (key_reg h1); omega)]; exact h.key k h1
  · rw [e1, e2]; intro i h1
    obtain ⟨h2, h3, h4⟩ := h.blocked i h1
    rw [g.cnt _ (by omega), g.cnt _ (by omega)]
    exact ⟨h2, by omega, h4⟩
  · rw [e1, e2]; intro h1
    obtain ⟨i, h2, h3, h4⟩ := h.leaving h1
    refine ⟨i, h2, by omega, ?_⟩
    rw [g.cnt _ (by omega), g.cnt _ (by omega)]; exact h4
  · rw [e1, e2, e3]; intro h1
    obtain ⟨h2, h3, h4⟩ := h.aw h1
    have := h.at_ (aw_reg h1)
    rw [g.val _ _ h2, g.view _ _ (by omega)]
    exact ⟨Nat.lt_of_lt_of_le h2 (g.len _), h3, h4⟩

/-- A thread that is not registered. -/
theorem PT.unreg {s : St} {t : Nat} (h : reg (s.pc t) = false) : PT s t where
  at_ h1 := by rw [h] at h1; cases h1
  key k h1 := by rw [key_reg h1] at h; cases h
  blocked i h1 := by rw [block_reg h1] at h; cases h
  leaving h1 := by rw [leaving_reg h1] at h; cases h
  aw h1 := by rw [aw_reg h1] at h; cases h

theorem val_rmw (s : St) (t : Nat) (f : Nat → Nat) (d : Nat) (p : Pc) : (s.rmw t f d p).val = f s.val := by
  show ((s.mem.rmw (s.tv t) .word (f s.val : Nat)).val .word ((s.mem.rmw (s.tv t) .word (f s.val : Nat)).last .word)).toNat = _
  have e : (s.mem.rmw (s.tv t) .word (f s.val : Nat)).last .word = s.mem.len .word := by
    simp [Mem.last, Mem.rmw, Mem.append]
  rw [e, Mem.rmw, append_val_new]; rfl

theorem last_rmw (s : St) (t : Nat) (f : Nat → Nat) (d : Nat) (p : Pc) :
    (s.rmw t f d p).mem.last .word = s.mem.len .word := by
  show (s.mem.rmw (s.tv t) .word (f s.val : Nat)).last .word = _
  simp [Mem.last, Mem.rmw, Mem.append]

theorem len_rmw (s : St) (t : Nat) (f : Nat → Nat) (d : Nat) (p : Pc) :
    (s.rmw t f d p).mem.len .word = s.mem.len .word + 1 := by
  show (s.mem.rmw (s.tv t) .word (f s.val : Nat)).len .word = _
  simp [Mem.rmw, Mem.append]

theorem cnt_rmw (s : St) (t : Nat) (f : Nat → Nat) (d : Nat) (p : Pc) :
    (s.rmw t f d p).cnt (s.mem.len .word) = s.cnt (s.mem.last .word) + d := upd_same _ _ _

theorem IW.rmw {N : Nat} {s s' : St} (h : IW N s) (hv : IV s) (t : Nat) (f : Nat → Nat) (d : Nat) (p : Pc)
    (e1 : s'.mem = (s.rmw t f d p).mem) (e2 : s'.pc = (s.rmw t f d p).pc) (e3 : s'.cnt = (s.rmw t f d p).cnt)
    (hr : Rep (f s.val) (s.cnt (s.mem.last .word) + d) (waiters N (s.rmw t f d p))) : IW N s' := by
  have hp := hv.mem.pos .word
  have hw : waiters N s' = waiters N (s.rmw t f d p) := by simp only [waiters, e2]
  have hval : s'.val = (s.rmw t f d p).val := by simp only [St.val, e1]
  refine ⟨?_, ?_, ?_⟩
  · rw [hw, hval, e1, e3, val_rmw, last_rmw, cnt_rmw]; exact hr
  · rw [e1, e3]; intro i hi
    rw [len_rmw] at hi
    by_cases e : i = s.mem.len .word
    · subst e; rw [cnt_rmw]; refine ⟨waiters N (s.rmw t f d p), ?_⟩
      show Rep ((s.mem.rmw (s.tv t) .word (f s.val : Nat)).val .word (s.mem.len .word)).toNat _ _
      rw [Mem.rmw, append_val_new]; exact hr
    · have g := Grow.rmw hv t f d p
      rw [g.val _ _ (by omega), g.cnt _ (by omega)]; exact h.all i (by omega)
  · rw [e1, e3]; intro i hi
    rw [len_rmw] at hi
    have g := Grow.rmw hv t f d p
    by_cases e : i + 1 = s.mem.len .word
    · rw [e, cnt_rmw, g.cnt _ (by omega)]
      have : i = s.mem.last .word := by simp only [Mem.last]; omega
      subst this; omega
    · rw [g.cnt _ (by omega), g.cnt _ (by omega)]; exact h.mono i (by omega)

theorem waiters_upd {N t : Nat} (ht : t < N) {s s' : St} (p : Pc) (e : s'.pc = upd s.pc t p) :
    waiters N s' + (if reg (s.pc t) then 1 else 0) = waiters N s + (if reg p then 1 else 0) := by
  have := num_change (f := fun u => reg (s.pc u)) (g := fun u => reg (s'.pc u)) ht (fun u hu => by
    simp only [e, upd_ne _ _ hu])
  simp only [e, upd_same] at this
  simp only [waiters, e]
  omega

theorem waiters_same {N t : Nat} (ht : t < N) {s s' : St} (p : Pc) (e : s'.pc = upd s.pc t p) (hp : reg p = reg (s.pc t)) :
    waiters N s' = waiters N s := by
  have := waiters_upd ht p e
  rw [hp] at this; omega

theorem waiters_lt {N t : Nat} (ht : t < N) {s : St} (h : reg (s.pc t) = false) : waiters N s < N := num_lt ht h

theorem waiters_pos {N t : Nat} (ht : t < N) {s : St} (h : reg (s.pc t) = true) : 0 < waiters N s := num_pos.2 ⟨t, ht, h⟩

/-- Steps that leave `m_val` alone. -/
theorem IW.same {N : Nat} {s s' : St} (h : IW N s) (e1 : s'.mem.len .word = s.mem.len .word)
    (e2 : ∀ i, i < s.mem.len .word → s'.mem.val .word i = s.mem.val .word i) (hp : 0 < s.mem.len .word)
    (e3 : s'.cnt = s.cnt) (e4 : waiters N s' = waiters N s) : IW N s' := by
  have el : s'.mem.last .word = s.mem.last .word := by simp only [Mem.last, e1]
  have hl : s.mem.last .word < s.mem.len .word := by simp only [Mem.last]; omega
  refine ⟨?_, ?_, ?_⟩
  · simp only [St.val]; rw [el, e2 _ hl, e3, e4]; exact h.cur
  · rw [e1, e3]; intro i hi; rw [e2 _ hi]; exact h.all i hi
  · rw [e1, e3]; exact h.mono

theorem IW.sameMem {N t : Nat} (ht : t < N) {s s' : St} (h : IW N s) (hv : IV s) (p : Pc) (e1 : s'.mem = s.mem) (e2 : s'.pc = upd s.pc t p)
    (e3 : s'.cnt = s.cnt) (hp : reg p = reg (s.pc t)) : IW N s' :=
  h.same (by rw [e1]) (fun _ _ => by rw [e1]) (hv.mem.pos _) e3 (waiters_same ht p e2 hp)

theorem IW.leave {N t : Nat} (ht : t < N) {s : St} (h : IW N s) (hv : IV s) (p : Pc) (h1 : reg (s.pc t) = true) (h2 : reg p = false) :
    IW N (s.rmw t subWaiter 0 p) := by
  refine h.rmw hv t subWaiter 0 p rfl rfl rfl ?_
  have hw := waiters_upd ht (s := s) (s' := s.rmw t subWaiter 0 p) p rfl
  rw [h1, h2] at hw
  simp only [if_true, Bool.false_eq_true, if_false] at hw
  refine Rep.subWaiter ?_
  rw [hw]; exact h.cur

theorem IW.prepare {N t : Nat} (hN : N < P32) (ht : t < N) {s : St} (h : IW N s) (hv : IV s) (p : Nat → Pc) (h1 : reg (s.pc t) = false)
    (h2 : ∀ k, reg (p k) = true) : IW N (doPrepare s t p) := by
  refine h.rmw hv t addWaiter 0 (p (epochOf s.val)) rfl rfl rfl ?_
  have hw := waiters_upd ht (s := s) (s' := s.rmw t addWaiter 0 (p (epochOf s.val))) (p (epochOf s.val)) rfl
  have hlt := waiters_lt ht h1
  rw [h1, h2] at hw
  simp only [if_true, Bool.false_eq_true, if_false] at hw
  rw [show waiters N _ = waiters N s + 1 from hw]
  exact Rep.addWaiter h.cur (by omega)

theorem IW.step {N t : Nat} (hN : N < P32) {s s' : St} (h : IW N s) (hv : IV s) (st : Step N t s s') : IW N s' := by
  have hpos := hv.mem.pos .word
  cases st
  case store n v b ht _ _ =>
    exact h.same (append_len_ne nofun) (fun i hi => append_val_old hi) hpos rfl rfl
  case load n i b ht _ hr => exact h.sameMem ht hv (s.pc t) rfl rfl rfl rfl
  case change n v _ _ ht _ => exact h.same (append_len_ne nofun) (fun i hi => append_val_old hi) hpos rfl rfl
  case fenceAcq => exact h.same rfl (fun _ _ => rfl) hpos rfl rfl
  case fenceRel => exact h.same rfl (fun _ _ => rfl) hpos rfl rfl
  case prepare ht hp => exact h.prepare hN ht hv _ (by rw [hp]; rfl) fun _ => rfl
  case cancel k ht hp => exact h.leave ht hv _ (by rw [hp]; rfl) rfl
  case wait k ht hp => exact h.sameMem ht hv _ rfl rfl rfl (by rw [hp]; rfl)
  case look k aw i ht hp hr =>
    exact h.sameMem ht hv _ rfl rfl rfl (by rw [hp]; split <;> rfl)
  case unblock k i aw ht hp => exact h.sameMem ht hv _ rfl rfl rfl (by rw [hp]; rfl)
  case leave aw ht hp => exact h.leave ht hv _ (by rw [hp]; rfl) (by split <;> rfl)
  case notify all ht hp =>
    refine h.rmw hv t addEpoch 1 _ rfl rfl rfl ?_
    rw [waiters_same ht _ rfl (by rw [hp]; cases all <;> split <;> rfl)]
    exact Rep.addEpoch h.cur
  case wakeAll ht hp => exact h.sameMem ht hv _ rfl rfl rfl (by rw [hp]; rfl)
  case wakeOne ht hp => exact h.sameMem ht hv _ rfl rfl rfl (by rw [hp]; rfl)
  case await ht hp => exact h.sameMem ht hv _ rfl rfl rfl (by rw [hp]; rfl)
  case first i b ht hp hr => exact h.sameMem ht hv _ rfl rfl rfl (by rw [hp]; split <;> rfl)
  case awaitPrep ht hp => exact h.prepare hN ht hv _ (by rw [hp]; rfl) fun _ => rfl
  case check k i b ht hp hr =>
    exact h.sameMem ht hv (if s.mem.val (.data 0) i ≠ 0 then .cancel else .waiting k true) rfl rfl rfl (by rw [hp]; split <;> rfl)
  case cancelled ht hp => exact h.leave ht hv _ (by rw [hp]; rfl) rfl

theorem IW.init (N : Nat) (v : Nat → Int) : IW N (St.init v) := by
  have hw : waiters N (St.init v) = 0 := Verif.EventCount.num_zero.2 fun _ _ => rfl
  have h0 : Rep 0 0 0 := by unfold Rep P32; omega
  refine ⟨?_, ?_, ?_⟩
  · rw [hw]; exact h0
  · intro i hi; exact ⟨0, h0⟩
  · intro i hi; exact Nat.le_refl _

/-- The thread that prepares. -/
theorem PT.prepare {N t : Nat} {s : St} (h : IW N s) (p : Nat → Pc) (h1 : ∀ k, keyOf (p k) = some k)
    (h2 : ∀ k, blockOf (p k) = none) (h3 : ∀ k, isLeaving (p k) = false) (h4 : ∀ k, awWait (p k) = false) :
    PT (doPrepare s t p) t := by
  have e1 : (doPrepare s t p).pc t = p (epochOf s.val) := upd_same _ _ _
  have e2 : (doPrepare s t p).at_ t = s.mem.len .word := upd_same _ _ _
  have e3 : (doPrepare s t p).cnt (s.mem.len .word) = s.cnt (s.mem.last .word) := upd_same _ _ _
  have e4 : ((doPrepare s t p).tv t).cur .word = s.mem.len .word := by
    show (upd s.tv t ((s.tv t).rmw s.mem .word) t).cur .word = _
    rw [upd_same, rmw_cur]; simp [wview]
  refine ⟨?_, ?_, ?_, ?_, ?_⟩
  · intro _; rw [e2, e4]; exact Nat.le_refl _
  · intro k hk
    rw [e1, h1] at hk
    rw [e2, e3, ← Option.some.inj hk]; exact h.cur.epoch
  · intro i hi; rw [e1, h2] at hi; cases hi
  · intro hi; rw [e1, h3] at hi; cases hi
  · intro hi; rw [e1, h4] at hi; cases hi

/-- All threads. -/
def IP (s : St) : Prop := ∀ t, PT s t

theorem IP.step {N t : Nat} {s s' : St} (h : IP s) (hw : IW N s) (hv : IV s) (st : Step N t s s') : IP s' := by
  have g := grow_step hv st
  -- the thread itself
  suffices hs : PT s' t by
    intro u
    by_cases e : u = t
    · subst e; exact hs
    · have hu : s'.pc u = s.pc u ∧ s'.at_ u = s.at_ u ∧ s'.saw u = s.saw u := by
        cases st <;> exact ⟨by first | rfl | exact upd_ne _ _ e, by first | rfl | exact upd_ne _ _ e, by first | rfl | exact upd_ne _ _ e⟩
      exact (h u).grow hv g hu.1 hu.2.1 hu.2.2
  have ht := h t
  cases st
  case store => exact ht.grow hv g rfl rfl rfl
  case load => exact ht.grow hv g (upd_same _ _ _) rfl rfl
  case change => exact ht.grow hv g rfl rfl rfl
  case fenceAcq => exact ht.grow hv g rfl rfl rfl
  case fenceRel => exact ht.grow hv g rfl rfl rfl
  case prepare => exact .prepare hw _ (fun _ => rfl) (fun _ => rfl) (fun _ => rfl) fun _ => rfl
  case cancel => exact .unreg (by rw [show St.pc _ t = _ from upd_same _ _ _]; rfl)
  case wait k _ hp =>
    refine ⟨fun _ => ht.at_ (by rw [hp]; rfl), fun k' hk => ht.key k' ?_, ?_, ?_, ?_⟩
    · simp only [upd_same] at hk; rw [hp]; exact hk
    · intro i hi; simp only [upd_same] at hi; cases hi
    · intro hi; simp only [upd_same] at hi; cases hi
    · intro hi; simp only [upd_same] at hi; cases hi
  case look k aw i _ hp hr =>
    obtain ⟨c, hc⟩ := hw.all i hr.2
    have hk := ht.key k (by rw [hp]; rfl)
    have ha := ht.at_ (by rw [hp]; rfl)
    have e4 : ((s.tv t).read s.mem .word i true).cur .word = i := by
      have := hr.1
      simp only [TV.read, if_true, single, hv.mem.self i hr.2]; omega
    have hi : s.at_ t ≤ i := Nat.le_trans ha hr.1
    by_cases e : epochOf (s.mem.val .word i).toNat = k
    · refine ⟨?_, ?_, ?_, ?_, ?_⟩
      · intro _; simp only [upd_same, e4]; exact hi
      · intro k' hk'; simp only [upd_same, if_pos e] at hk'; rw [← Option.some.inj hk']; exact hk
      · intro j hj; simp only [upd_same, if_pos e] at hj; rw [← Option.some.inj hj]
        simp only [upd_same, e4]
        refine ⟨hi, Nat.le_refl _, ?_⟩
        rw [← hc.epoch, e]; exact hk
      · intro hj; simp only [upd_same, if_pos e] at hj; cases hj
      · intro hj; simp only [upd_same, if_pos e] at hj
        exact ht.aw (by rw [hp]; exact hj)
    · refine ⟨?_, ?_, ?_, ?_, ?_⟩
      · intro _; simp only [upd_same, e4]; exact hi
      · intro k' hk'; simp only [upd_same, if_neg e] at hk'; cases hk'
      · intro j hj; simp only [upd_same, if_neg e] at hj; cases hj
      · intro _
        refine ⟨i, hi, ?_, ?_⟩
        · simp only [upd_same, e4]; exact Nat.le_refl _
        · show s.cnt i % P32 ≠ s.cnt (s.at_ t) % P32
          rw [← hc.epoch, ← hk]; exact e
      · intro hj; simp only [upd_same, if_neg e] at hj; cases hj
  case unblock k i aw _ hp =>
    refine ⟨fun _ => ht.at_ (by rw [hp]; rfl), fun k' hk => ht.key k' ?_, ?_, ?_, ?_⟩
    · simp only [upd_same] at hk; rw [hp]; exact hk
    · intro i hi; simp only [upd_same] at hi; cases hi
    · intro hi; simp only [upd_same] at hi; cases hi
    · intro hi; simp only [upd_same] at hi; exact ht.aw (by rw [hp]; exact hi)
  case leave aw _ hp => exact .unreg (by rw [show St.pc _ t = _ from upd_same _ _ _]; split <;> rfl)
  case notify all _ _ => exact .unreg (by rw [show St.pc _ t = _ from upd_same _ _ _]; cases all <;> split <;> rfl)
  case wakeAll => exact .unreg (by rw [show St.pc _ t = _ from upd_same _ _ _]; rfl)
  case wakeOne => exact .unreg (by rw [show St.pc _ t = _ from upd_same _ _ _]; rfl)
  case await => exact .unreg (by rw [show St.pc _ t = _ from upd_same _ _ _]; rfl)
  case first => exact .unreg (by rw [show St.pc _ t = _ from upd_same _ _ _]; split <;> rfl)
  case awaitPrep => exact .prepare hw _ (fun _ => rfl) (fun _ => rfl) (fun _ => rfl) fun _ => rfl
  case check k i b _ hp hr =>
    have ha := ht.at_ (by rw [hp]; rfl)
    have hk := ht.key k (by rw [hp]; rfl)
    have hc := (hv.tv t).cur
    have hg := g.cur t .word
    by_cases e : s.mem.val (.data 0) i ≠ 0
    · have ep : (doCheck s t k i b).pc t = .cancel := by
        show upd s.pc t _ t = _; rw [upd_same, if_pos e]
      refine ⟨fun _ => Nat.le_trans ha hg, ?_, ?_, ?_, ?_⟩
      · intro k' hk'; rw [ep] at hk'; cases hk'
      · intro k' hk'; rw [ep] at hk'; cases hk'
      · intro hk'; rw [ep] at hk'; cases hk'
      · intro hk'; rw [ep] at hk'; cases hk'
    · have ep : (doCheck s t k i b).pc t = .waiting k true := by
        show upd s.pc t _ t = _; rw [upd_same, if_neg e]
      refine ⟨fun _ => Nat.le_trans ha hg, ?_, ?_, ?_, ?_⟩
      · intro k' hk'; rw [ep] at hk'; rw [← Option.some.inj hk']; exact hk
      · intro k' hk'; rw [ep] at hk'; cases hk'
      · intro hk'; rw [ep] at hk'; cases hk'
      · intro _
        show upd s.saw t i t < s.mem.len _ ∧ s.mem.val _ (upd s.saw t i t) = 0 ∧ s.mem.view .word (s.at_ t) _ ≤ upd s.saw t i t
        rw [upd_same]
        refine ⟨hr.2, Decidable.not_not.1 e, ?_⟩
        have h1 := hv.mem.mono ha (hc.lt .word) (.data 0)
        have h2 := hc.le (.data 0)
        have h3 := hr.1
        omega
  case cancelled => exact .unreg (by rw [show St.pc _ t = _ from upd_same _ _ _]; rfl)

theorem inv_reach {N : Nat} (hN : N < P32) {s : St} (h : Reach N s) : IV s ∧ IW N s ∧ IP s := by
  induction h with
  | init v => exact ⟨.init v, .init N v, fun t => .unreg rfl⟩
  | step _ st ih => exact ⟨ih.1.step st, ih.2.1.step hN ih.1 st, ih.2.2.step ih.2.1 ih.1 st⟩

end Verif.Weak.Ev
