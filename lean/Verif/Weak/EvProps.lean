import Verif.Weak.EvInv2

/-!
C46: what `event_count` guarantees under the C++ memory model. The statements use the state and the steps of
`Weak/EvModel.lean`: what a thread knows is `TV.cur` (it cannot read older messages than those), the message that a call of `notify_one`
or `notify_all` in state `s` appends to `m_val` is number `s.mem.len .word`, and `at_ t` is the number of the message that
`prepare_wait` of thread `t` appended.
-/
namespace Verif.Weak.Ev
open Verif.EventCount (addEpoch addWaiter subWaiter epochOf waitersOf num num_change num_lt num_pos num_congr Rep P32)

/-- Fewer than 2^32 notifications since thread `t` prepared (beyond that the epoch wraps: C22). -/
def Few (s : St) (t : Nat) : Prop := s.cnt (s.mem.last .word) < s.cnt (s.at_ t) + P32

theorem Steps.reach {N : Nat} {s s' : St} (h : Steps N s s') (r : Reach N s) : Reach N s' := by
  induction h with
  | refl => exact r
  | step _ st ih => exact .step ih st

theorem Steps.grow {N : Nat} {s s' : St} (h : Steps N s s') (r : Reach N s) : Grow s s' := by
  induction h with
  | refl => exact .refl _
  | step h st ih => exact ih.trans (grow_step (iv_reach (h.reach r)) st)

theorem Steps.trans {N : Nat} {a b c : St} (h : Steps N a b) (g : Steps N b c) : Steps N a c := by
  induction g with
  | refl => exact h
  | step _ st ih => exact .step ih st

theorem notify_step {N u : Nat} {all : Bool} {s : St} (hu : u < N) (hp : s.pc u = .idle) : Step N u s (doNotify s u all) :=
  .notify all hu hp

/-- **C46, what a notification carries.** Thread `u` calls `notify_one` or `notify_all` in state `s₀`. From then on, every thread that
knows of this notification knows everything `u` knew when it called. -/
theorem notified_knows {N u t : Nat} {all : Bool} {s₀ s : St} (r : Reach N s₀) (hu : u < N) (hp : s₀.pc u = .idle)
    (h : Steps N (doNotify s₀ u all) s) (hk : s₀.mem.len .word ≤ (s.tv t).cur .word) (l : Loc) :
    (s₀.tv u).cur l ≤ (s.tv t).cur l := by
  have iv := iv_reach r
  have r1 : Reach N (doNotify s₀ u all) := .step r (notify_step hu hp)
  have g := h.grow r1
  have iv' := iv_reach (h.reach r1)
  have hl : s₀.mem.len .word < (doNotify s₀ u all).mem.len .word := by
    rw [doNotify, len_rmw]; omega
  have hv : (doNotify s₀ u all).mem.view .word (s₀.mem.len .word) = wview s₀.mem (s₀.tv u).cur := by
    show (s₀.mem.rmw _ _ _).view _ _ = _
    rw [rmw_mem, append_view_new]
  have h1 := g.view .word _ hl
  have h2 := iv'.mem.mono hk ((iv'.tv t).cur.lt .word) l
  have h3 := (iv'.tv t).cur.le l
  rw [h1, hv] at h2
  exact Nat.le_trans (le_wview (iv.tv u).cur l) (Nat.le_trans h2 h3)

/-- **C46, prepare after notify.** If `t` calls `prepare_wait` after `u` has notified, then after `prepare_wait` it knows everything `u` knew
when it notified: a condition that `u` made true is found to be true. -/
theorem prepared_sees {N u t : Nat} {all : Bool} {s₀ s : St} (r : Reach N s₀) (hu : u < N) (hp : s₀.pc u = .idle)
    (h : Steps N (doNotify s₀ u all) s) (ht : t < N) (hi : s.pc t = .idle) (l : Loc) :
    (s₀.tv u).cur l ≤ ((doPrepare s t .prepared).tv t).cur l := by
  refine notified_knows r hu hp (h.step (.prepare ht hi)) (t := t) ?_ l
  have r1 : Reach N (doNotify s₀ u all) := .step r (notify_step hu hp)
  have := (h.grow r1).len .word
  have e4 : ((doPrepare s t .prepared).tv t).cur .word = s.mem.len .word := by
    show (upd s.tv t ((s.tv t).rmw s.mem .word) t).cur .word = _
    rw [upd_same, rmw_cur]; simp [wview]
  rw [e4]
  rw [doNotify, len_rmw] at this
  omega

/-- Between `prepare_wait` and the end of the wait, `at_` stays. -/
theorem still_waiting {N t : Nat} {s s' : St} (r : Reach N s) (h : Steps N s s') (h1 : reg (s'.pc t) = true)
    (h2 : s'.at_ t < s.mem.len .word) : reg (s.pc t) = true ∧ s.at_ t = s'.at_ t := by
  induction h with
  | refl => exact ⟨h1, rfl⟩
  | @step a b v h st ih =>
    have hl := (h.grow r).len .word
    suffices hs : reg (a.pc t) = true ∧ a.at_ t = b.at_ t by
      rw [← hs.2] at h2; exact (ih hs.1 h2).imp id (·.trans hs.2)
    by_cases e : t = v
    · subst e
      cases st <;> first
        | exact ⟨h1, rfl⟩
        | (simp_all [St.load, upd_same, reg]; done)
        | skip
      case prepare => rw [show (doPrepare a t .prepared).at_ t = _ from upd_same _ _ _] at h2; omega
      case cancel => rw [show (a.rmw t subWaiter 0 .idle).pc t = _ from upd_same _ _ _] at h1; cases h1
      case leave aw _ _ =>
        rw [show (a.rmw t subWaiter 0 (if aw then .prep else .idle)).pc t = _ from upd_same _ _ _] at h1
        cases aw <;> cases h1
      case notify all _ _ =>
        rw [show (doNotify a t all).pc t = _ from upd_same _ _ _] at h1
        cases all <;> (split at h1 <;> cases h1)
      case wakeAll => rw [show (doWakeAll a t).pc t = _ from upd_same _ _ _] at h1; cases h1
      case awaitPrep => rw [show (doPrepare a t .check).at_ t = _ from upd_same _ _ _] at h2; omega
      case first i b _ _ _ =>
        rw [show (a.load t 0 i b _).pc t = _ from upd_same _ _ _] at h1
        split at h1 <;> cases h1
      case check k i b _ hp _ => exact ⟨by rw [hp]; rfl, rfl⟩
      case cancelled => rw [show (a.rmw t subWaiter 0 .idle).pc t = _ from upd_same _ _ _] at h1; cases h1
    · have hu : b.pc t = a.pc t ∧ b.at_ t = a.at_ t := by
        cases st <;> exact ⟨by first | rfl | exact upd_ne _ _ e, by first | rfl | exact upd_ne _ _ e⟩
      exact ⟨hu.1 ▸ h1, hu.2.symm⟩

/-- After `u` has added to the epoch and seen waiters, it is about to wake them, or it has done so. -/
theorem told_or_about {N u : Nat} {q : Nat} {s s' : St} (r : Reach N s) (h : Steps N s s')
    (h1 : (s.pc u = .wakeAll ∧ q ≤ (s.tv u).cur .word) ∨ q ≤ s.told) :
    (s'.pc u = .wakeAll ∧ q ≤ (s'.tv u).cur .word) ∨ q ≤ s'.told := by
  induction h with
  | refl => exact h1
  | @step a b v h st ih =>
    have g := grow_step (iv_reach (h.reach r)) st
    rcases ih with ⟨h2, h3⟩ | h2
    · by_cases e : u = v
      · subst e
        cases st <;> simp_all [client]
        case wakeAll => right; simp only [doWakeAll]; omega
      · have hu : b.pc u = a.pc u := by
          cases st <;> first | rfl | exact upd_ne _ _ e
        exact .inl ⟨hu.trans h2, Nat.le_trans h3 (g.cur u .word)⟩
    · exact .inr (Nat.le_trans h2 g.told)

/-- A blocked thread has read a message older than any notification after its `prepare_wait`. -/
theorem blocked_older {N t q k i : Nat} {aw : Bool} (hN : N < P32) {s : St} (r : Reach N s) (hb : s.pc t = .blocked k i aw)
    (hf : Few s t) (hq : s.at_ t < q) (hq' : q < s.mem.len .word) (hc : s.cnt (q - 1) < s.cnt q) : i < q := by
  obtain ⟨iv, iw, ip⟩ := inv_reach hN r
  obtain ⟨h1, h2, h3⟩ := (ip t).blocked i (by rw [hb]; rfl)
  have hl := (iv.tv t).cur.lt .word
  have hlast := iw.le (i := i) (j := s.mem.last .word) (by simp only [Mem.last]; omega) (by simp only [Mem.last]; omega)
  have hmono := iw.le h1 (by omega)
  have h4 := iw.le (i := s.at_ t) (j := q - 1) (by omega) (by omega)
  have hf : s.cnt (s.mem.last .word) < s.cnt (s.at_ t) + P32 := hf
  have hp : P32 = 4294967296 := by unfold P32; rfl
  rw [hp] at hf h3
  have h5 : s.cnt i = s.cnt (s.at_ t) := by omega
  refine Nat.lt_of_not_le fun h6 => ?_
  have := iw.le h6 (by omega)
  omega

/-- **C46, notify after prepare.** Thread `u` calls `notify_all` in state `s₀`. In any later state in which a thread `t` that had
called `prepare_wait` before that is blocked in `wait`, it is eligible to be unblocked, or `u` is still in its call
and makes it eligible with its next step. -/
theorem no_lost_wakeup {N u t : Nat} (hN : N < P32) {s₀ s : St} (r : Reach N s₀) (hu : u < N) (hp : s₀.pc u = .idle)
    (h : Steps N (doNotify s₀ u true) s) (ht : t < N) (hb : IsBlocked s t) (ha : s.at_ t < s₀.mem.len .word) (hf : Few s t) :
    Eligible s t ∨ (s.pc u = .wakeAll ∧ ∀ s', Step N u s s' → Eligible s' t) := by
  obtain ⟨k, i, aw, hb⟩ := hb
  have r1 : Reach N (doNotify s₀ u true) := .step r (notify_step hu hp)
  have g := h.grow r1
  have rs := h.reach r1
  have hl : s₀.mem.len .word < (doNotify s₀ u true).mem.len .word := by rw [doNotify, len_rmw]; omega
  -- the notification saw a waiter
  have hsw := still_waiting r1 h (t := t) (by rw [hb]; rfl) (by omega)
  have htu : t ≠ u := by
    rintro rfl
    have := hsw.1
    rw [show (doNotify s₀ t true).pc t = _ from upd_same _ _ _] at this
    revert this; split <;> nofun
  have hreg : reg (s₀.pc t) = true := by
    have := hsw.1
    rwa [show (doNotify s₀ u true).pc t = _ from upd_ne _ _ htu] at this
  have hw : waitersOf s₀.val ≠ 0 := by
    have := (inv_reach hN r).2.1.cur.waiters
    have := waiters_pos ht hreg
    omega
  have hwake : (doNotify s₀ u true).pc u = .wakeAll := by
    rw [show (doNotify s₀ u true).pc u = _ from upd_same _ _ _, if_pos hw]; rfl
  have hcur : s₀.mem.len .word ≤ ((doNotify s₀ u true).tv u).cur .word := by
    show _ ≤ (upd s₀.tv u ((s₀.tv u).rmw s₀.mem .word) u).cur .word
    rw [upd_same, rmw_cur]; simp [wview]
  -- what `t` read
  have hc : s.cnt (s₀.mem.len .word - 1) < s.cnt (s₀.mem.len .word) := by
    have hpos := (iv_reach r).mem.pos .word
    rw [g.cnt _ hl, g.cnt _ (by omega)]
    have e1 : (doNotify s₀ u true).cnt (s₀.mem.len .word) = s₀.cnt (s₀.mem.last .word) + 1 := upd_same _ _ _
    have e2 : (doNotify s₀ u true).cnt (s₀.mem.len .word - 1) = s₀.cnt (s₀.mem.last .word) := upd_ne _ _ (by omega)
    omega
  have hi := blocked_older hN rs hb hf ha (Nat.lt_of_lt_of_le hl (g.len _)) hc
  rcases told_or_about r1 h (.inl ⟨hwake, hcur⟩) with ⟨h1, h2⟩ | h1
  · right
    refine ⟨h1, fun s' st => ?_⟩
    cases st <;> simp_all [client]
    exact ⟨k, i, aw, (upd_ne _ _ htu).trans hb, by simp only [doWakeAll]; omega⟩
  · exact .inl ⟨k, i, aw, hb, by omega⟩

/-- **C46, `await`.** Thread `u` knows the last write to the cell of the condition, which made it true, and calls `notify_all`. As
long as the cell is not written again, no thread can be left blocked in `await`: one that is blocked is eligible to be
unblocked, or `u` is still in its call and makes it eligible with its next step. -/
theorem await_not_stuck {N u t : Nat} (hN : N < P32) {s₀ s : St} (r : Reach N s₀) (hu : u < N) (hp : s₀.pc u = .idle)
    (hknow : (s₀.tv u).cur (.data 0) = s₀.mem.last (.data 0)) (htrue : s₀.mem.val (.data 0) (s₀.mem.last (.data 0)) ≠ 0)
    (h : Steps N (doNotify s₀ u true) s) (hsame : s.mem.len (.data 0) = s₀.mem.len (.data 0))
    (ht : t < N) {k i : Nat} (hb : s.pc t = .blocked k i true) (hf : Few s t) :
    Eligible s t ∨ (s.pc u = .wakeAll ∧ ∀ s', Step N u s s' → Eligible s' t) := by
  by_cases ha : s.at_ t < s₀.mem.len .word
  · exact no_lost_wakeup hN r hu hp h ht ⟨_, _, _, hb⟩ ha hf
  · exfalso
    have r1 : Reach N (doNotify s₀ u true) := .step r (notify_step hu hp)
    have g := (grow_step (iv_reach r) (notify_step (N := N) (all := true) hu hp)).trans (h.grow r1)
    obtain ⟨iv, iw, ip⟩ := inv_reach hN (h.reach r1)
    obtain ⟨h1, h2, h3⟩ := (ip t).aw (by rw [hb]; rfl)
    have hl : s₀.mem.len .word < (doNotify s₀ u true).mem.len .word := by rw [doNotify, len_rmw]; omega
    have hv : (doNotify s₀ u true).mem.view .word (s₀.mem.len .word) = wview s₀.mem (s₀.tv u).cur := by
      show (s₀.mem.rmw _ _ _).view _ _ = _
      rw [rmw_mem, append_view_new]
    have h4 := (h.grow r1).view .word _ hl
    have h5 := iv.mem.mono (Nat.le_of_not_lt ha) (Nat.lt_of_le_of_lt ((ip t).at_ (by rw [hb]; rfl)) ((iv.tv t).cur.lt .word)) (.data 0)
    rw [h4, hv] at h5
    have h6 := le_wview ((iv_reach r).tv u).cur (.data 0)
    have hpos := (iv_reach r).mem.pos (.data 0)
    have e : s.saw t = s₀.mem.last (.data 0) := by
      simp only [Mem.last] at hknow ⊢; omega
    rw [e, g.val _ _ (by simp only [Mem.last]; omega)] at h2
    exact htrue h2

/-- Inside `await`. -/
def inAwait : Pc → Bool
  | .first | .prep | .check _ | .cancel | .waiting _ true | .blocked _ _ true | .leaving true => true
  | _ => false

/-- Thread `t` has seen the condition of `await` true. -/
def SawTrue (s : St) (t : Nat) : Prop :=
  ∃ i, i < s.mem.len (.data 0) ∧ i ≤ (s.tv t).cur (.data 0) ∧ s.mem.val (.data 0) i ≠ 0

theorem SawTrue.grow {s s' : St} {t : Nat} (g : Grow s s') (h : SawTrue s t) : SawTrue s' t := by
  obtain ⟨i, h1, h2, h3⟩ := h
  exact ⟨i, Nat.lt_of_lt_of_le h1 (g.len _), Nat.le_trans h2 (g.cur t _), by rwa [g.val _ _ h1]⟩

theorem read_sees {m : Mem Loc} {v : TV Loc} {l : Loc} {i : Nat} {acq : Bool} : i ≤ (v.read m l i acq).cur l := by
  cases acq <;> simp [TV.read, single, Weak.join] <;> omega

theorem cancel_true {N : Nat} {s : St} (r : Reach N s) : ∀ t, s.pc t = .cancel → SawTrue s t := by
  induction r with
  | init v => intro t h; cases h
  | @step a b u r st ih =>
    intro t h
    have g := grow_step (iv_reach r) st
    have old : a.pc t = .cancel → SawTrue b t := fun e => (ih t e).grow g
    by_cases e : t = u
    · subst e
      cases st
      case check k i acq _ hp hr =>
        have h' : (if a.mem.val (.data 0) i ≠ 0 then Pc.cancel else .waiting k true) = .cancel := (upd_same a.pc t _).symm.trans h
        split at h'
        case isTrue hv =>
          refine ⟨i, hr.2, ?_, hv⟩
          show i ≤ ((upd a.tv t ((a.tv t).read a.mem (.data 0) i acq)) t).cur (.data 0)
          rw [upd_same]
          exact read_sees
        case isFalse => cases h'
      case load => exact old ((upd_same a.pc t _).symm.trans h)
      all_goals first
        | exact old h
        | (have h' := (upd_same a.pc t _).symm.trans h
           first
             | cases h'; done
             | (split at h' <;> cases h'; done)
             | (split at h' <;> first | cases h' | (split at h' <;> cases h')))
    · have hpc : b.pc t = a.pc t := by
        cases st <;> first | rfl | exact upd_ne _ _ e
      exact old (hpc ▸ h)

/-- **C46, `await` returns only when the condition holds.** The step with which `await` returns to its caller leaves the caller
knowing a write that made the condition true. -/
theorem await_true {N t : Nat} {s s' : St} (r : Reach N s) (st : Step N t s s') (hp : inAwait (s.pc t) = true) (hq : s'.pc t = .idle) :
    SawTrue s' t := by
  have g := grow_step (iv_reach r) st
  cases st
  case cancelled _ hc => exact (cancel_true r t hc).grow g
  case first i acq _ hc hr =>
    have h' : (if s.mem.val (.data 0) i ≠ 0 then Pc.idle else .prep) = .idle := (upd_same s.pc t _).symm.trans hq
    split at h'
    case isTrue hv =>
      refine ⟨i, hr.2, ?_, hv⟩
      show i ≤ ((upd s.tv t ((s.tv t).read s.mem (.data 0) i acq)) t).cur (.data 0)
      rw [upd_same]
      exact read_sees
    case isFalse => cases h'
  case leave aw _ hc =>
    have h' : (if aw = true then Pc.prep else .idle) = .idle := (upd_same s.pc t _).symm.trans hq
    rw [hc] at hp
    cases aw
    · cases hp
    · cases h'
  case check k i acq _ hc hr =>
    have h' : (if s.mem.val (.data 0) i ≠ 0 then Pc.cancel else .waiting k true) = .idle := (upd_same s.pc t _).symm.trans hq
    split at h' <;> cases h'
  case look k aw i _ hc hr =>
    have h' : (if epochOf (s.mem.val .word i).toNat = k then Pc.blocked k i aw else .leaving aw) = .idle := (upd_same s.pc t _).symm.trans hq
    split at h' <;> cases h'
  case load =>
    have h' := (upd_same s.pc t _).symm.trans hq
    rw [h'] at hp; cases hp
  all_goals first
    | (rename_i hc; rw [hc] at hp; cases hp; done)
    | (have h' := (upd_same s.pc t _).symm.trans hq; cases h'; done)
    | (exact absurd (hq ▸ hp) (by decide))

/-- **C46, no unfounded return.** When `wait` goes on, there has been a notification since `prepare_wait`, and the thread knows of it (and by
`notified_knows` everything its caller knew). -/
theorem returns_notified {N t : Nat} {aw : Bool} (hN : N < P32) {s : St} (r : Reach N s) (hp : s.pc t = .leaving aw) :
    ∃ q, s.at_ t < q ∧ q ≤ (s.tv t).cur .word ∧ s.cnt q = s.cnt (q - 1) + 1 := by
  obtain ⟨iv, iw, ip⟩ := inv_reach hN r
  obtain ⟨i, h1, h2, h3⟩ := (ip t).leaving (by rw [hp]; rfl)
  have hl := (iv.tv t).cur.lt .word
  have hinc : ∀ {s : St}, Reach N s → ∀ j, j + 1 < s.mem.len .word → s.cnt (j + 1) ≤ s.cnt j + 1 := by
    intro s r
    induction r with
    | init v => intro j hj; exact Nat.le_succ _
    | @step a b u r st ih =>
      intro j hj
      have g := grow_step (iv_reach r) st
      by_cases e : j + 1 < a.mem.len .word
      · rw [g.cnt _ e, g.cnt _ (by omega)]; exact ih j e
      · have key : ∀ (f : Nat → Nat) (d : Nat) (p : Pc), d ≤ 1 → b.mem.len .word = a.mem.len .word + 1 →
            b.cnt = (a.rmw u f d p).cnt → b.cnt (j + 1) ≤ b.cnt j + 1 := by
          intro f d p hd h1 h2
          have hpos := (iv_reach r).mem.pos .word
          rw [h1] at hj
          obtain rfl : j = a.mem.last .word := by simp only [Mem.last]; omega
          have e1 : a.mem.last .word + 1 = a.mem.len .word := by simp only [Mem.last]; omega
          have e2 := g.cnt (a.mem.last .word) (by omega)
          have e3 := cnt_rmw a u f d p
          rw [← h2] at e3
          rw [e1, e2, e3]; omega
        cases st <;> first
          | (exact absurd hj e)
          | (exact key addWaiter 0 .idle (by omega) (len_rmw a u addWaiter 0 .idle) rfl)
          | (exact key subWaiter 0 .idle (by omega) (len_rmw ..) rfl)
          | (exact key addEpoch 1 .idle (by omega) (len_rmw ..) rfl)
          | (exact absurd (by simpa [Mem.store, Mem.rmw, Mem.append] using hj) e)
  -- a first position where the count has changed
  have : ∀ d, s.at_ t + d ≤ i → (∃ q, s.at_ t < q ∧ q ≤ s.at_ t + d ∧ s.cnt q = s.cnt (q - 1) + 1) ∨ s.cnt (s.at_ t + d) = s.cnt (s.at_ t) := by
    intro d hd
    induction d with
    | zero => exact .inr rfl
    | succ d ihd =>
      rcases ihd (by omega) with ⟨q, h4, h5, h6⟩ | h4
      · exact .inl ⟨q, h4, by omega, h6⟩
      · have h5 := hinc r (s.at_ t + d) (by omega)
        have h6 := iw.mono (s.at_ t + d) (by omega)
        by_cases e : s.cnt (s.at_ t + d + 1) = s.cnt (s.at_ t + d)
        · right; rw [← h4, ← e]; rfl
        · left; exact ⟨s.at_ t + d + 1, by omega, by omega, by
            show _ = s.cnt (s.at_ t + d) + 1
            omega⟩
  rcases this (i - s.at_ t) (by omega) with ⟨q, h4, h5, h6⟩ | h4
  · exact ⟨q, h4, by omega, h6⟩
  · rw [show s.at_ t + (i - s.at_ t) = i by omega] at h4
    rw [h4] at h3; exact absurd rfl h3

/-- **C46, the waiters are counted.** The low half of `m_val` is the number of threads between `prepare_wait` and the end of `wait` or
`cancel_wait`; the assertions of event_count.hpp:202, 214 hold. -/
theorem waiters_exact {N : Nat} (hN : N < P32) {s : St} (r : Reach N s) :
    waitersOf s.val = ((List.range N).filter fun t => reg (s.pc t)).length := by
  rw [(inv_reach hN r).2.1.cur.waiters, waiters, num, List.countP_eq_length_filter]

theorem assert_holds {N t : Nat} (hN : N < P32) {s : St} (r : Reach N s) (ht : t < N) (hr : reg (s.pc t) = true) :
    waitersOf s.val ≠ 0 := by
  have := (inv_reach hN r).2.1.cur.waiters
  have := waiters_pos ht hr
  omega

/-- Without a notification after `prepare_wait`, the thread cannot get out of `wait`. -/
theorem blocks_without {N t : Nat} {aw : Bool} (hN : N < P32) {s : St} (r : Reach N s) (hp : s.pc t = .leaving aw) :
    s.cnt (s.at_ t) < s.cnt (s.mem.last .word) := by
  obtain ⟨iv, iw, ip⟩ := inv_reach hN r
  obtain ⟨i, h1, h2, h3⟩ := (ip t).leaving (by rw [hp]; rfl)
  have hl := (iv.tv t).cur.lt .word
  have h4 := iw.le h1 (by omega)
  have h5 := iw.le (i := i) (j := s.mem.last .word) (by simp only [Mem.last]; omega) (by simp only [Mem.last]; omega)
  have : s.cnt i ≠ s.cnt (s.at_ t) := fun e => h3 (by rw [e])
  omega

end Verif.Weak.Ev
