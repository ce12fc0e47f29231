import Verif.EventCount.InvStep

/-!
C21 and C22. `P32` is 2^32; a thread is "registered" (`reg`) between `prepare_wait` and the end of the `wait` or `cancel_wait` that
follows. `prepAt t` is the time at which the thread's last `prepare_wait` returned and `best` the latest time at which a
`notify_all` was called that has returned since.
-/
namespace Verif.EventCount

/-! ### C22: waiter accounting, with any number of notifications -/

/-- C22: the count in the word is the number of threads between `prepare_wait` and the end of `wait` or `cancel_wait`. -/
theorem waiters_exact {N : Nat} (hN : N < P32) {s : St} (h : ReachAny N s) :
    waitersOf s.val = num N fun t => reg (s.pc t) := Rep.waiters (reach_rep hN h)

/-- C22: the assertions of event_count.hpp:202 and 214 hold. -/
theorem assert_holds {N t : Nat} (hN : N < P32) {s : St} (h : ReachAny N s) (ht : t < N) (hr : reg (s.pc t) = true) :
    waitersOf s.val ≠ 0 := by
  rw [waiters_exact hN h]
  have := (num_pos (f := fun t => reg (s.pc t))).2 ⟨t, ht, hr⟩
  omega

/-- C22: `notify_all` skips the wake-up exactly if nobody waits. -/
theorem notifyAll_skips_iff {N t c : Nat} (hN : N < P32) {s : St} (h : ReachAny N s) :
    (doNotifyAll s t c).pc t = .idle ↔ ∀ u, u < N → reg (s.pc u) = false := by
  rw [← num_zero (f := fun u => reg (s.pc u)), ← waiters_exact hN h]
  unfold doNotifyAll St.go
  split
  · rename_i hz; simp [upd_same, hz]
  · rename_i hz; simp at hz; simp [upd_same, hz]

/-- C22: `notify_one` skips the wake-up exactly if nobody waits. -/
theorem notifyOne_skips_iff {N t c : Nat} (hN : N < P32) {s : St} (h : ReachAny N s) :
    (doNotifyOne s t c).pc t = .idle ↔ ∀ u, u < N → reg (s.pc u) = false := by
  rw [← num_zero (f := fun u => reg (s.pc u)), ← waiters_exact hN h]
  unfold doNotifyOne St.go
  split
  · rename_i hz; simp [upd_same, hz]
  · rename_i hz; simp at hz; simp [upd_same, hz]

theorem exit_key {N t : Nat} {s s' : St} (st : Step N t s s') (h1 : inAwait (s.pc t) = true) (h2 : inAwait (s'.pc t) = false) :
    s'.pc t = .idle ∧ s'.n = s.n ∧ ∀ u, u ≠ t → reg (s'.pc u) = reg (s.pc u) := by
  cases st with
  | first ht hp => cases hc : s.cond <;> simp_all [St.go, upd_same, inAwait, upd_apply]
  | firstThrow ht hp => simp_all [St.go, upd_apply]
  | awaitCancel threw ht hp => simp_all [doLeave, St.go, upd_apply]
  | awaitPrep ht hp => simp [doPrepare, St.go, upd_same, inAwait] at h2
  | check k ht hp => cases hc : s.cond <;> simp [hc, St.go, upd_same, inAwait] at h2
  | checkThrow k ht hp => simp [St.go, upd_same, inAwait] at h2
  | leave aw ht hp => cases aw <;> simp_all [doLeave, St.go, upd_same, inAwait]
  | look k aw ht hp =>
    cases aw
    · rw [hp] at h1; cases h1
    · unfold doLook at h2; split at h2 <;> simp [St.go, upd_same, inAwait] at h2
  | spurious k aw ht hp => cases aw <;> simp_all [St.go, upd_same, inAwait]
  | prepare ht hp => rw [hp] at h1; cases h1
  | cancel k ht hp => rw [hp] at h1; cases h1
  | wait k ht hp => rw [hp] at h1; cases h1
  | callAll ht hp => rw [hp] at h1; cases h1
  | notifyAll c ht hp => rw [hp] at h1; cases h1
  | wakeAll c ht hp => rw [hp] at h1; cases h1
  | callOne ht hp => rw [hp] at h1; cases h1
  | notifyOne c ht hp => rw [hp] at h1; cases h1
  | wakeOne c v ht hp hv he => rw [hp] at h1; cases h1
  | wakeNone c ht hp hn => rw [hp] at h1; cases h1
  | post ht hp => rw [hp] at h1; cases h1
  | clear ht hp => rw [hp] at h1; cases h1
  | await ht hp => rw [hp] at h1; cases h1

/-- C22: whenever `await` returns or throws, its thread has given back its place among the waiters (if it had one at that moment),
and nothing else changed in the word. -/
theorem await_exit {N t : Nat} (hN : N < P32) {s s' : St} (h : ReachAny N s) (st : Step N t s s') (h1 : inAwait (s.pc t) = true)
    (h2 : inAwait (s'.pc t) = false) :
    reg (s'.pc t) = false ∧ epochOf s'.val = epochOf s.val ∧ waitersOf s'.val + (if reg (s.pc t) then 1 else 0) = waitersOf s.val := by
  have hr := reach_rep hN h
  have hr' := rep_step hN hr st
  have key := exit_key st h1 h2
  have ht : t < N := by cases st <;> assumption
  obtain ⟨k1, k2, k3⟩ := key
  have hw := waiters_go (pc := s.pc) (pc' := s'.pc) ht k3
  have hx : reg (s'.pc t) = false := by rw [k1]; rfl
  refine ⟨hx, ?_, ?_⟩
  · rw [Rep.epoch hr, Rep.epoch hr', k2]
  · rw [Rep.waiters hr, Rep.waiters hr']
    rw [hx] at hw
    simpa [waiters] using hw

/-! ### C21: no lost wake-up -/

/-- C21: a thread is not asleep if a `notify_all` was called after its `prepare_wait` returned and has itself returned. Missing for
the full property: it is false if 2^32 notifications happen between `prepare_wait` and the moment the thread looks at the epoch
(`Wrap.wrap_lost_wakeup`), so `Reach` excludes this. -/
theorem no_lost_wakeup_partial {N t : Nat} (hN : N < P32) {s : St} (h : Reach N s) (ht : t < N) (ha : isAsleep (s.pc t) = true) :
    s.best ≤ s.prepAt t := by
  have hi := reach_inv hN h
  apply Nat.le_of_not_lt
  intro hb
  have := (hi.best t ht (asleep_reg ha) hb).2
  rw [ha] at this; cases this

/-- C21 for `notify_one`: when its wake-up has happened, some thread that was asleep is awake, or nobody was asleep who had prepared
before the call. (If the wake-up is skipped, nobody was registered: `notifyOne_skips_iff`.) -/
theorem notify_one_wakes_partial {N t c : Nat} (hN : N < P32) {s s' : St} (h : Reach N s) (hp : s.pc t = .wakeOne c)
    (st : Step N t s s') :
    (∃ v, v < N ∧ isAsleep (s.pc v) = true ∧ isAsleep (s'.pc v) = false) ∨
      ∀ v, v < N → isAsleep (s.pc v) = true → c ≤ s.prepAt v := by
  have hi := reach_inv hN h
  cases st with
  | wakeOne c' v ht hp' hv he =>
    refine Or.inl ⟨v, hv, he.1, ?_⟩
    simp only [upd_apply, if_true]
    split
    · rfl
    · exact rouse_asleep _
  | wakeNone c' ht hp' hn =>
    right
    intro v hv ha
    apply Nat.le_of_not_lt
    intro hlt
    have h1 := hi.wk t v c ht hv (Or.inr hp) (asleep_reg ha) hlt
    exact hn v hv ⟨ha, by rw [hi.slept v hv ha]; exact h1⟩
  | _ => simp_all

/-- C21, `await`: while the condition is true and no `notify_all` is under way, nobody sleeps in `await`. Missing: as above. -/
theorem await_awake_partial {N : Nat} (hN : N < P32) {s : St} (h : Reach N s) (hc : s.cond = true)
    (hq : ∀ u, u < N → isNA (s.pc u) = false ∧ isWA (s.pc u) = false) :
    ∀ t, t < N → inAwait (s.pc t) = true → isAsleep (s.pc t) = false := by
  intro t ht ha
  have hi := reach_inv hN h
  cases hs : isAsleep (s.pc t) with
  | false => rfl
  | true =>
    have haw : awWait (s.pc t) = true := by cases hp : s.pc t <;> simp_all [isAsleep, inAwait, awWait]
    rcases hi.aw2 hc t ht haw hs with ⟨u, hu, e⟩ | ⟨u, hu, e⟩
    · rw [(hq u hu).1] at e; cases e
    · rw [(hq u hu).2] at e; cases e

/-- How many more steps `await` needs once the condition is true. -/
def rank : Pc → Nat
  | .first => 1
  | .cancel _ => 1
  | .check _ => 2
  | .prep => 3
  | .leaving _ => 4
  | .waiting _ _ => 5
  | _ => 0

/-- The condition is true and the thread will not block. -/
def Settled (s : St) (t : Nat) : Prop := s.cond = true ∧ (awWait (s.pc t) = true → isAsleep (s.pc t) = false ∧ s.at_ t < s.n)

theorem settled_of {N t : Nat} (hN : N < P32) {s : St} (h : Reach N s) (hc : s.cond = true)
    (hq : ∀ u, u < N → isNA (s.pc u) = false ∧ isWA (s.pc u) = false) (ht : t < N) : Settled s t := by
  have hi := reach_inv hN h
  refine ⟨hc, fun haw => ⟨?_, ?_⟩⟩
  · exact await_awake_partial hN h hc hq t ht (by cases hp : s.pc t <;> simp_all [inAwait, awWait])
  · rcases hi.aw1 hc t ht haw with ⟨u, hu, e⟩ | e
    · rw [(hq u hu).1] at e; cases e
    · exact e

/-- A step of the thread itself. -/
theorem settled_own {N t : Nat} (hN : N < P32) {s s' : St} (h : Reach N s) (hf : Few N s) (hs : Settled s t)
    (ha : inAwait (s.pc t) = true) (st : Step N t s s') : rank (s'.pc t) < rank (s.pc t) ∧ Settled s' t := by
  have hi := reach_inv hN h
  have hr := reach_rep hN h.any
  obtain ⟨hc, hw⟩ := hs
  cases st with
  | first ht hp => simp [hp, hc, St.go, upd_same, rank, Settled, awWait]
  | firstThrow ht hp => simp [hp, hc, St.go, upd_same, rank, Settled, awWait]
  | awaitCancel threw ht hp => simp [hp, hc, doLeave, St.go, upd_same, rank, Settled, awWait]
  | awaitPrep ht hp => simp [hp, hc, doPrepare, St.go, upd_same, rank, Settled, awWait]
  | check k ht hp => simp [hp, hc, St.go, upd_same, rank, Settled, awWait]
  | checkThrow k ht hp => simp [hp, hc, St.go, upd_same, rank, Settled, awWait]
  | leave aw ht hp => cases aw <;> simp [hp, hc, doLeave, St.go, upd_same, rank, Settled, awWait]
  | look k aw ht hp =>
    cases aw
    · rw [hp] at ha; cases ha
    · have h1 := hw (by rw [hp]; rfl)
      unfold doLook
      rw [if_neg (look_ne hi hr hf ht hp h1.2)]
      simp [hp, hc, St.go, upd_same, rank, Settled, awWait]
  | spurious k aw ht hp =>
    cases aw
    · rw [hp] at ha; cases ha
    · have h1 := hw (by rw [hp]; rfl)
      rw [hp] at h1; cases h1.1
  | prepare ht hp => rw [hp] at ha; cases ha
  | cancel k ht hp => rw [hp] at ha; cases ha
  | wait k ht hp => rw [hp] at ha; cases ha
  | callAll ht hp => rw [hp] at ha; cases ha
  | notifyAll c ht hp => rw [hp] at ha; cases ha
  | wakeAll c ht hp => rw [hp] at ha; cases ha
  | callOne ht hp => rw [hp] at ha; cases ha
  | notifyOne c ht hp => rw [hp] at ha; cases ha
  | wakeOne c v ht hp hv he => rw [hp] at ha; cases ha
  | wakeNone c ht hp hn => rw [hp] at ha; cases ha
  | post ht hp => rw [hp] at ha; cases ha
  | clear ht hp => rw [hp] at ha; cases ha
  | await ht hp => rw [hp] at ha; cases ha

/-- What a step does to another thread. -/
theorem step_other {N t u : Nat} {s s' : St} (st : Step N u s s') (hu : t ≠ u) :
    (s'.pc t = s.pc t ∨ s'.pc t = rouse (s.pc t)) ∧ s'.at_ t = s.at_ t ∧ s.n ≤ s'.n := by
  cases st with
  | look k aw ht hp => unfold doLook; split <;> simp [St.go, upd_apply, hu]
  | notifyAll c ht hp => unfold doNotifyAll; split <;> simp [St.go, upd_apply, hu]
  | notifyOne c ht hp => unfold doNotifyOne; split <;> simp [St.go, upd_apply, hu]
  | wakeOne c v ht hp hv he =>
    simp only [upd_apply, hu, if_false, and_true, Nat.le_refl]
    split
    · rename_i e; rw [e]; exact Or.inr rfl
    · exact Or.inl rfl
  | _ => simp [doPrepare, doLeave, doWakeAll, St.go, upd_apply, hu]

theorem settled_other {N t u : Nat} {s s' : St} (hs : Settled s t) (ha : inAwait (s.pc t) = true) (hu : t ≠ u)
    (st : Step N u s s') (hc : s'.cond = true) : s'.pc t = s.pc t ∧ Settled s' t := by
  obtain ⟨h1, h2, h3⟩ := step_other st hu
  have hp : s'.pc t = s.pc t := by
    rcases h1 with h1 | h1
    · exact h1
    · rw [h1]
      cases hp : s.pc t with
      | asleep k aw =>
        rw [hp] at ha
        have haw : awWait (s.pc t) = true := by rw [hp]; exact ha
        have := (hs.2 haw).1
        rw [hp] at this; cases this
      | _ => rfl
  refine ⟨hp, hc, ?_⟩
  rw [hp, h2]
  intro haw
  have := hs.2 haw
  exact ⟨this.1, by omega⟩

/-- A run in which the condition stays true (and `Few` holds), with the threads that took the steps. -/
inductive Run (N : Nat) : St → List Nat → St → Prop
  | nil (s : St) : Run N s [] s
  | cons {s s1 s' : St} {t : Nat} {l : List Nat} : Few N s → Step N t s s1 → s1.cond = true → Run N s1 l s' → Run N s (t :: l) s'

/-- C21, progress: once the condition is true and the `notify_all` that announces it has returned, a thread in `await` returns
after at most five steps of its own, whatever the others do, as long as the condition stays true. -/
theorem await_returns_partial {N t : Nat} (hN : N < P32) {s s' : St} (h : Reach N s) (hc : s.cond = true)
    (hq : ∀ u, u < N → isNA (s.pc u) = false ∧ isWA (s.pc u) = false) (ht : t < N) (ha : inAwait (s.pc t) = true) {l : List Nat}
    (hrun : Run N s l s') (hl : 5 < l.count t) : ∃ l1 l2 s1, l = l1 ++ l2 ∧ Run N s l1 s1 ∧ inAwait (s1.pc t) = false := by
  have hs := settled_of hN h hc hq ht
  have hk : rank (s.pc t) < l.count t := by
    have : rank (s.pc t) ≤ 5 := by cases s.pc t <;> simp [rank]
    omega
  clear hc hq hl
  induction hrun with
  | nil s => simp at hk
  | @cons s s1 s' u l hf st hc1 _ ih =>
    have hr1 : Reach N s1 := h.step hf st
    by_cases hu : t = u
    · subst hu
      obtain ⟨k1, k2⟩ := settled_own hN h hf hs ha st
      by_cases ha1 : inAwait (s1.pc t) = true
      · obtain ⟨l1, l2, s2, e, r, hx⟩ := ih hr1 ha1 k2 (by simp at hk; omega)
        exact ⟨t :: l1, l2, s2, by rw [e]; rfl, .cons hf st hc1 r, hx⟩
      · exact ⟨[t], l, s1, rfl, .cons hf st hc1 (.nil _), by simpa using ha1⟩
    · obtain ⟨k1, k2⟩ := settled_other hs ha hu st hc1
      obtain ⟨l1, l2, s2, e, r, hx⟩ := ih hr1 (by rw [k1]; exact ha) k2 (by
        rw [k1]; rw [List.count_cons_of_ne (Ne.symm hu)] at hk; exact hk)
      exact ⟨u :: l1, l2, s2, by rw [e]; rfl, .cons hf st hc1 r, hx⟩

end Verif.EventCount
