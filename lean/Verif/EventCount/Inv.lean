import Verif.EventCount.Model
import Verif.EventCount.Count

/-! Invariants of the event count. -/
namespace Verif.EventCount

theorem upd_same {α : Type} (f : Nat → α) (i : Nat) (v : α) : upd f i v i = v := by simp [upd]
theorem upd_ne {α : Type} (f : Nat → α) {i j : Nat} (v : α) (h : j ≠ i) : upd f i v j = f j := by simp [upd, h]
theorem upd_apply {α : Type} (f : Nat → α) (i j : Nat) (v : α) : upd f i v j = if j = i then v else f j := rfl

@[simp] theorem reg_rouse (p : Pc) : reg (rouse p) = reg p := by cases p <;> rfl

/-- The number of threads between `prepare_wait` and the end of `wait` or `cancel_wait`. -/
def waiters (N : Nat) (s : St) : Nat := num N fun t => reg (s.pc t)

def InvRep (N : Nat) (s : St) : Prop := Rep s.val s.n (waiters N s)

theorem waiters_go {N t : Nat} {pc pc' : Nat → Pc} (ht : t < N) (h : ∀ u, u ≠ t → reg (pc' u) = reg (pc u)) :
    (num N fun u => reg (pc' u)) + (if reg (pc t) then 1 else 0) = (num N fun u => reg (pc u)) + (if reg (pc' t) then 1 else 0) :=
  num_change ht fun u hu => (h u hu).symm

theorem rep_same {N t : Nat} {s : St} {p : Pc} (h : InvRep N s) (ht : t < N) (hp : reg p = reg (s.pc t)) :
    Rep s.val s.n (num N fun u => reg (upd s.pc t p u)) := by
  have := waiters_go (pc := s.pc) (pc' := upd s.pc t p) ht (fun u hu => by rw [upd_ne _ _ hu])
  rw [upd_same, hp] at this
  have e : (num N fun u => reg (upd s.pc t p u)) = waiters N s := by unfold waiters; omega
  rw [e]; exact h

theorem rep_step {N t : Nat} (hN : N < P32) {s s' : St} (h : InvRep N s) (st : Step N t s s') : InvRep N s' := by
  have prep : ∀ p : Nat → Pc, t < N → reg (s.pc t) = false → (∀ k, reg (p k) = true) → InvRep N (doPrepare s t p) := by
    intro p ht h0 h1
    have hw := waiters_go (pc := s.pc) (pc' := upd s.pc t (p (epochOf s.val))) ht (fun u hu => by rw [upd_ne _ _ hu])
    rw [upd_same, h0, h1] at hw
    have hlt : waiters N s < N := num_lt (f := fun u => reg (s.pc u)) ht h0
    have e : (num N fun u => reg (upd s.pc t (p (epochOf s.val)) u)) = waiters N s + 1 := by
      unfold waiters; simp at hw; omega
    unfold InvRep waiters doPrepare St.go
    simp only
    rw [e]
    exact Rep.addWaiter h (by omega)
  have leave : ∀ p : Pc, t < N → reg (s.pc t) = true → reg p = false → InvRep N (doLeave s t p) := by
    intro p ht h0 h1
    have hw := waiters_go (pc := s.pc) (pc' := upd s.pc t p) ht (fun u hu => by rw [upd_ne _ _ hu])
    rw [upd_same, h0, h1] at hw
    have e : waiters N s = (num N fun u => reg (upd s.pc t p u)) + 1 := by
      unfold waiters; simp at hw; omega
    unfold InvRep at h ⊢
    rw [e] at h
    unfold waiters doLeave St.go
    simp only
    exact Rep.subWaiter h
  have same : ∀ p : Pc, t < N → reg p = reg (s.pc t) → Rep s.val s.n (num N fun u => reg (upd s.pc t p u)) :=
    fun p ht hp => rep_same h ht hp
  cases st with
  | prepare ht hp => exact prep _ ht (by rw [hp]; rfl) fun _ => rfl
  | cancel k ht hp => exact leave _ ht (by rw [hp]; rfl) rfl
  | wait k ht hp => exact same _ ht (by rw [hp]; rfl)
  | look k aw ht hp =>
    unfold doLook
    split
    · exact same _ ht (by rw [hp]; rfl)
    · exact same _ ht (by rw [hp]; rfl)
  | spurious k aw ht hp => exact same _ ht (by rw [hp]; rfl)
  | leave aw ht hp => exact leave _ ht (by rw [hp]; rfl) (by cases aw <;> rfl)
  | callAll ht hp => exact same _ ht (by rw [hp]; rfl)
  | notifyAll c ht hp =>
    unfold doNotifyAll
    split
    · exact (same (.wakeAll c) ht (by rw [hp]; rfl)).addEpoch
    · exact (same .idle ht (by rw [hp]; rfl)).addEpoch
  | wakeAll c ht hp =>
    have hw : (num N fun u => reg (upd (fun u => rouse (s.pc u)) t .idle u)) = waiters N s := num_congr fun u hu => by
      by_cases e : u = t
      · rw [e, upd_same, hp]; rfl
      · rw [upd_ne _ _ e, reg_rouse]
    show Rep s.val s.n (num N fun u => reg (upd (fun u => rouse (s.pc u)) t .idle u))
    rw [hw]; exact h
  | callOne ht hp => exact same _ ht (by rw [hp]; rfl)
  | notifyOne c ht hp =>
    unfold doNotifyOne
    split
    · exact (same (.wakeOne c) ht (by rw [hp]; rfl)).addEpoch
    · exact (same .idle ht (by rw [hp]; rfl)).addEpoch
  | wakeOne c v ht hp hv he =>
    have hw : (num N fun u => reg (upd (upd s.pc v (rouse (s.pc v))) t .idle u)) = waiters N s := num_congr fun u hu => by
      by_cases e : u = t
      · rw [e, upd_same, hp]; rfl
      · rw [upd_ne _ _ e, upd_apply]; split
        · rename_i e; rw [e, reg_rouse]
        · rfl
    show Rep s.val s.n (num N fun u => reg (upd (upd s.pc v (rouse (s.pc v))) t .idle u))
    rw [hw]; exact h
  | wakeNone c ht hp hn => exact same _ ht (by rw [hp]; rfl)
  | post ht hp => exact same _ ht (by rw [hp]; rfl)
  | clear ht hp => exact same _ ht (by rw [hp])
  | await ht hp => exact same _ ht (by rw [hp]; rfl)
  | first ht hp => exact same _ ht (by rw [hp]; split <;> rfl)
  | firstThrow ht hp => exact same _ ht (by rw [hp]; rfl)
  | awaitPrep ht hp => exact prep _ ht (by rw [hp]; rfl) fun _ => rfl
  | check k ht hp => exact same _ ht (by rw [hp]; split <;> rfl)
  | checkThrow k ht hp => exact same _ ht (by rw [hp]; rfl)
  | awaitCancel threw ht hp => exact leave _ ht (by rw [hp]; rfl) rfl

theorem rep_start (N : Nat) : InvRep N St.start := by
  have : waiters N St.start = 0 := num_zero.2 fun _ _ => rfl
  unfold InvRep; rw [this]; unfold Rep P32 St.start; simp

theorem reach_rep {N : Nat} (hN : N < P32) {s : St} (h : ReachAny N s) : InvRep N s := by
  induction h with
  | start => exact rep_start N
  | step _ st ih => exact rep_step hN ih st

theorem Reach.any {N : Nat} {s : St} (h : Reach N s) : ReachAny N s := by
  induction h with
  | start => exact .start
  | step _ _ st ih => exact ih.step st

/-- The key a thread holds. -/
def keyOf : Pc → Option Nat
  | .prepared k | .waiting k _ | .asleep k _ | .check k => some k
  | _ => none

/-- The time of the call of the notification a thread is in. -/
def callOf : Pc → Option Nat
  | .notifyAll c | .wakeAll c | .notifyOne c | .wakeOne c => some c
  | _ => none

def isNA : Pc → Bool
  | .notifyAll _ => true
  | _ => false

def isWA : Pc → Bool
  | .wakeAll _ => true
  | _ => false

/-- In `wait` on behalf of `await`, not yet leaving. -/
def awWait : Pc → Bool
  | .waiting _ aw | .asleep _ aw => aw
  | _ => false

/-- Some thread is about to execute the addition of a `notify_all`. -/
def Pend (N : Nat) (s : St) : Prop := ∃ u, u < N ∧ isNA (s.pc u) = true
/-- Some thread is about to wake everybody. -/
def Wake (N : Nat) (s : St) : Prop := ∃ u, u < N ∧ isWA (s.pc u) = true

structure Inv (N : Nat) (s : St) : Prop where
  atle : ∀ t, s.at_ t ≤ s.n
  key : ∀ t k, t < N → keyOf (s.pc t) = some k → k = s.at_ t % P32
  slept : ∀ t, t < N → isAsleep (s.pc t) = true → s.slept t = s.at_ t
  clk : ∀ t, s.prepAt t ≤ s.clock
  call : ∀ t c, t < N → callOf (s.pc t) = some c → c ≤ s.clock
  bestle : s.best ≤ s.clock
  wk : ∀ u t c, u < N → t < N → s.pc u = .wakeAll c ∨ s.pc u = .wakeOne c → reg (s.pc t) = true → s.prepAt t < c → s.at_ t < s.n
  best : ∀ t, t < N → reg (s.pc t) = true → s.prepAt t < s.best → s.at_ t < s.n ∧ isAsleep (s.pc t) = false
  aw1 : s.cond = true → ∀ t, t < N → awWait (s.pc t) = true → Pend N s ∨ s.at_ t < s.n
  aw2 : s.cond = true → ∀ t, t < N → awWait (s.pc t) = true → isAsleep (s.pc t) = true → Pend N s ∨ Wake N s

end Verif.EventCount
