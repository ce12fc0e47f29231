import Verif.LazyPool.InvThief
import Verif.LazyPool.InvStop

/-! Infinite schedules and fairness. -/
namespace Verif.LazyPool
open Verif.EventCount

theorem idx_step {c : Cfg} {a : Actor} {s s' : St} (h : ∀ w, s.pc w = .sc2 ∨ s.pc w = .sc3 → s.idx w < c.D) (st : Step c a s s') :
    ∀ w, s'.pc w = .sc2 ∨ s'.pc w = .sc3 → s'.idx w < c.D := by
  cases st <;> simp only [doWake, doPop, doPrep, doCancel, St.bump, doUnthief, doSleep, doAct, doNext, St.go, upd_apply, LazyPool.rouse, Eligible] at * <;> grind

theorem reach_idx {c : Cfg} {s : St} (h : Reach c s) : ∀ w, s.pc w = .sc2 ∨ s.pc w = .sc3 → s.idx w < c.D := by
  induction h with
  | start => simp [St.start]
  | step _ _ st ih => exact idx_step ih st

/-- The actor can take a step and is obliged to: a worker unless it is blocked in `wait`, waits for `latch_stop` or has returned;
a submission once it has begun; the destructor once it has begun, except that it waits for the workers at the end. -/
def Ready (c : Cfg) (s : St) : Actor → Prop
  | .worker w => w < c.N ∧ s.pc w ≠ .asleep ∧ s.pc w ≠ .fin4 ∧ (s.pc w = .fin3 → s.latch = 0)
  | .submit j => s.call j ≠ .unsent ∧ s.call j ≠ .returned
  | .dtor => s.dpc ≠ .alive ∧ s.dpc ≠ .gone ∧ (s.dpc = .joining → ∀ w, w < c.N → s.pc w = .fin4)

/-- An actor that is `Ready` can take a step. -/
theorem ready_step {c : Cfg} {s : St} {a : Actor} (h : Ready c s a) : ∃ s', Step c a s s' := by
  cases a with
  | worker w =>
    obtain ⟨hw, h1, h2, h3⟩ := h
    cases hp : s.pc w with
    | wake => exact ⟨_, .wake s w hw hp⟩
    | pop1 =>
      by_cases hi : s.inbox w = []
      · exact ⟨_, .pop1None s w hw hp hi⟩
      · exact ⟨_, .pop1Some s w hw hp hi⟩
    | steal => exact ⟨_, .stealNone s w hw hp⟩
    | prep => exact ⟨_, .prep s w hw hp⟩
    | pop2 =>
      by_cases hi : s.inbox w = []
      · exact ⟨_, .pop2None s w hw hp hi⟩
      · exact ⟨_, .pop2Some s w hw hp hi⟩
    | cancelPop => exact ⟨_, .cancelPop s w hw hp⟩
    | stopChk =>
      cases hs : s.stop with
      | false => exact ⟨_, .stopNo s w hw hp hs⟩
      | true => exact ⟨_, .stopYes s w hw hp hs⟩
    | quit1 => exact ⟨_, .quit1 s w hw hp⟩
    | quit2 =>
      cases hm : s.must (c.dom w) with
      | true => exact ⟨_, .quit2 s w hw hp hm⟩
      | false => exact ⟨_, .quit2None s w hw hp hm⟩
    | quit3 => exact ⟨_, .quit3 s w hw hp⟩
    | quit4 => exact ⟨_, .quit4 s w hw hp⟩
    | fin1 => exact ⟨_, .fin1 s w hw hp⟩
    | fin2 => exact ⟨_, .fin2 s w hw hp⟩
    | fin3 => exact ⟨_, .fin3 s w hw hp (h3 hp)⟩
    | fin4 => exact absurd hp h2
    | dec =>
      by_cases ht : s.thief (c.dom w) = 1
      · exact ⟨_, .decLast s w hw hp ht⟩
      · exact ⟨_, .decMore s w hw hp ht⟩
    | chk =>
      by_cases ht : s.active > 0
      · exact ⟨_, .chkYes s w hw hp ht⟩
      · exact ⟨_, .chkNo s w hw hp ht⟩
    | cancelWake => exact ⟨_, .cancelWake s w hw hp⟩
    | look =>
      by_cases he : epochOf (s.val (c.dom w)) = s.key w
      · exact ⟨_, .lookSame s w hw hp he⟩
      · exact ⟨_, .lookDiff s w hw hp he⟩
    | asleep => exact absurd hp h1
    | leave => exact ⟨_, .leave s w hw hp⟩
    | tws1 =>
      by_cases ht : s.thief (c.dom w) = 1
      · exact ⟨_, .tws1Last s w hw hp ht⟩
      · exact ⟨_, .tws1More s w hw hp ht⟩
    | tws2 =>
      cases hm : s.must (c.dom w) with
      | true => exact ⟨_, .tws2 s w hw hp hm⟩
      | false => exact ⟨_, .tws2None s w hw hp hm⟩
    | tws3 =>
      by_cases he : ∃ v, v < c.N ∧ Eligible c s (c.dom w) v
      · obtain ⟨v, hv, he⟩ := he; exact ⟨_, .tws3 s w v hw hp hv he⟩
      · exact ⟨_, .tws3None s w hw hp fun v hv he' => he ⟨v, hv, he'⟩⟩
    | act =>
      by_cases ht : s.active = 0
      · exact ⟨_, .actFirst s w hw hp ht⟩
      · exact ⟨_, .actMore s w hw hp ht⟩
    | scan =>
      by_cases hi : s.idx w < c.D
      · by_cases ht : s.thief (s.idx w) = 0
        · exact ⟨_, .scanNone s w hw hp hi ht⟩
        · exact ⟨_, .scanSome s w hw hp hi ht⟩
      · exact ⟨_, .scanEnd s w hw hp hi⟩
    | sc2 =>
      cases hm : s.must (s.idx w) with
      | true => exact ⟨_, .sc2 s w hw hp hm⟩
      | false => exact ⟨_, .sc2None s w hw hp hm⟩
    | sc3 =>
      by_cases he : ∃ v, v < c.N ∧ Eligible c s (s.idx w) v
      · obtain ⟨v, hv, he⟩ := he; exact ⟨_, .sc3 s w v hw hp hv he⟩
      · exact ⟨_, .sc3None s w hw hp fun v hv he' => he ⟨v, hv, he'⟩⟩
    | work =>
      cases hh : s.hand w with
      | nil => exact ⟨_, .runEnd s w hw hp hh⟩
      | cons j js => exact ⟨_, .run s w j js hw hp hh⟩
    | deact => exact ⟨_, .deact s w hw hp⟩
  | submit j =>
    obtain ⟨h1, h2⟩ := h
    cases hp : s.call j with
    | unsent => exact absurd hp h1
    | returned => exact absurd hp h2
    | pushed w =>
      cases hm : s.must (c.dom w) with
      | true => exact ⟨_, .notify s j w hp hm⟩
      | false => exact ⟨_, .notifyNone s j w hp hm⟩
    | waking w => exact ⟨_, .rouse s j w hp⟩
  | dtor =>
    obtain ⟨h1, h2, h3⟩ := h
    cases hp : s.dpc with
    | alive => exact absurd hp h1
    | gone => exact absurd hp h2
    | joining => exact ⟨_, .djoin s hp (h3 hp)⟩
    | rousing i => exact ⟨_, .drouse s i hp⟩
    | notify i =>
      by_cases hi : i < c.D
      · cases hm : s.must i with
        | true => exact ⟨_, .dnotify s i hp hi hm⟩
        | false => exact ⟨_, .dnotifyNone s i hp hi hm⟩
      · exact ⟨_, .dlast s i hp hi⟩

/-- An infinite schedule; at some times nothing happens. -/
structure Run (c : Cfg) where
  st : Nat → St
  who : Nat → Option Actor
  start : st 0 = St.start c
  few : ∀ t, Few c (st t)
  next : ∀ t, (who t = none ∧ st (t + 1) = st t) ∨ ∃ a, who t = some a ∧ Step c a (st t) (st (t + 1))

/-- Weak fairness: no actor is ready for ever without taking a step. -/
def Run.Fair {c : Cfg} (r : Run c) : Prop := ∀ a t, ∃ t', t ≤ t' ∧ (¬ Ready c (r.st t') a ∨ r.who t' = some a)

theorem Run.reach {c : Cfg} (r : Run c) (t : Nat) : Reach c (r.st t) := by
  induction t with
  | zero => rw [r.start]; exact .start
  | succ t ih =>
    rcases r.next t with ⟨_, e⟩ | ⟨a, _, st⟩
    · rw [e]; exact ih
    · exact ih.step (r.few t) st

/-- While `P` lasts the actor `a` is ready; nobody raises the measure and `a` lowers it, or `Q` comes. -/
theorem Run.leads {c : Cfg} {r : Run c} (hf : r.Fair) (a : Actor) (P Q : Nat → Prop) (m : Nat → Nat)
    (hr : ∀ t, P t → Ready c (r.st t) a)
    (hs : ∀ t, P t → Q (t + 1) ∨ (P (t + 1) ∧ m (t + 1) ≤ m t ∧ (r.who t = some a → m (t + 1) < m t))) :
    ∀ t, P t → ∃ t', t ≤ t' ∧ Q t' := by
  have main : ∀ k t, m t ≤ k → P t → ∃ t', t ≤ t' ∧ Q t' := by
    intro k
    induction k with
    | zero =>
      intro t hm hp
      obtain ⟨t', hle, hh⟩ := hf a t
      have walk : ∀ d, (∃ x, t ≤ x ∧ Q x) ∨ (P (t + d) ∧ m (t + d) ≤ m t) := by
        intro d
        induction d with
        | zero => exact .inr ⟨hp, Nat.le_refl _⟩
        | succ d ih =>
          rcases ih with ih | ⟨i1, i2⟩
          · exact .inl ih
          · rcases hs _ i1 with q | ⟨p, q, _⟩
            · exact .inl ⟨_, by omega, q⟩
            · exact .inr ⟨p, by rw [← Nat.add_assoc]; omega⟩
      rcases walk (t' - t) with q | ⟨p, q⟩
      · exact q
      · rw [Nat.add_sub_cancel' hle] at p q
        rcases hh with hh | hh
        · exact absurd (hr _ p) hh
        · rcases hs _ p with x | ⟨_, _, x⟩
          · exact ⟨_, by omega, x⟩
          · have := x hh; omega
    | succ k ih =>
      intro t hm hp
      obtain ⟨t', hle, hh⟩ := hf a t
      have walk : ∀ d, (∃ x, t ≤ x ∧ Q x) ∨ (P (t + d) ∧ m (t + d) ≤ m t) := by
        intro d
        induction d with
        | zero => exact .inr ⟨hp, Nat.le_refl _⟩
        | succ d ih =>
          rcases ih with ih | ⟨i1, i2⟩
          · exact .inl ih
          · rcases hs _ i1 with q | ⟨p, q, _⟩
            · exact .inl ⟨_, by omega, q⟩
            · exact .inr ⟨p, by rw [← Nat.add_assoc]; omega⟩
      rcases walk (t' - t) with q | ⟨p, q⟩
      · exact q
      · rw [Nat.add_sub_cancel' hle] at p q
        rcases hh with hh | hh
        · exact absurd (hr _ p) hh
        · rcases hs _ p with x | ⟨p', _, x⟩
          · exact ⟨_, by omega, x⟩
          · have := x hh
            obtain ⟨y, hy, hq⟩ := ih (t' + 1) (by omega) p'
            exact ⟨y, by omega, hq⟩
  exact fun t => main (m t) t (Nat.le_refl _)

/-- The same, step by step. -/
theorem Run.leads' {c : Cfg} {r : Run c} (hf : r.Fair) (a : Actor) (P Q : St → Prop) (m : St → Nat) (G : Nat → Prop)
    (hG : ∀ t, G t → G (t + 1))
    (hr : ∀ t, G t → P (r.st t) → ¬ Q (r.st t) → Ready c (r.st t) a)
    (hs : ∀ t b, G t → P (r.st t) → ¬ Q (r.st t) → Step c b (r.st t) (r.st (t + 1)) →
      Q (r.st (t + 1)) ∨ (P (r.st (t + 1)) ∧ m (r.st (t + 1)) ≤ m (r.st t) ∧ (b = a → m (r.st (t + 1)) < m (r.st t)))) :
    ∀ t, G t → P (r.st t) → ∃ t', t ≤ t' ∧ Q (r.st t') := by
  intro t hg hp
  by_cases hq : Q (r.st t)
  · exact ⟨t, Nat.le_refl _, hq⟩
  refine Run.leads hf a (fun t => G t ∧ P (r.st t) ∧ ¬ Q (r.st t)) (fun t => Q (r.st t)) (fun t => m (r.st t))
    (fun t h => hr t h.1 h.2.1 h.2.2) (fun t h => ?_) t ⟨hg, hp, hq⟩
  obtain ⟨h1, h2, h3⟩ := h
  rcases r.next t with ⟨e1, e2⟩ | ⟨b, e1, st⟩
  · right
    refine ⟨⟨hG t h1, by rw [e2]; exact h2, by rw [e2]; exact h3⟩, by rw [e2]; exact Nat.le_refl _, by rw [e1]; intro h; cases h⟩
  · rcases hs t b h1 h2 h3 st with q | ⟨q1, q2, q3⟩
    · exact .inl q
    · by_cases hq : Q (r.st (t + 1))
      · exact .inl hq
      · exact .inr ⟨⟨hG t h1, q1, hq⟩, q2, fun h => q3 (by rw [e1] at h; exact Option.some.inj h)⟩

end Verif.LazyPool
