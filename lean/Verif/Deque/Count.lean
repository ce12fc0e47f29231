import Verif.Deque.Sim
import Mathlib.Algebra.BigOperators.Group.Finset.Basic

/-! Counting what the specification machine does. -/
namespace Verif.Deque
open Finset
variable {ι V : Type} [DecidableEq ι]

/-- Values in the hands of the owner's current call. -/
def oPart (p : V → Bool) : AO V → Nat
  | .pend (.push v) | .done (.threw v) | .done (.got v) => if p v then 1 else 0
  | _ => 0

def tPart (p : V → Bool) : AT V → Nat
  | .done (.got v) => if p v then 1 else 0
  | _ => 0

theorem sum_setT (f : AT V → Nat) (g : ι → AT V) (L : Finset ι) {i : ι} (hi : i ∈ L) (x : AT V) :
    (∑ j ∈ L, f (setT g i x j)) + f (g i) = (∑ j ∈ L, f (g j)) + f x := by
  rw [← Finset.sum_erase_add _ _ hi, ← Finset.sum_erase_add L (fun j => f (g j)) hi]
  have : ∑ j ∈ L.erase i, f (setT g i x j) = ∑ j ∈ L.erase i, f (g j) := by
    apply Finset.sum_congr rfl
    intro j hj
    rw [setT_ne _ _ (Finset.ne_of_mem_erase hj)]
  rw [this, setT_self]
  omega

theorem sum_insert_idle {p : V → Bool} {g : ι → AT V} {L : Finset ι} (hL : ∀ i, i ∉ L → g i = .idle) (i : ι) :
    ∑ j ∈ insert i L, tPart p (g j) = ∑ j ∈ L, tPart p (g j) := by
  by_cases hi : i ∈ L
  · rw [Finset.insert_eq_of_mem hi]
  · rw [Finset.sum_insert hi, hL i hi]; simp [tPart]

structure Bal (p : V → Bool) (h : List (Ev ι V)) (a : AState ι V) (L : Finset ι) : Prop where
  idle : ∀ i, i ∉ L → a.thief i = .idle
  bal : pushesInvoked p h = handedOut p h + pushesThrew p h + a.q.countP p + oPart p a.owner + ∑ i ∈ L, tPart p (a.thief i)

theorem Bal.thief {p : V → Bool} {h h' : List (Ev ι V)} {a : AState ι V} {L : Finset ι} (b : Bal p h a L) (i : ι) (x : AT V)
    (q : List V)
    (hb : pushesInvoked p h + handedOut p h' + pushesThrew p h' + q.countP p + tPart p x =
      pushesInvoked p h' + handedOut p h + pushesThrew p h + a.q.countP p + tPart p (a.thief i)) :
    Bal p h' { a with q := q, thief := setT a.thief i x } (insert i L) := by
  refine ⟨fun j hj => ?_, ?_⟩
  · rw [Finset.mem_insert, not_or] at hj
    dsimp only
    rw [setT_ne _ _ hj.1]
    exact b.idle j hj.2
  · have h1 := sum_setT (tPart p) a.thief (insert i L) (Finset.mem_insert_self i L) x
    have h2 := sum_insert_idle (p := p) b.idle i
    have h3 := b.bal
    dsimp only
    omega

theorem bal_note {p : V → Bool} {h : List (Ev ι V)} {a : AState ι V} {L : Finset ι} (b : Bal p h a L) (S : ι → Bool)
    (hS : ∀ i, S i = true → ∃ d, a.thief i = .pend d) :
    Bal p h { a with thief := fun i => if S i = true then .pend true else a.thief i } L := by
  refine ⟨fun i hi => ?_, ?_⟩
  · dsimp only
    split
    · rename_i h1
      obtain ⟨d, hd⟩ := hS i h1
      rw [b.idle i hi] at hd; cases hd
    · exact b.idle i hi
  · rw [b.bal]
    congr 1
    apply Finset.sum_congr rfl
    intro i _
    dsimp only
    split
    · rename_i h1
      obtain ⟨d, hd⟩ := hS i h1
      rw [hd]; rfl
    · rfl

theorem bal_step {p : V → Bool} {h : List (Ev ι V)} {a a' : AState ι V} {L : Finset ι} {e : Option (Ev ι V)}
    (b : Bal p h a L) (hs : AStep a e a') : ∃ L', Bal p (h ++ e.toList) a' L' := by
  have hb := b.bal
  cases hs with
  | @oinv op ho =>
    refine ⟨L, b.idle, ?_⟩
    rw [ho] at hb
    cases op <;> simp_all [pushesInvoked, handedOut, pushesThrew, oPart, List.countP_cons] <;> omega
  | @ores r ho =>
    refine ⟨L, b.idle, ?_⟩
    rw [ho] at hb
    cases r <;> simp_all [pushesInvoked, handedOut, pushesThrew, oPart, List.countP_cons] <;> omega
  | @sinv i ho =>
    refine ⟨_, b.thief i (.pend false) a.q ?_⟩
    rw [ho]
    simp [pushesInvoked, handedOut, pushesThrew, tPart]
  | @sres i r ho =>
    refine ⟨_, b.thief i .idle a.q ?_⟩
    rw [ho]
    cases r <;> simp [pushesInvoked, handedOut, pushesThrew, tPart, List.countP_cons]
    omega
  | @linPush v ho =>
    refine ⟨L, b.idle, ?_⟩
    rw [ho] at hb
    simp_all [oPart, List.countP_append, List.countP_cons]; omega
  | @linThrow v ho =>
    refine ⟨L, b.idle, ?_⟩
    rw [ho] at hb
    simp_all [oPart]
  | @linPop q v ho hq =>
    refine ⟨L, b.idle, ?_⟩
    rw [ho, hq] at hb
    simp_all [oPart, List.countP_append, List.countP_cons]; omega
  | linPopEmpty ho hq =>
    refine ⟨L, b.idle, ?_⟩
    rw [ho] at hb
    simp_all [oPart]
  | linSize ho =>
    refine ⟨L, b.idle, ?_⟩
    rw [ho] at hb
    simp_all [oPart]
  | @linSteal q v i d ho hq =>
    refine ⟨_, b.thief i _ q ?_⟩
    rw [ho, hq]
    simp [tPart, List.countP_cons]
    omega
  | @linStealEmpty i d ho hq =>
    refine ⟨_, b.thief i _ a.q ?_⟩
    rw [ho]; simp [tPart]
  | @linStealLost i ho =>
    refine ⟨_, b.thief i _ a.q ?_⟩
    rw [ho]; simp [tPart]
  | @noteO v S ho hS => exact ⟨L, by simpa using bal_note b S hS⟩
  | @noteT v S w ho hS => exact ⟨L, by simpa using bal_note b S hS⟩

theorem bal_hist (p : V → Bool) {h : List (Ev ι V)} {a : AState ι V} (ha : AHist h a) : ∃ L, Bal p h a L := by
  induction ha with
  | init => exact ⟨∅, fun _ _ => rfl, by simp [pushesInvoked, handedOut, pushesThrew, AState.init, oPart]⟩
  | tau _ hs ih => obtain ⟨L, b⟩ := ih; simpa using bal_step b hs
  | vis _ hs ih => obtain ⟨L, b⟩ := ih; simpa using bal_step b hs

/-- Calls and returns alternate. -/
theorem calls_hist {h : List (Ev ι V)} {a : AState ι V} (ha : AHist h a) :
    (match a.owner with | .idle => ownerInvs h = ownerRets h | _ => ownerInvs h = ownerRets h + 1) ∧
    ∀ i, match a.thief i with | .idle => thiefInvs i h = thiefRets i h | _ => thiefInvs i h = thiefRets i h + 1 := by
  induction ha with
  | init => simp [AState.init, ownerInvs, ownerRets, thiefInvs, thiefRets]
  | @tau h a a' _ hs ih =>
    obtain ⟨ih1, ih2⟩ := ih
    cases hs with
    | linPush ho => rw [ho] at ih1; exact ⟨ih1, ih2⟩
    | linThrow ho => rw [ho] at ih1; exact ⟨ih1, ih2⟩
    | linPop ho => rw [ho] at ih1; exact ⟨ih1, ih2⟩
    | linPopEmpty ho => rw [ho] at ih1; exact ⟨ih1, ih2⟩
    | linSize ho => rw [ho] at ih1; exact ⟨ih1, ih2⟩
    | @linSteal q v i d ho hq =>
      refine ⟨ih1, fun j => ?_⟩
      have := ih2 j
      by_cases hj : j = i
      · subst hj; rw [ho] at this; simpa [setT] using this
      · simpa [setT, hj] using this
    | @linStealEmpty i d ho hq =>
      refine ⟨ih1, fun j => ?_⟩
      have := ih2 j
      by_cases hj : j = i
      · subst hj; rw [ho] at this; simpa [setT] using this
      · simpa [setT, hj] using this
    | @linStealLost i ho =>
      refine ⟨ih1, fun j => ?_⟩
      have := ih2 j
      by_cases hj : j = i
      · subst hj; rw [ho] at this; simpa [setT] using this
      · simpa [setT, hj] using this
    | @noteO v S ho hS =>
      refine ⟨ih1, fun j => ?_⟩
      have := ih2 j
      dsimp only
      by_cases hj : S j = true
      · obtain ⟨d, hd⟩ := hS j hj; rw [hd] at this; simpa [hj] using this
      · simpa [hj] using this
    | @noteT v S w ho hS =>
      refine ⟨ih1, fun j => ?_⟩
      have := ih2 j
      dsimp only
      by_cases hj : S j = true
      · obtain ⟨d, hd⟩ := hS j hj; rw [hd] at this; simpa [hj] using this
      · simpa [hj] using this
  | @vis h a e a' _ hs ih =>
    obtain ⟨ih1, ih2⟩ := ih
    cases hs with
    | oinv ho =>
      rw [ho] at ih1
      exact ⟨by simpa [ownerInvs, ownerRets] using ih1, fun i => by simpa [thiefInvs, thiefRets] using ih2 i⟩
    | ores ho =>
      rw [ho] at ih1
      exact ⟨by simpa [ownerInvs, ownerRets] using ih1, fun i => by simpa [thiefInvs, thiefRets] using ih2 i⟩
    | @sinv i ho =>
      refine ⟨by simpa [ownerInvs, ownerRets] using ih1, fun j => ?_⟩
      have := ih2 j
      by_cases hj : j = i
      · subst hj; rw [ho] at this; simpa [setT, thiefInvs, thiefRets] using this
      · simpa [setT, hj, thiefInvs, thiefRets, Ne.symm hj, List.countP_cons] using this
    | @sres i r ho =>
      refine ⟨by simpa [ownerInvs, ownerRets] using ih1, fun j => ?_⟩
      have := ih2 j
      by_cases hj : j = i
      · subst hj; rw [ho] at this; simpa [setT, thiefInvs, thiefRets] using this
      · simpa [setT, hj, thiefInvs, thiefRets, Ne.symm hj, List.countP_cons] using this

/-- At the end of a quiescent history the machine is at rest. -/
theorem rest_of_quiescent {h : List (Ev ι V)} {a : AState ι V} (ha : AHist h a) (hq : Quiescent h) :
    a.owner = .idle ∧ ∀ i, a.thief i = .idle := by
  obtain ⟨h1, h2⟩ := calls_hist ha
  constructor
  · cases ho : a.owner with
    | idle => rfl
    | pend _ => rw [ho] at h1; have := hq.1; dsimp only at h1; omega
    | done _ => rw [ho] at h1; have := hq.1; dsimp only at h1; omega
  · intro i
    have h3 := h2 i
    have h4 := hq.2 i
    cases ho : a.thief i with
    | idle => rfl
    | pend _ => rw [ho] at h3; dsimp only at h3; omega
    | done _ => rw [ho] at h3; dsimp only at h3; omega

/-- At rest, everything pushed has been handed out or is still there. -/
theorem outstanding {h : List (Ev ι V)} {a : AState ι V} (p : V → Bool) (ha : AHist h a) (hq : Quiescent h) :
    pushesInvoked p h = handedOut p h + pushesThrew p h + a.q.countP p := by
  obtain ⟨h1, h2⟩ := rest_of_quiescent ha hq
  obtain ⟨L, b⟩ := bal_hist p ha
  have := b.bal
  rw [h1, Finset.sum_eq_zero (fun i _ => by rw [h2 i]; rfl)] at this
  simpa [oPart] using this

theorem ATau.trans {a b c : AState ι V} (h : ATau a b) (h2 : ATau b c) : ATau a c := by
  induction h with
  | refl => exact h2
  | head s _ ih => exact .head s (ih h2)

/-- The last visible step of a history. -/
theorem AHist.last {h : List (Ev ι V)} {e : Ev ι V} {a : AState ι V} (ha : AHist (h ++ [e]) a) :
    ∃ b b', AHist h b ∧ AStep b (some e) b' ∧ ATau b' a := by
  generalize hg : h ++ [e] = g at ha
  induction ha with
  | init => simp at hg
  | tau _ hs ih =>
    obtain ⟨b, b', h1, h2, h3⟩ := ih hg
    exact ⟨b, b', h1, h2, h3.trans (.one hs)⟩
  | vis hh hs _ =>
    obtain ⟨rfl, h2⟩ := List.append_inj' hg rfl
    simp only [List.cons.injEq, and_true] at h2
    subst h2
    exact ⟨_, _, hh, hs, .refl⟩

/-- A `pop` on its own. -/
theorem solo_pop {a b : AState ι V} (ht : ∀ i, a.thief i = .idle) (h : ATau a b)
    (q0 : List V) (hi : (a.owner = .pend .pop ∧ a.q = q0) ∨ (a.owner = .done .none ∧ q0 = []) ∨
      (∃ v, a.owner = .done (.got v) ∧ ∃ q, q0 = q ++ [v])) :
    (b.owner = .pend .pop ∧ b.q = q0) ∨ (b.owner = .done .none ∧ q0 = []) ∨
      (∃ v, b.owner = .done (.got v) ∧ ∃ q, q0 = q ++ [v]) := by
  induction h with
  | refl => exact hi
  | @head a a' a'' s _ ih =>
    cases s with
    | linPush ho => rcases hi with hi | hi | ⟨v, hi⟩ <;> simp [ho] at hi
    | linThrow ho => rcases hi with hi | hi | ⟨v, hi⟩ <;> simp [ho] at hi
    | linSize ho => rcases hi with hi | hi | ⟨v, hi⟩ <;> simp [ho] at hi
    | @linPop q v ho hq =>
      refine ih ht (.inr (.inr ⟨v, rfl, q, ?_⟩))
      rcases hi with hi | hi | ⟨v, hi⟩
      · rw [← hi.2, hq]
      · simp [ho] at hi
      · simp [ho] at hi
    | linPopEmpty ho hq =>
      refine ih ht (.inr (.inl ⟨rfl, ?_⟩))
      rcases hi with hi | hi | ⟨v, hi⟩
      · rw [← hi.2, hq]
      · simp [ho] at hi
      · simp [ho] at hi
    | @linSteal q v i d ho hq => rw [ht i] at ho; cases ho
    | @linStealEmpty i d ho hq => rw [ht i] at ho; cases ho
    | @linStealLost i ho => rw [ht i] at ho; cases ho
    | @noteO v S ho hS =>
      refine ih (fun i => ?_) hi
      dsimp only
      split
      · rename_i h1; obtain ⟨d, hd⟩ := hS i h1; rw [ht i] at hd; cases hd
      · exact ht i
    | @noteT v S w ho hS => rw [ht w] at ho; cases ho

/-- A `size` on its own. -/
theorem solo_size {a b : AState ι V} (ht : ∀ i, a.thief i = .idle) (h : ATau a b)
    (n : Nat) (hi : (a.owner = .pend .size ∧ a.q.length = n) ∨ a.owner = .done (.size n)) :
    (b.owner = .pend .size ∧ b.q.length = n) ∨ b.owner = .done (.size n) := by
  induction h with
  | refl => exact hi
  | @head a a' a'' s _ ih =>
    cases s with
    | linPush ho => rcases hi with hi | hi <;> simp [ho] at hi
    | linThrow ho => rcases hi with hi | hi <;> simp [ho] at hi
    | linPop ho => rcases hi with hi | hi <;> simp [ho] at hi
    | linPopEmpty ho => rcases hi with hi | hi <;> simp [ho] at hi
    | linSize ho =>
      refine ih ht (.inr ?_)
      rcases hi with hi | hi
      · simp [hi.2]
      · simp [ho] at hi
    | @linSteal q v i d ho hq => rw [ht i] at ho; cases ho
    | @linStealEmpty i d ho hq => rw [ht i] at ho; cases ho
    | @linStealLost i ho => rw [ht i] at ho; cases ho
    | @noteO v S ho hS => rcases hi with hi | hi <;> simp [ho] at hi
    | @noteT v S w ho hS => rw [ht w] at ho; cases ho

/-- A `steal` on its own. -/
theorem solo_steal {a b : AState ι V} (i : ι) (hown : a.owner = .idle) (ht : ∀ j, j ≠ i → a.thief j = .idle) (h : ATau a b)
    (q0 : List V) (hi : (a.thief i = .pend false ∧ a.q = q0) ∨ (a.thief i = .done .empty ∧ q0 = []) ∨
      (∃ v, (a.thief i = .done (.got v)) ∧ ∃ q, q0 = v :: q)) :
    (b.thief i = .pend false ∧ b.q = q0) ∨ (b.thief i = .done .empty ∧ q0 = []) ∨
      (∃ v, (b.thief i = .done (.got v)) ∧ ∃ q, q0 = v :: q) := by
  induction h with
  | refl => exact hi
  | @head a a' a'' s _ ih =>
    cases s with
    | linPush ho => rw [hown] at ho; cases ho
    | linThrow ho => rw [hown] at ho; cases ho
    | linPop ho => rw [hown] at ho; cases ho
    | linPopEmpty ho => rw [hown] at ho; cases ho
    | linSize ho => rw [hown] at ho; cases ho
    | @linSteal q v j d ho hq =>
      by_cases hj : j = i
      · subst hj
        refine ih hown (fun k hk => by simpa [setT, hk] using ht k hk) (.inr (.inr ⟨v, by simp [setT], q, ?_⟩))
        rcases hi with hi | hi | ⟨v, hi⟩
        · rw [← hi.2, hq]
        · simp [ho] at hi
        · simp [ho] at hi
      · rw [ht j hj] at ho; cases ho
    | @linStealEmpty j d ho hq =>
      by_cases hj : j = i
      · subst hj
        refine ih hown (fun k hk => by simpa [setT, hk] using ht k hk) (.inr (.inl ⟨by simp [setT], ?_⟩))
        rcases hi with hi | hi | ⟨v, hi⟩
        · rw [← hi.2, hq]
        · simp [ho] at hi
        · simp [ho] at hi
      · rw [ht j hj] at ho; cases ho
    | @linStealLost j ho =>
      by_cases hj : j = i
      · subst hj
        rcases hi with hi | hi | ⟨v, hi⟩ <;> simp [ho] at hi
      · rw [ht j hj] at ho; cases ho
    | @noteO v S ho hS => rw [hown] at ho; cases ho
    | @noteT v S w ho hS =>
      by_cases hw : w = i
      · subst hw
        have hSS : ∀ k, S k = false := by
          intro k
          by_contra hk
          obtain ⟨d, hd⟩ := hS k (by simpa using hk)
          by_cases hki : k = w
          · subst hki; rw [ho] at hd; cases hd
          · rw [ht k hki] at hd; cases hd
        refine ih hown (fun k hk => by simpa [hSS] using ht k hk) (by simpa [hSS] using hi)
      · rw [ht w hw] at ho; cases ho

end Verif.Deque
