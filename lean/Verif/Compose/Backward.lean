import Verif.Compose.Forward
import Verif.Deque.SimStep

/-!
The runtime over the deque of deque.hpp is simulated, seen backwards, by the runtime over the specification of the queue.
-/
namespace Verif.Compose
open Verif.Runtime
open Verif.Deque (AState absOf WOk ATau back_step seg)
variable {σ V : Type} {maxCap cap : Nat}

abbrev ICS (σ V : Type) (maxCap cap : Nat) := CS σ V (implObj maxCap cap).D

/-- The state over the specification; `ws v` says who wins the race for the last item of the queue of `v`. -/
def absD (dq : Nat → Verif.Deque.St Nat Nat) (ws : Nat → Option Nat) : Nat → AState Nat Nat := fun v => absOf (dq v) (ws v)

def absS (x : ICS σ V maxCap cap) (ws : Nat → Option Nat) : CS σ V specObj.D := ⟨x.c, absD x.dq ws, x.call⟩

theorem own_abs (d : Verif.Deque.St Nat Nat) (w : Option Nat) : specObj.own (absOf d w) = (implObj maxCap cap).own d := by
  have : (absOf d w).q.isEmpty = decide (d.bottom ≤ d.top) := by
    show (seg d.item d.top (d.bottom - d.top).toNat).isEmpty = _
    unfold seg
    rw [Bool.eq_iff_iff]
    simp [List.isEmpty_iff]
    omega
  unfold QObj.own
  show (if (absOf d w).q.isEmpty = true then _ else _) = (if decide (d.bottom ≤ d.top) = true then _ else _)
  rw [this]

theorem absD_upd (dq : Nat → Verif.Deque.St Nat Nat) (ws : Nat → Option Nat) (v : Nat) (d' : Verif.Deque.St Nat Nat) (w : Option Nat) :
    absD (upd dq v d') ws = upd (absD dq (upd ws v w)) v (absOf d' (ws v)) := by
  funext u
  by_cases e : u = v
  · subst e; simp [absD, upd_same]
  · simp [absD, upd_ne _ _ e]

theorem absD_at (dq : Nat → Verif.Deque.St Nat Nat) (ws : Nat → Option Nat) (v : Nat) (w : Option Nat) :
    absD dq (upd ws v w) v = absOf (dq v) w := by simp [absD, upd_same]

variable {body : σ → Act σ V} {pend : σ → Nat}

theorem reach_taus {c : State σ V} {call : Nat → Call} {v : Nat} {a a' : AState Nat Nat} (h : ATau a a') {dq : Nat → AState Nat Nat}
    (ha : dq v = a) (hr : Reach body pend specObj ⟨c, dq, call⟩) : Reach body pend specObj ⟨c, upd dq v a', call⟩ := by
  induction h generalizing dq with
  | @refl a =>
    have : upd dq v a = dq := by
      funext u; unfold upd; split
      · rename_i e; rw [e, ha]
      · rfl
    rw [this]; exact hr
  | @head a b _ hs _ ih =>
    have h1 : Reach body pend specObj ⟨c, upd dq v b, call⟩ := hr.step (Step.tau (M := specObj) v (by
      show Verif.Weak.WStep (dq v) none b
      rw [ha]; exact .spec hs))
    have h2 := ih (upd_same ..) h1
    have : ∀ z, upd (upd dq v b) v z = upd dq v z := by
      intro z; funext u; unfold upd; split <;> rfl
    rw [this] at h2
    exact h2

/-- What is needed of the queues to go one step back. -/
structure Back (x : ICS σ V maxCap cap) : Prop where
  inv : ∀ v, Verif.Deque.Inv maxCap cap (x.dq v)

theorem wok_upd {dq : Nat → Verif.Deque.St Nat Nat} {ws : Nat → Option Nat} {v : Nat} {d' : Verif.Deque.St Nat Nat} {w : Option Nat}
    (h : ∀ u, WOk (upd dq v d' u) (ws u)) (hw : WOk (dq v) w) : ∀ u, WOk (dq u) (upd ws v w u) := by
  intro u
  by_cases e : u = v
  · subst e; rw [upd_same]; exact hw
  · rw [upd_ne _ _ e]; have := h u; rwa [upd_ne _ _ e] at this

/-- One step back: from the state before, over the specification, the same step (preceded by steps inside a queue, if it is one). -/
def Pre (body : σ → Act σ V) (pend : σ → Nat) (x : ICS σ V maxCap cap) : Res (ICS σ V maxCap cap) → Prop
  | .ok x' => ∀ ws', (∀ v, WOk (x'.dq v) (ws' v)) → ∃ ws, (∀ v, WOk (x.dq v) (ws v)) ∧
      (Reach body pend specObj (absS x ws) → Reach body pend specObj (absS x' ws'))
  | .ub => ∃ ws, (∀ v, WOk (x.dq v) (ws v)) ∧ Step body specObj (absS x ws) .ub
  | .no => True

/-- A call to the queue of `v` or its return. -/
theorem vis_back {x : ICS σ V maxCap cap} (hb : Back x) {v : Nat} {e : Verif.Deque.Ev Nat Nat} {d' : Verif.Deque.St Nat Nat}
    (hs : Verif.Deque.Step maxCap (x.dq v) (some e) d') {ws' : Nat → Option Nat} (hw : ∀ u, WOk (upd x.dq v d' u) (ws' u)) :
    ∃ ws, (∀ u, WOk (x.dq u) (ws u)) ∧ specObj.step (absD x.dq ws v) (some e) (absOf d' (ws' v)) ∧
      absD (upd x.dq v d') ws' = upd (absD x.dq ws) v (absOf d' (ws' v)) ∧
      ∀ u, specObj.own (absD x.dq ws u) = (implObj maxCap cap).own (x.dq u) := by
  obtain ⟨w, hw1, hw2⟩ := back_step (hb.inv v) hs (w' := ws' v) (by have := hw v; rwa [upd_same] at this)
  exact ⟨upd ws' v w, wok_upd hw hw1, by rw [absD_at]; exact .spec hw2, absD_upd .., fun u => own_abs ..⟩

/-- ... and the code of the runtime that goes with it. -/
theorem pre_of_vis {x : ICS σ V maxCap cap} (hb : Back x) {v : Nat} {e : Verif.Deque.Ev Nat Nat} {d' : Verif.Deque.St Nat Nat}
    (hs : Verif.Deque.Step maxCap (x.dq v) (some e) d') {call' : Nat → Call} {r : Res (State σ V)}
    (H : ∀ (dqs : Nat → AState Nat Nat) (a' : AState Nat Nat), (∀ u, specObj.own (dqs u) = (implObj maxCap cap).own (x.dq u)) →
      specObj.step (dqs v) (some e) a' →
      Step body specObj ⟨x.c, dqs, x.call⟩ (Res.map (fun c' => ⟨c', upd dqs v a', call'⟩) r)) :
    Pre body pend x (Res.map (fun c' => ⟨c', upd x.dq v d', call'⟩) r) := by
  cases r with
  | ok c' =>
    intro ws' hw
    obtain ⟨ws, h1, h2, h3, h4⟩ := vis_back hb hs hw
    refine ⟨ws, h1, fun hr => ?_⟩
    have := hr.step (H (absD x.dq ws) _ h4 h2)
    unfold absS
    dsimp only
    rw [h3]
    exact this
  | ub =>
    obtain ⟨w, hw1, hw2⟩ := back_step (hb.inv v) hs (Verif.Deque.wok_none d')
    refine ⟨upd (fun _ => none) v w, fun u => ?_, ?_⟩
    · by_cases e : u = v
      · subst e; rw [upd_same]; exact hw1
      · rw [upd_ne _ _ e]; exact Verif.Deque.wok_none _
    · exact H (absD x.dq (upd (fun _ => none) v w)) (absOf d' none) (fun u => own_abs ..) (by rw [absD_at]; exact .spec hw2)
  | no => trivial

theorem pre_step {x : ICS σ V maxCap cap} (hb : Back x) {r : Res (ICS σ V maxCap cap)} (hs : Step body (implObj maxCap cap) x r) :
    Pre body pend x r := by
  cases hs with
  | loc w ch hc hl =>
    have key : ∀ ws, Step body specObj (absS x ws) (Res.map (fun c' => { absS x ws with c := c' })
        (step body w ch (see x.c w ((implObj maxCap cap).own (x.dq w))))) := by
      intro ws
      have := Step.loc (body := body) (M := specObj) (x := absS x ws) w ch hc hl
      rwa [show specObj.own ((absS x ws).dq w) = (implObj maxCap cap).own (x.dq w) from own_abs ..] at this
    cases hr : step body w ch (see x.c w ((implObj maxCap cap).own (x.dq w))) with
    | ok c' =>
      intro ws' hw
      have := key ws'
      rw [hr] at this
      exact ⟨ws', hw, fun h => h.step this⟩
    | ub =>
      have := key (fun _ => none)
      rw [hr] at this
      exact ⟨fun _ => none, fun _ => Verif.Deque.wok_none _, this⟩
    | no => trivial
  | tau v ht =>
    intro ws' hw
    obtain ⟨w, hw1, hw2⟩ := back_step (hb.inv v) ht (w' := ws' v) (by have := hw v; dsimp only at this; rwa [upd_same] at this)
    refine ⟨upd ws' v w, wok_upd hw hw1, fun h => ?_⟩
    have := reach_taus hw2 (absD_at x.dq ws' v w) h
    unfold absS
    dsimp only
    rw [absD_upd x.dq ws' v _ w]
    exact this
  | fork w f a k hc hpc hbd ht =>
    exact pre_of_vis (r := .ok (doFork x.c w f a k)) hb ht (fun dqs a' _ h => Step.fork (M := specObj) w f a k hc hpc hbd h)
  | pushed w hc ht => exact pre_of_vis (r := .ok x.c) hb ht (fun dqs a' _ h => Step.pushed (M := specObj) w hc h)
  | pop w hc hpp ht => exact pre_of_vis (r := .ok x.c) hb ht (fun dqs a' _ h => Step.pop (M := specObj) w hc hpp h)
  | popped w ch rr l hc ht hl =>
    exact pre_of_vis hb ht (fun dqs a' _ h => Step.popped (M := specObj) (x := ⟨x.c, dqs, x.call⟩) w ch rr l hc h hl)
  | steal w v hc hpc hne ht => exact pre_of_vis (r := .ok x.c) hb ht (fun dqs a' _ h => Step.steal (M := specObj) w v hc hpc hne h)
  | stolen w v p hc ht =>
    refine pre_of_vis hb ht (fun dqs a' ho h => ?_)
    have := Step.stolen (body := body) (M := specObj) (x := ⟨x.c, dqs, x.call⟩) w v p hc h
    dsimp only at this
    rw [ho w] at this
    exact this
  | missed w v rr hc hrr ht => exact pre_of_vis (r := .ok x.c) hb ht (fun dqs a' _ h => Step.missed (M := specObj) w v rr hc hrr h)

theorem inv_upd {dq : Nat → Verif.Deque.St Nat Nat} {v : Nat} {e : Option (Verif.Deque.Ev Nat Nat)} {d' : Verif.Deque.St Nat Nat}
    (h : ∀ u, Verif.Deque.Inv maxCap cap (dq u)) (hs : Verif.Deque.Step maxCap (dq v) e d') : ∀ u, Verif.Deque.Inv maxCap cap (upd dq v d' u) := by
  intro u
  by_cases e : u = v
  · subst e; rw [upd_same]; exact Verif.Deque.inv_step (h u) hs
  · rw [upd_ne _ _ e]; exact h u

theorem map_ok {α β : Type} {f : α → β} {r : Res α} {y : β} (h : Res.map f r = .ok y) : ∃ a, f a = y := by
  cases r with
  | ok a => cases h; exact ⟨a, rfl⟩
  | ub => cases h
  | no => cases h

theorem back_inv {x x' : ICS σ V maxCap cap} (hb : Back x) (hs : Step body (implObj maxCap cap) x (.ok x')) : Back x' := by
  refine ⟨?_⟩
  generalize hr : Res.ok x' = r at hs
  cases hs with
  | loc w ch hc hl => obtain ⟨a, rfl⟩ := map_ok hr.symm; exact hb.inv
  | tau v ht => cases hr; exact inv_upd hb.inv ht
  | fork w f a k hc hpc hbd ht => cases hr; exact inv_upd hb.inv ht
  | pushed w hc ht => cases hr; exact inv_upd hb.inv ht
  | pop w hc hpp ht => cases hr; exact inv_upd hb.inv ht
  | popped w ch rr l hc ht hl => obtain ⟨a, rfl⟩ := map_ok hr.symm; exact inv_upd hb.inv ht
  | steal w v hc hpc hne ht => cases hr; exact inv_upd hb.inv ht
  | stolen w v p hc ht => obtain ⟨a, rfl⟩ := map_ok hr.symm; exact inv_upd hb.inv ht
  | missed w v rr hc hrr ht => cases hr; exact inv_upd hb.inv ht

theorem backward (hcap : ∃ k, cap = 2 ^ k) {x : ICS σ V maxCap cap} (h : Reach body pend (implObj maxCap cap) x) :
    Back x ∧ ∀ ws, (∀ v, WOk (x.dq v) (ws v)) → Reach body pend specObj (absS x ws) := by
  induction h with
  | start x d hi =>
    refine ⟨⟨fun v => ?_⟩, fun ws hw => .start x _ (fun v => ?_)⟩
    · obtain ⟨b, hb, e⟩ := hi v
      show Verif.Deque.Inv maxCap cap (d v)
      rw [e]; exact Verif.Deque.inv_init hcap b hb
    · obtain ⟨b, hb, e⟩ := hi v
      have h1 := hw v
      show absOf (d v) (ws v) = .init
      have h1 : WOk (d v) (ws v) := h1
      rw [e] at h1 ⊢
      have : ws v = none := Verif.Deque.wok_eq_none h1 (fun hx => Verif.Deque.notPopping (s := Verif.Deque.St.init b) rfl
        (by simp [Verif.Deque.St.init]) (by simp [Verif.Deque.St.init]) _ hx.1)
      rw [this]
      simp [absOf, Verif.Deque.St.init, AState.init, Verif.Deque.oAbs, Verif.Deque.tAbs, seg]
  | submit w _ hc ih => exact ⟨⟨ih.1.inv⟩, fun ws hw => (ih.2 ws hw).submit w hc⟩
  | step _ hs ih =>
    refine ⟨back_inv ih.1 hs, fun ws' hw => ?_⟩
    obtain ⟨ws, h1, h2⟩ := pre_step (pend := pend) ih.1 hs ws' hw
    exact h2 (ih.2 ws h1)

end Verif.Compose
