import Verif.Whole.Model
import Verif.LazyPool.Props
import Verif.Runtime.TermProps

/-! What single steps of the two machines do to what they share. -/
namespace Verif.LazyPool
open Verif.EventCount (upd upd_same upd_ne upd_apply)
variable {c : Cfg} {s s' : St}

theorem call_other {a : Actor} (st : Step c a s s') {j : Nat} (h : a ≠ .submit j) : s'.call j = s.call j := by
  cases st <;> simp only [doWake, doPop, doPrep, doCancel, St.bump, doUnthief, doSleep, doAct, doNext, St.go, upd_apply] <;> grind

/-- The rest of a submission. -/
theorem call_self {j : Nat} (st : Step c (.submit j) s s') (h : s.call j ≠ .unsent) :
    (s'.call j = .returned ∨ ∃ d, s.call j = .pushed d ∧ s'.call j = .waking d) ∧ s'.hand = s.hand ∧ s'.inbox = s.inbox ∧ s'.dpc = s.dpc ∧
      s'.stop = s.stop ∧ s'.started = s.started := by
  cases st <;> simp_all [St.bump, upd_apply]

theorem dtor_lists (st : Step c .dtor s s') : s'.hand = s.hand ∧ s'.inbox = s.inbox ∧ s'.call = s.call ∧ s'.started = s.started := by
  cases st <;> simp [St.bump]

theorem worker_lists {w : Nat} (hs : Sub c s) (hw : w < c.N) (st : Step c (.worker w) s s') (hp : s.pc w ≠ .work) :
    (∀ v, s'.hand v ++ s'.inbox v = s.hand v ++ s.inbox v) ∧ s'.call = s.call ∧ s'.dpc = s.dpc ∧ s'.started = s.started := by
  have h := hs.free w hw
  have h1 : s.pc w = .pop1 ∨ s.pc w = .pop2 → s.hand w = [] := by
    intro e
    apply Classical.byContradiction
    intro hn
    have := h hn
    rcases e with e | e <;> rw [e] at this <;> cases this
  clear h hs
  cases st <;> first | exact absurd ‹s.pc w = .work› hp | (refine ⟨fun v => ?_, rfl, rfl, rfl⟩; try rfl)
  · have := h1 (.inl ‹_›)
    simp only [doPop, St.go, upd_apply]
    split <;> rename_i e
    · subst e; simp [this]
    · rfl
  · have := h1 (.inr ‹_›)
    simp only [doPop, St.go, upd_apply]
    split <;> rename_i e
    · subst e; simp [this]
    · rfl

/-- About to resume what it has. -/
def busy : Pc → Bool
  | .tws1 | .tws2 | .tws3 | .act | .scan | .sc2 | .sc3 | .work => true
  | _ => false

theorem busy_step {w : Nat} (st : Step c (.worker w) s s') (hp : s.pc w ≠ .work) (hb : busy (s.pc w) = true) : busy (s'.pc w) = true := by
  cases st <;> simp only [doWake, doPop, doPrep, doCancel, St.bump, doUnthief, doSleep, doAct, doNext, St.go, upd_apply] at * <;> grind [busy]

theorem busy_other {a : Actor} {w : Nat} (st : Step c a s s') (h : a ≠ .worker w) (hb : busy (s.pc w) = true) : s'.pc w = s.pc w := by
  rcases others st w h with e | ⟨e, _⟩
  · exact e
  · rw [e] at hb; cases hb

end Verif.LazyPool

namespace Verif.Runtime
variable {σ V : Type} {body : σ → Act σ V}

/-- What a step does to the lists of submissions. -/
theorem inbox_step {w : Nat} {ch : Choice} {s s' : State σ V} (hs : step body w ch s = .ok s') :
    (s.pc w = .idle → ch = .take → ∃ f r, s.inbox w = f :: r ∧ s'.inbox = upd s.inbox w r) ∧
    (∀ v, s.pc w = .idle → ch = .steal v → s'.inbox = s.inbox ∧ ∃ p, s'.pc w = .stole p) ∧
    (s.pc w ≠ .idle → (∀ f d k, s.pc w = .run f → body (s.fr f).st ≠ .switch d k) → s'.inbox = s.inbox) ∧
    (∀ f d k, s.pc w = .run f → body (s.fr f).st = .switch d k →
      s'.inbox = upd s.inbox d (s.inbox d ++ [f]) ∧ ∃ z, s'.pc w = .switchRel z) := by
  have pj : ∀ {s1 : State σ V} {f : Nat}, passJoin body s1 w f = .ok s' → s1.inbox = s.inbox → s'.inbox = s.inbox := by
    intro s1 f h1 h4
    obtain ⟨k', vs, rfl, _⟩ := passJoin_ok h1
    exact h4
  have ds : ∀ {f : Nat} {s1 : State σ V}, destroy s w f = .ok s1 → s1.inbox = s.inbox := by
    intro f s1 h; obtain ⟨rfl, _⟩ := destroy_ok h; rfl
  unfold step at hs
  cases hp : s.pc w with
  | idle =>
    rw [hp] at hs
    refine ⟨fun _ e => ?_, fun v _ e => ?_, fun h => absurd rfl h, fun f d k h => by cases h⟩
    · subst e
      simp only [take] at hs
      split at hs
      · rename_i f r hi
        split at hs
        · cases hs; exact ⟨f, r, hi, rfl⟩
        · cases hs
      · cases hs
    · subst e
      simp only [steal] at hs
      split at hs
      · split at hs
        · cases hs; exact ⟨rfl, _, upd_same _ _ _⟩
        · split at hs <;> cases hs
      · cases hs
  | run f =>
    rw [hp] at hs
    simp only at hs
    refine ⟨fun h => by (cases h), fun v h => by (cases h), fun _ hsw => ?_, fun f' d k e hb => ?_⟩
    · cases hb : body (s.fr f).st with
      | ret v =>
        rw [hb] at hs
        simp only [doRet] at hs
        split at hs
        · cases hl : s.link f with
          | root =>
            rw [hl] at hs; simp only at hs
            cases hdt : destroy s w f with
            | ok s1 =>
              rw [hdt] at hs
              simp only at hs
              have c := ds hdt
              split at hs
              · cases hs; exact c
              · cases hs
            | ub => rw [hdt] at hs; cases hs
            | no => rw [hdt] at hs; cases hs
          | call p =>
            rw [hl] at hs; simp only at hs
            split at hs
            · split at hs
              · rename_i hdt
                have c := ds hdt
                cases hs; exact c
              · cases hs
            · cases hs
          | fork p i =>
            rw [hl] at hs; simp only at hs
            split at hs
            · split at hs
              · rename_i hdt
                have c := ds hdt
                cases hs; exact c
              · cases hs
            · cases hs
        · cases hs
      | fork c k' => rw [hb] at hs; cases hs; rfl
      | call c k' => rw [hb] at hs; cases hs; rfl
      | join k' =>
        rw [hb] at hs
        simp only [doJoin] at hs
        split at hs
        · exact pj hs rfl
        · cases hs; rfl
      | switch d k' => exact absurd hb (hsw f d k' rfl)
    · cases e
      rw [hb] at hs
      simp only [doSwitch] at hs
      split at hs
      · cases hs; exact ⟨rfl, _, upd_same _ _ _⟩
      · cases hs
  | _ =>
    rw [hp] at hs
    refine ⟨fun h => by (cases h), fun v h => by (cases h), fun _ _ => ?_, fun f d k h => by (cases h)⟩
    simp only [joinLoad, joinSub, joinTake, finPop, finDec, finWin, finLose, selfSteal, stole, switchRel] at hs
    first
    | (split at hs <;> first | exact pj hs rfl | (cases hs; rfl) | (split at hs <;> first | exact pj hs rfl | (cases hs; rfl) | (cases hs) | (split at hs <;> first | exact pj hs rfl | (cases hs; rfl) | cases hs)) | cases hs)
    | skip

/-- The history grows. -/
theorem log_step {w : Nat} {ch : Choice} {s s' : State σ V} (hs : step body w ch s = .ok s') : ∀ e ∈ s.log, e ∈ s'.log := by
  have := step_rel (P := fun _ => True) hs
  intro e he
  cases this <;> simp [passed, doFork, doCall, newFrame, submit, report, release, he] <;> (try split) <;> simp [he]

end Verif.Runtime
