import Verif.Mem.Rel
import Verif.Runtime.Step

/-! What a step of a worker adds to the history: no submission. -/
namespace Verif.Mem
open Verif.Runtime (State Res Ev destroy_ok)
open Verif.Exn (XS Choice plain wake passJoin)

variable {σ V E : Type} {body : σ → Exn.Act σ V E}

/-- The history has grown by something other than submissions. -/
def Grown (l l' : List (Ev σ (Except E V))) : Prop := ∃ d, l' = d ++ l ∧ subs d = []

theorem Grown.trans {l l' l'' : List (Ev σ (Except E V))} (h : Grown l l') (h' : Grown l' l'') : Grown l l'' := by
  obtain ⟨d, rfl, h1⟩ := h
  obtain ⟨d', rfl, h2⟩ := h'
  refine ⟨d' ++ d, by simp, ?_⟩
  induction d' with
  | nil => exact h1
  | cons e d' ih => cases e <;> simp_all [subs]

theorem Grown.subs {l l' : List (Ev σ (Except E V))} (h : Grown l l') : subs l' = subs l := by
  obtain ⟨d, rfl, h1⟩ := h
  induction d with
  | nil => rfl
  | cons e d ih => cases e <;> simp_all [Mem.subs]

theorem Grown.mem {l l' : List (Ev σ (Except E V))} (h : Grown l l') {e : Ev σ (Except E V)} (he : e ∈ l) : e ∈ l' := by
  obtain ⟨d, rfl, _⟩ := h
  exact List.mem_append_right _ he

macro "grown" : tactic => `(tactic| first | exact ⟨[], rfl, rfl⟩ | exact ⟨[_], rfl, rfl⟩ | exact ⟨[_, _], rfl, rfl⟩)

theorem grown_passJoin {s s' : XS σ V E} {w f : Nat} (h : passJoin body s w f = .ok s') : Grown s.c.log s'.c.log := by
  unfold passJoin at h
  simp only at h
  split at h
  · split at h <;> cases h <;> grown
  · cases h

theorem grown_wake {s s' : XS σ V E} {p : Nat} (h : wake body s p = .ok s') : Grown s.c.log s'.c.log := by
  unfold wake at h
  split at h <;> cases h
  grown

theorem grown_plain {s s' : XS σ V E} {r : Res (State σ (Except E V))} (hr : ∀ c, r = .ok c → Grown s.c.log c.log) (h : plain s r = .ok s') :
    Grown s.c.log s'.c.log := by
  cases r with
  | ok c => cases h; exact hr c rfl
  | _ => cases h

theorem grown_end {s s' : XS σ V E} {w f : Nat} {r : Except E V} (h : Exn.doEnd body s w f r = .ok s') : Grown s.c.log s'.c.log := by
  unfold Exn.doEnd at h
  simp only at h
  split at h
  rotate_left
  · cases h
  split at h
  · split at h
    · rename_i hd
      obtain ⟨rfl, _⟩ := destroy_ok hd
      split at h <;> cases h
      grown
    · cases h
  · split at h
    · split at h
      · cases h; grown
      · cases h
    · cases h
  · split at h
    · split at h
      · cases h; grown
      · cases h
    · cases h

theorem grown_failed {s s' : XS σ V E} {w f : Nat} {c x : σ} {late : Bool} (h : Exn.failed s w f c x late = .ok s') : Grown s.c.log s'.c.log := by
  unfold Exn.failed at h
  split at h
  · split at h <;> cases h; grown
  · cases h; grown

theorem grown_run {s s' : XS σ V E} {w f : Nat} {ch : Choice E} (h : Exn.run body s w f ch = .ok s') : Grown s.c.log s'.c.log := by
  unfold Exn.run at h
  cases ch with
  | go ch =>
    simp only at h
    split at h
    · exact grown_end h
    · exact grown_end h
    · cases h; exact ⟨[_, _], rfl, rfl⟩
    · cases h; exact ⟨[_, _], rfl, rfl⟩
    · unfold Exn.doJoin at h
      simp only at h
      split at h
      · exact .trans ⟨[_], rfl, rfl⟩ (grown_passJoin h)
      · cases h; grown
    · unfold Verif.Runtime.doSwitch at h
      simp only at h
      split at h
      · cases h; grown
      · cases h
  | fail e late =>
    simp only at h
    split at h
    · exact grown_failed h
    · exact grown_failed h
    · cases h; grown
    · cases h
  | ready =>
    simp only at h
    split at h
    · cases h; grown
    · cases h

/-- A step of a worker. -/
theorem grown_step {s s' : XS σ V E} {w : Nat} {ch : Choice E} (h : Exn.step body w ch s = .ok s') : Grown s.c.log s'.c.log := by
  unfold Exn.step at h
  split at h
  · split at h
    · refine grown_plain (fun c hc => ?_) h
      unfold Runtime.take at hc
      split at hc
      · split at hc <;> cases hc; grown
      · cases hc
    · refine grown_plain (fun c hc => ?_) h
      unfold Runtime.steal at hc
      split at hc
      · split at hc
        · cases hc; grown
        · split at hc <;> cases hc
      · cases hc
    · cases h
  · exact grown_run h
  · refine grown_plain (fun c hc => ?_) h
    unfold Runtime.joinLoad at hc
    simp only at hc
    split at hc <;> cases hc <;> grown
  · refine grown_plain (fun c hc => ?_) h
    unfold Runtime.joinSub at hc
    simp only at hc
    split at hc <;> cases hc <;> grown
  · unfold Exn.joinTake at h
    split at h
    · have g := grown_passJoin h; exact g
    · cases h
  · have pop : ∀ {p c1 : Nat} {c : State σ (Except E V)}, Runtime.finPop s.c w p c1 = .ok c → Grown s.c.log c.log := by
      intro p c1 c hc
      unfold Runtime.finPop at hc
      split at hc
      · split at hc <;> cases hc; grown
      · split at hc <;> cases hc; grown
    split at h
    · exact grown_plain (fun c hc => pop hc) h
    · unfold Exn.Res.bind at h
      split at h
      · rename_i ha
        exact .trans (grown_plain (fun c hc => pop hc) ha) (grown_wake h)
      · cases h
      · cases h
  · refine grown_plain (fun c hc => ?_) h
    unfold Runtime.finDec at hc
    simp only at hc
    split at hc
    · split at hc <;> cases hc <;> grown
    · cases hc
  · unfold Exn.finWin at h
    simp only at h
    split at h
    · split at h
      · have g := grown_passJoin h; exact g
      · split at h
        · have g := grown_passJoin h; exact g
        · cases h
    · cases h
  · refine grown_plain (fun c hc => ?_) h
    unfold Runtime.finLose at hc
    simp only at hc
    split at hc <;> (split at hc <;> first | (cases hc; grown) | cases hc)
  · refine grown_plain (fun c hc => ?_) h
    unfold Runtime.selfSteal at hc
    split at hc
    · cases hc; grown
    · split at hc <;> cases hc; grown
  · unfold Exn.Res.bind at h
    split at h
    · rename_i ha
      refine .trans (grown_plain (fun c hc => ?_) ha) (grown_wake h)
      unfold Runtime.stole at hc
      split at hc <;> cases hc; grown
    · cases h
    · cases h
  · refine grown_plain (fun c hc => ?_) h
    unfold Runtime.switchRel at hc
    simp only at hc
    split at hc <;> (split at hc <;> first | (cases hc; grown) | cases hc)

end Verif.Mem
