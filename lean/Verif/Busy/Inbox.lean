import Verif.Busy.Step

/-! What a step of the runtime does to the lists of submissions. -/
namespace Verif.Exn
open Verif.Runtime (State Res Ev upd upd_apply upd_same upd_ne destroy_ok reset newFrame)

variable {σ V E : Type} {body : σ → Act σ V E}

/-- Nothing, or the first is taken, or a task has asked to be switched. -/
def Inb (body : σ → Act σ V E) (w : Nat) (ch : Choice E) (x x' : XS σ V E) : Prop :=
  x'.c.inbox = x.c.inbox ∨ (x.c.pc w = .idle ∧ ch = .go .take ∧ ∃ f r, x.c.inbox w = f :: r ∧ x'.c.inbox = upd x.c.inbox w r) ∨
    ∃ f d k h, x.c.pc w = .run f ∧ body (x.c.fr f).st = .switch d k h ∧ x'.c.inbox = upd x.c.inbox d (x.c.inbox d ++ [f])

theorem inb_passJoin {x x' : XS σ V E} {w f : Nat} (h : passJoin body x w f = .ok x') : x'.c.inbox = x.c.inbox := by
  unfold passJoin at h
  simp only at h
  split at h
  · split at h <;> cases h <;> rfl
  · cases h

theorem inb_wake {x x' : XS σ V E} {p : Nat} (h : wake body x p = .ok x') : x'.c.inbox = x.c.inbox := by
  unfold wake at h
  split at h <;> cases h
  rfl

theorem inb_plain {x x' : XS σ V E} {r : Res (State σ (Except E V))} (hr : ∀ c, r = .ok c → c.inbox = x.c.inbox) (h : plain x r = .ok x') :
    x'.c.inbox = x.c.inbox := by
  cases r with
  | ok c => cases h; exact hr c rfl
  | _ => cases h

theorem inb_end {x x' : XS σ V E} {w f : Nat} {r : Except E V} (h : doEnd body x w f r = .ok x') : x'.c.inbox = x.c.inbox := by
  unfold doEnd at h
  simp only at h
  split at h
  rotate_left
  · cases h
  split at h
  · split at h
    · rename_i hd
      obtain ⟨rfl, _⟩ := destroy_ok hd
      split at h <;> cases h
      rfl
    · cases h
  · split at h
    · split at h
      · rename_i hd
        obtain ⟨rfl, _⟩ := destroy_ok hd
        cases h; rfl
      · cases h
    · cases h
  · split at h
    · split at h
      · rename_i hd
        obtain ⟨rfl, _⟩ := destroy_ok hd
        cases h; rfl
      · cases h
    · cases h

theorem inb_failed {x x' : XS σ V E} {w f : Nat} {c k : σ} {late : Bool} (h : failed x w f c k late = .ok x') : x'.c.inbox = x.c.inbox := by
  unfold failed at h
  split at h
  · split at h <;> cases h; rfl
  · cases h; rfl

theorem inb_run {x x' : XS σ V E} {w f : Nat} {ch : Choice E} (h : run body x w f ch = .ok x') (hr : x.c.pc w = .run f) : Inb body w ch x x' := by
  unfold run at h
  cases ch with
  | go ch =>
    simp only at h
    split at h
    · exact .inl (inb_end h)
    · exact .inl (inb_end h)
    · cases h; exact .inl rfl
    · cases h; exact .inl rfl
    · unfold doJoin at h
      simp only at h
      split at h
      · have g := inb_passJoin h; exact .inl g
      · cases h; exact .inl rfl
    · rename_i hb
      unfold Verif.Runtime.doSwitch at h
      simp only at h
      split at h
      · cases h; exact .inr (.inr ⟨_, _, _, _, hr, hb, rfl⟩)
      · cases h
  | fail e late =>
    simp only at h
    split at h
    · exact .inl (inb_failed h)
    · exact .inl (inb_failed h)
    · cases h; exact .inl rfl
    · cases h
  | ready =>
    simp only at h
    split at h
    · cases h; exact .inl rfl
    · cases h

theorem inb_step {x x' : XS σ V E} {w : Nat} {ch : Choice E} (h : step body w ch x = .ok x') : Inb body w ch x x' := by
  unfold step at h
  split at h
  · rename_i hi
    split at h
    · unfold Runtime.take at h
      split at h
      · rename_i hb
        split at h <;> cases h
        exact .inr (.inl ⟨hi, rfl, _, _, hb, rfl⟩)
      · cases h
    · refine .inl (inb_plain (fun c hc => ?_) h)
      unfold Runtime.steal at hc
      split at hc
      · split at hc
        · cases hc; rfl
        · split at hc <;> cases hc
      · cases hc
    · cases h
  · exact inb_run h ‹_›
  · refine .inl (inb_plain (fun c hc => ?_) h)
    unfold Runtime.joinLoad at hc
    simp only at hc
    split at hc <;> cases hc <;> rfl
  · refine .inl (inb_plain (fun c hc => ?_) h)
    unfold Runtime.joinSub at hc
    simp only at hc
    split at hc <;> cases hc <;> rfl
  · unfold Exn.joinTake at h
    split at h
    · have g := inb_passJoin h; exact .inl g
    · cases h
  · have pop : ∀ {p c1 : Nat} {c : State σ (Except E V)}, Runtime.finPop x.c w p c1 = .ok c → c.inbox = x.c.inbox := by
      intro p c1 c hc
      unfold Runtime.finPop at hc
      split at hc
      · split at hc <;> cases hc; rfl
      · split at hc <;> cases hc; rfl
    split at h
    · exact .inl (inb_plain (fun c hc => pop hc) h)
    · unfold Exn.Res.bind at h
      split at h
      · rename_i ha
        exact .inl ((inb_wake h).trans (inb_plain (fun c hc => pop hc) ha))
      · cases h
      · cases h
  · refine .inl (inb_plain (fun c hc => ?_) h)
    unfold Runtime.finDec at hc
    simp only at hc
    split at hc
    · split at hc <;> cases hc <;> rfl
    · cases hc
  · unfold Exn.finWin at h
    simp only at h
    split at h
    · split at h
      · have g := inb_passJoin h; exact .inl g
      · split at h
        · have g := inb_passJoin h; exact .inl g
        · cases h
    · cases h
  · refine .inl (inb_plain (fun c hc => ?_) h)
    unfold Runtime.finLose at hc
    simp only at hc
    split at hc <;> (split at hc <;> first | (cases hc; rfl) | cases hc)
  · refine .inl (inb_plain (fun c hc => ?_) h)
    unfold Runtime.selfSteal at hc
    split at hc
    · cases hc; rfl
    · split at hc <;> cases hc; rfl
  · unfold Exn.Res.bind at h
    split at h
    · rename_i ha
      refine .inl ((inb_wake h).trans (inb_plain (fun c hc => ?_) ha))
      unfold Runtime.stole at hc
      split at hc <;> cases hc; rfl
    · cases h
    · cases h
  · refine .inl (inb_plain (fun c hc => ?_) h)
    unfold Runtime.switchRel at hc
    simp only at hc
    split at hc <;> (split at hc <;> first | (cases hc; rfl) | cases hc)

end Verif.Exn
