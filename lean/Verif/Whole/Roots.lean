import Verif.Whole.Evo

/-! When all root tasks have returned everything has. -/
namespace Verif.Runtime
variable {σ V : Type} {body : σ → Act σ V} {pend : σ → Nat}

theorem submit_back {w : Nat} {ch : Choice} {s s' : State σ V} (hs : step body w ch s = .ok s') {f d : Nat} {c : σ}
    (he : Ev.submit f c d ∈ s'.log) : Ev.submit f c d ∈ s.log := by
  have := step_rel (P := fun _ => False) hs
  cases this with
  | finLose w same h1 => cases same <;> simpa [release] using he
  | switchRel w same h1 => cases same <;> simpa [release] using he
  | submit _ _ h => exact h.elim
  | _ => simpa [passed, doFork, doCall, newFrame, report, destroyed] using he

/-- A task nobody forked or called was submitted. -/
theorem root_submitted {s : State σ V} (h : ReachAny body pend s) : ∀ f, f < s.nf → s.link f = .root → ∃ c d, Ev.submit f c d ∈ s.log := by
  induction h with
  | start x => intro f hf; exact absurd hf (Nat.not_lt_zero _)
  | submit w h _ ih =>
    rename_i s c _
    intro f hf hl
    simp only [submit, newFrame] at hf hl ⊢
    by_cases e : f = s.nf
    · exact ⟨c, w, by rw [e]; exact List.mem_cons_self ..⟩
    · rw [upd_ne _ _ e] at hl
      obtain ⟨c, d, h⟩ := ih f (by omega) hl
      exact ⟨c, d, List.mem_cons_of_mem _ h⟩
  | step h hs ih =>
    rename_i s s' w ch
    have key : s'.nf = s.nf ∧ s'.link = s.link ∨ s'.nf = s.nf + 1 ∧ ∃ l, l ≠ .root ∧ s'.link = upd s.link s.nf l := by
      have := step_rel (P := fun _ => False) hs
      cases this with
      | finLose w same h1 => cases same <;> exact .inl ⟨rfl, rfl⟩
      | switchRel w same h1 => cases same <;> exact .inl ⟨rfl, rfl⟩
      | submit _ _ h => exact h.elim
      | fork => exact .inr ⟨rfl, _, by simp, rfl⟩
      | call => exact .inr ⟨rfl, _, by simp, rfl⟩
      | _ => exact .inl ⟨rfl, rfl⟩
    intro f hf hl
    have : f < s.nf ∧ s.link f = .root := by
      rcases key with ⟨e1, e2⟩ | ⟨e1, l, hl', e2⟩
      · rw [e1] at hf; rw [e2] at hl; exact ⟨hf, hl⟩
      · rw [e2] at hl
        by_cases e : f = s.nf
        · subst e; rw [upd_same] at hl; exact absurd hl hl'
        · rw [upd_ne _ _ e] at hl; exact ⟨by omega, hl⟩
    obtain ⟨c, d, h⟩ := ih f this.1 this.2
    exact ⟨c, d, log_step hs _ h⟩

theorem status_done {f : Nat} {v : V} {l : List (Ev σ V)} (hl : Legal l) (h : Ev.done f v ∈ l) : status f l = .done := by
  obtain ⟨a, b, rfl⟩ := List.append_of_mem h
  exact (done_stays (by simp [status]) hl).1

theorem done_dead {s : State σ V} (h : Inv body pend s) {f : Nat} {v : V} (hd : Ev.done f v ∈ s.log) : ¬ Alive (s.loc f) := by
  have hs := status_done h.legal hd
  intro ha
  have hg := h.log
  cases hx : s.loc f with
  | unborn => rw [hx] at ha; exact ha
  | running w =>
    rcases (h.loc.run w f).1 hx with e | e | e
    · rw [hg.rn w f e] at hs; cases hs
    · rw [hg.jl w f e] at hs; cases hs
    · rw [hg.js w f e] at hs; cases hs
  | stolenBy w => have := hg.sb w f hx; rw [hs] at this; exact this
  | queued w c => rw [hg.qd w f c hx] at hs; cases hs
  | inbox w => have := hg.ib w f hx; rw [hs] at this; exact this
  | callwait c => rw [hg.cw f c hx] at hs; cases hs
  | parked => rw [hg.pk f hx] at hs; cases hs
  | winning w => rw [hg.wi w f hx] at hs; cases hs
  | finishing w => rw [hx] at ha; exact ha
  | gone => rw [hx] at ha; exact ha

/-- If every submitted task has returned, every task has. -/
theorem roots_done (hd : Disc body pend) (hp : ∀ x, pend x ≤ 65534) {s : State σ V} (h : ReachAny body pend s)
    (hall : ∀ f c d, Ev.submit f c d ∈ s.log → ∃ v, Ev.done f v ∈ s.log) :
    (∀ f, f < s.nf → ∃ v, Ev.done f v ∈ s.log) ∧ ∀ w, s.inbox w = [] := by
  have hi := reach_inv hd (reach_of_bounded hd hp h).1
  have key : ∀ n f, f < n → ¬ Alive (s.loc f) := by
    intro n
    induction n with
    | zero => intro f hf; exact absurd hf (Nat.not_lt_zero _)
    | succ n ih =>
      intro f hf ha
      have hlt : f < s.nf := by
        have := hi.loc.fresh f
        by_cases hc : s.nf ≤ f
        · rw [this.2 hc] at ha; exact ha.elim
        · omega
      cases hl : s.link f with
      | root =>
        obtain ⟨c, d, hs⟩ := root_submitted h f hlt hl
        obtain ⟨v, hv⟩ := hall f c d hs
        exact done_dead hi hv ha
      | fork p i =>
        have h1 : s.loc f ≠ .unborn := fun e => by rw [e] at ha; exact ha
        have h2 : s.loc f ≠ .gone := fun e => by rw [e] at ha; exact ha
        have h3 : forkPar (s.link f) = some p := by rw [hl]; rfl
        have := hi.link.olderF f p hlt h3
        exact ih p (by omega) (hi.link.kid f p h3 h1 h2)
      | call p =>
        have := hi.link.olderC f p hlt hl
        have h4 := (hi.link.callw p f).2 ⟨hl, ha⟩
        exact ih p (by omega) (by rw [h4]; trivial)
  refine ⟨fun f hf => done_of_status ?_, fun w => ?_⟩
  · have ha := key (f + 1) f (Nat.lt_succ_self _)
    cases hx : s.loc f with
    | unborn => have := (hi.loc.fresh f).1 hx; omega
    | finishing w => exact hi.log.fi w f hx
    | gone => exact hi.log.go f hx
    | _ => rw [hx] at ha; exact absurd trivial ha
  · cases hb : s.inbox w with
    | nil => rfl
    | cons f r =>
      have := (hi.loc.inb w f).2 (by rw [hb]; exact List.mem_cons_self ..)
      exact absurd (by rw [this]; trivial) (key (f + 1) f (Nat.lt_succ_self _))

end Verif.Runtime

namespace Verif.LazyPool
open Verif.EventCount

/-- Nothing but the destructor requests a stop. -/
theorem alive_step {c : Cfg} {a : Actor} {s s' : St} (hd : Data c s) (h : s.dpc = .alive → s.stop = false) (st : Step c a s s') :
    s'.dpc = .alive → s'.stop = false := by
  have hq : ∀ w, w < c.N → s.pc w = .fin1 → s.stop = true := fun w hw e => hd.quit w hw (by rw [e]; rfl)
  cases st with
  | fin1 _ w hw hp =>
    intro e
    have := hq w hw hp
    rw [h e] at this; cases this
  | _ => simp_all [doWake, doPop, doPrep, doCancel, St.bump, doUnthief, doSleep, doAct, doNext, St.go]

theorem reach_alive {c : Cfg} (hc : c.Ok) {s : St} (h : Reach c s) : s.dpc = .alive → s.stop = false := by
  induction h with
  | start => intro _; rfl
  | step h few st ih => exact alive_step (reach_data hc h) ih st

end Verif.LazyPool

namespace Verif.Whole
open Verif.Runtime (State Res Ev ExecN Disc)
open Verif.LazyPool (Cfg St busy)
open Verif.EventCount (upd upd_same upd_ne upd_apply)
variable {σ V : Type} {c : Cfg} {body : σ → Runtime.Act σ V} {K : Nat} {root : Nat → σ} {s s' : W σ V}

/-- The caller has submitted task `f`. -/
def has (f : Nat) : Caller V → Prop
  | .calling _ g => g = f
  | .waiting g => g = f
  | _ => False

/-- How a caller moves. -/
inductive Moves (log : List (Ev σ V)) : Caller V → Caller V → Prop
  | stay (x : Caller V) : Moves log x x
  | begin : Moves log .before .picking
  | submit (j f : Nat) : Moves log .picking (.calling j f)
  | wait (j f : Nat) : Moves log (.calling j f) (.waiting f)
  | get (f : Nat) (v : V) : Ev.done f v ∈ log → Moves log (.waiting f) (.back v)

theorem caller_moves {a : Actor} (st : Step c body K root a s (.ok s')) (i : Nat) : Moves s'.r.log (s.caller i) (s'.caller i) := by
  generalize hr : Res.ok s' = res at st
  have key : ∀ (log : List (Ev σ V)) {k : Nat} {x : Caller V}, Moves log (s.caller k) x → Moves log (s.caller i) (upd s.caller k x i) := by
    intro log k x h
    rw [upd_apply]; split
    · subst_vars; exact h
    · exact .stay _
  cases st with
  | pool _ w l h1 h2 st => cases hr; exact .stay _
  | noSteal _ w h1 h2 => cases hr; exact .stay _
  | stole _ w v h1 h2 h3 h4 => obtain ⟨r, e, rfl⟩ := map_ok hr.symm; exact .stay _
  | work _ w h1 h2 h3 h4 h5 => obtain ⟨r, e, rfl⟩ := map_ok hr.symm; exact .stay _
  | switch _ w f d k h1 h2 h3 h4 =>
    split at hr
    · obtain ⟨r, e, rfl⟩ := map_ok hr.symm; exact .stay _
    · cases hr
  | notify _ w j l h1 h2 st => cases hr; exact .stay _
  | take _ w j js h1 h2 h3 h4 => obtain ⟨r, e, rfl⟩ := map_ok hr.symm; exact .stay _
  | worked _ w h1 h2 h3 h4 => cases hr; exact .stay _
  | begin _ i h1 h2 h3 => cases hr; exact key _ (by rw [h2]; exact .begin)
  | race => cases hr
  | submit _ i d h1 h2 h3 => cases hr; exact key _ (by rw [h2]; exact .submit _ _)
  | call _ i j f l h1 h2 st =>
    cases hr
    show Moves _ _ ((if l.call j = .returned then upd s.caller i (.waiting f) else s.caller) _)
    split
    · exact key _ (by rw [h2]; exact .wait _ _)
    · exact .stay _
  | get _ i f v h1 h2 h3 => cases hr; exact key _ (by rw [h2]; exact .get _ _ h3)
  | dtor _ l h1 st => cases hr; exact .stay _

/-- Every submitted task was submitted by a caller that waits for it or has its result. -/
def Own (s : W σ V) : Prop :=
  ∀ f x d, Ev.submit f x d ∈ s.r.log → (∃ i, has f (s.caller i)) ∨ ∃ v, Ev.done f v ∈ s.r.log

theorem own_step (hs : Sync c K root s) (hu : LazyPool.Sub c s.l) (h : Own s) {a : Actor} (st : Step c body K root a s (.ok s')) : Own s' := by
  have keep : (∀ e ∈ s.r.log, e ∈ s'.r.log) → ∀ f x d, Ev.submit f x d ∈ s.r.log → (∃ i, has f (s'.caller i)) ∨ ∃ v, Ev.done f v ∈ s'.r.log := by
    intro hlog f x d hm
    rcases h f x d hm with ⟨i, hi⟩ | ⟨v, hv⟩
    · have hmv := caller_moves st i
      generalize s.caller i = y at hi hmv
      generalize hz : s'.caller i = z at hmv
      cases hmv with
      | stay => exact .inl ⟨i, by rw [hz]; exact hi⟩
      | begin => exact hi.elim
      | submit => exact hi.elim
      | wait j g => exact .inl ⟨i, by rw [hz]; exact hi⟩
      | get g v hv => cases hi; exact .inr ⟨v, hv⟩
    · exact .inr ⟨v, hlog _ hv⟩
  intro f x d hm
  cases evo_step hs hu st with
  | same h1 =>
    have e : s'.rt.log = s.rt.log := congrArg State.log h1
    have e : s'.r.log = s.r.log := e
    exact keep (fun e' he => by rw [e]; exact he) f x d (by rw [← e]; exact hm)
  | submit i d' j h1 h2 h3 h4 h5 =>
    have e : s'.rt.log = .submit s.r.nf (root i) d' :: s.r.log := congrArg State.log h5
    have e : s'.r.log = .submit s.r.nf (root i) d' :: s.r.log := e
    rw [e] at hm
    rcases List.mem_cons.1 hm with hm | hm
    · cases hm
      refine .inl ⟨i, ?_⟩
      rw [h4, upd_same]; rfl
    · exact keep (fun e' he => by rw [e]; exact List.mem_cons_of_mem _ he) f x d hm
  | step w ch h1 h2 h3 => exact keep (Runtime.log_step (s := s.rt) (s' := s'.rt) h2) f x d (Runtime.submit_back (s := s.rt) (s' := s'.rt) h2 hm)

end Verif.Whole
