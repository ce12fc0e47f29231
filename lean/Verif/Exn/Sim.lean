import Verif.Exn.SimTask

/-! The runtime with exceptions refines the one without, for every program with exceptions and every schedule. -/
namespace Verif.Exn
open Verif.Runtime (State Res Fr Pc Loc Link Ev Why upd maxU16 U16 newFrame reset destroy release joinLoad joinSub finPop finDec finLose
  selfSteal stole switchRel steal take doFork doCall report upd_apply upd_same upd_ne results Alive Few Inv InvSlot)

variable {σ V E : Type} {body : σ → Act σ V E} {pend : σ → Nat} {dirty : σ → Prop} {may : E → Prop}

/-- What has to be foreseen before the step so that `F` is foreseen after it. -/
def orcBefore (body : σ → Act σ V E) (F : Nat → Orc E) (s : XS σ V E) (w : Nat) (ch : Choice E) : Nat → Orc E :=
  match s.c.pc w with
  | .run f =>
    match ch with
    | .go _ =>
      match body (s.c.fr f).st with
      | .ret _ => F
      | .throw _ => F
      | .fork _ _ _ => upd F f (.fork (F s.c.nf) (F f).bit (F f).rest)
      | .call _ _ _ => upd F f (.fork (F s.c.nf) true (F f))
      | .join _ _ => if (s.c.fr f).steal = 0 then orcJoin body F s f else F
      | .switch _ _ _ => upd F f (.go (F f))
    | .fail e _ => upd F f (.fail e (F f))
    | .ready => upd F f (.ready (F f))
  | .joinTake f => orcJoin body F s f
  | .finWin f _ => orcJoin body F s f
  | .finPop p _ =>
    match s.c.q w with
    | [] => F
    | _ :: _ => upd F p (.fork .nil true (F p))
  | .stole p => upd F p (.fork .nil false (F p))
  | _ => F

/-- The step of the runtime without exceptions; none if it notices nothing: a fork, call or switch throws, or a switcher has nothing to do. -/
def seen (s : XS σ V E) (w : Nat) (ch : Choice E) : Option Verif.Runtime.Choice :=
  match s.c.pc w, ch with
  | .idle, .go ch => some ch
  | .run _, .go _ => some .take
  | .run _, _ => none
  | _, _ => some .take

/-- A step of which the runtime without exceptions knows nothing. -/
def Quiet (s : XS σ V E) (w : Nat) (ch : Choice E) : Prop := (∃ f, s.c.pc w = .run f) ∧ ∀ c, ch ≠ .go c

theorem quiet_iff {s : XS σ V E} {w : Nat} {ch : Choice E} : Quiet s w ch ↔ seen s w ch = none := by
  unfold Quiet seen
  cases hp : s.c.pc w <;> cases ch <;> simp

theorem sim_step (hd : Disc body pend dirty) {F : Nat → Orc E} {es : Nat → List E} {s : XS σ V E} {r : State (T σ E) (Except E V)}
    {w : Nat} {ch : Choice E} (hch : Allowed may ch) (hr : Verif.Runtime.Reach (tgt body may) (fun y => pend y.1) r) (hf : Few r)
    (h : Rel body may dirty (orcBefore body F s w ch) es s r) : Out (seen s w ch) body may dirty F r w (step body w ch s) := by
  have hd' := disc_tgt (may := may) hd
  have hi := Verif.Runtime.reach_inv hd' hr
  have hu := Verif.Runtime.no_ub hd' hr hf w
  have hs := fun ch => Verif.Runtime.busy_proceeds hd' hr hf w ch
  have hsl := Verif.Runtime.reach_slot hd' hr
  unfold step seen
  unfold orcBefore at h
  cases hp : s.c.pc w with
  | idle =>
    rw [hp] at h
    cases ch with
    | go ch =>
      cases ch with
      | take => exact (sim_take hi hu h hp)
      | steal v => exact (sim_steal hi hu h hp)
    | fail e late => trivial
    | ready => trivial
  | run f =>
    rw [hp] at h
    dsimp only at h ⊢
    cases ch with
    | go ch =>
      dsimp only at h
      unfold run
      dsimp only
      cases hbd : body (s.c.fr f).st with
      | ret v =>
        rw [hbd] at h
        exact (sim_end hd hi hsl hs h hp (by simp only [tgt, hbd]) (hd.ret _ _ hbd).1 (hd.ret _ _ hbd).2 (norm_ret hbd))
      | throw e =>
        rw [hbd] at h
        exact (sim_end hd hi hsl hs h hp (by simp only [tgt, hbd]) (hd.throw _ _ hbd).1 (hd.throw _ _ hbd).2 (norm_throw hbd))
      | fork c k x => rw [hbd] at h; exact (sim_fork hi h hp hbd)
      | call c k x => rw [hbd] at h; exact (sim_call hi h hp hbd)
      | join k x => rw [hbd] at h; exact (sim_doJoin hi hs h hp hbd)
      | switch d k x => rw [hbd] at h; exact (sim_switch hd hi hs h hp hbd)
    | fail e late => exact (sim_fail hd hch hi h hp)
    | ready => exact (sim_ready hd hi h hp)
  | joinLoad f => rw [hp] at h; exact (sim_joinLoad hi hu h hp)
  | joinSub f => rw [hp] at h; exact (sim_joinSub hi hu h hp)
  | joinTake f => rw [hp] at h; exact (sim_joinTake hi hs h hp)
  | finPop p c =>
    rw [hp] at h
    dsimp only at h ⊢
    cases hq : s.c.q w with
    | nil => rw [hq] at h; exact (sim_finPopNil hu h hp hq)
    | cons x l => rw [hq] at h; exact (sim_finPop hd hi hs h hp hq)
  | finDec p c same => rw [hp] at h; exact (sim_finDec hi hf hu h hp)
  | finWin p same => rw [hp] at h; exact (sim_finWin hi hs h hp)
  | finLose same => rw [hp] at h; exact (sim_finLose hu h hp)
  | selfSteal => rw [hp] at h; exact (sim_selfSteal hi hu h hp)
  | stole p => rw [hp] at h; exact (sim_stole hd hi hs h hp)
  | switchRel z => rw [hp] at h; exact (sim_switchRel hu h hp)

theorem sim_submit {F : Nat → Orc E} {es : Nat → List E} {s : XS σ V E} {r : State (T σ E) (Except E V)} (w : Nat) (c : σ)
    (h : Rel body may dirty F es s r) :
    Rel body may dirty F (upd es s.c.nf []) (submit s c w) (Verif.Runtime.submit r (norm body may (F s.c.nf) c []) w) := by
  refine ⟨?_, fun g => ?_⟩
  · have h1 := h.base.newFrame (S' := fun g => Sh body may dirty (upd s.aw s.c.nf none g) (upd es s.c.nf [] g) (F g))
      (L' := fun g => Sl (upd s.exc s.c.nf none g) (upd es s.c.nf [] g))
      (2 * s.c.ns) .root s.c.nf s.c.nf c (norm body may (F s.c.nf) c [])
      (fun g hg a b hab => by
        have e : g ≠ s.c.nf := by omega
        simpa only [upd_ne _ _ e] using hab)
      (fun g hg a b hab => by
        have e : g ≠ s.c.nf := by omega
        simpa only [upd_ne _ _ e] using hab)
      (by simp only [upd_same]; exact ⟨fun h => absurd rfl h, rfl⟩)
      (by simp only [upd_same]; exact ⟨rfl, rfl⟩)
    have h3 := (((h1.setNs (s.c.ns + 1)).setInbox w (s.c.inbox w ++ [s.c.nf])).setLoc s.c.nf (.inbox w)).setLog
      (.submit s.c.nf c w) (.submit s.c.nf (norm body may (F s.c.nf) c []) w) ⟨rfl, ⟨_, rfl⟩, rfl⟩
    obtain ⟨rfr, rnf, rlink, rstk, ral, rns, rpc, rq, rwk, rinbox, rloc, rbase, rinit, rlog⟩ := r
    obtain ⟨e1, e2, e3, e4, e5, e6, e7, e8, e9, e10, -, -, -, -, -, -⟩ := h.base
    dsimp only at e1 e2 e3 e4 e5 e6 e7 e8 e9 e10
    subst e1 e2 e3 e4 e5 e6 e7 e8 e9 e10
    exact h3
  · show AwOk (upd s.c.loc s.c.nf (.inbox w) g) (upd s.aw s.c.nf none g) (upd s.c.fr s.c.nf _ g).steal
    by_cases e2 : g = s.c.nf
    · subst e2; rw [upd_same, upd_same]; trivial
    · rw [upd_ne _ _ e2, upd_ne _ _ e2, upd_ne _ _ e2]; exact h.aw g

theorem sim_start (F : Nat → Orc E) (x : σ) :
    Rel body may dirty F (fun _ => []) (XS.start x) (State.start (x, [], .nil)) := by
  refine ⟨⟨rfl, rfl, rfl, rfl, rfl, rfl, rfl, rfl, rfl, rfl, fun _ => rfl, fun _ => rfl, fun _ => rfl, fun f hf => ?_, fun f hf => ?_, .nil⟩,
    fun _ => rfl⟩
  · cases hf
  · cases hf

theorem Rel.few {F : Nat → Orc E} {es : Nat → List E} {s : XS σ V E} {r : State (T σ E) (Except E V)} (h : Rel body may dirty F es s r) :
    Few r ↔ Few s.c := by
  unfold Few
  simp only [h.base.stolen, h.base.loc]

/-- Every reachable state corresponds to one of the runtime without exceptions, whatever will happen. -/
theorem reach_rel (hd : Disc body pend dirty) {s : XS σ V E} (h : Reach body pend may s) (F : Nat → Orc E) :
    ∃ es r, Verif.Runtime.Reach (tgt body may) (fun y => pend y.1) r ∧ Rel body may dirty F es s r := by
  induction h generalizing F with
  | start x => exact ⟨_, _, .start (x, [], .nil), sim_start F x⟩
  | submit w _ hf hp ih =>
    obtain ⟨es, r, hr, h⟩ := ih F
    exact ⟨_, _, .submit w hr (h.few.2 hf) ((norm_pend hd ..).trans hp), sim_submit w _ h⟩
  | step _ hf hch hs ih =>
    rename_i s1 s' w ch hx
    obtain ⟨es, r, hr, h⟩ := ih (orcBefore body F s1 w ch)
    have := sim_step hd hch hr (h.few.2 hf) h
    rw [hs] at this
    obtain ⟨es', r', h1, h2⟩ := this
    split at h1
    · subst h1; exact ⟨es', _, hr, h2⟩
    · exact ⟨es', r', .step hr (h.few.2 hf) h1, h2⟩

end Verif.Exn
