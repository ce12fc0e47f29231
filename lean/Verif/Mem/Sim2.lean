import Verif.Mem.Sim

/-! Every step of the runtime is no, one or two steps of the fork/join machine: all steps. -/
namespace Verif.Mem
open Verif.Runtime (State Res Fr Pc Loc Link Ev Why upd maxU16 U16 newFrame reset destroy release joinLoad joinSub finPop finDec finLose
  selfSteal stole switchRel steal take doFork doCall report upd_apply upd_same upd_ne Few status forked Legal Alive)
open Verif.Exn (XS Choice goOn errs oks held allHeld passJoin reach_rel disc_tgt alive_lt wake plain doEnd capture)

variable {σ V E L : Type} [Inhabited E] [DecidableEq L]
variable {body : σ → Act σ V E L} {pend : σ → Nat} {dirty : σ → Prop} {may : E → Prop} {ok : (σ → Prop) → σ → Prop} {m : L → E}

theorem allowed_any (ch : Choice E) : Exn.Allowed (fun _ => True) ch := by cases ch <;> trivial

theorem plain_ok {x x' : XS σ V E} {r : Res (State σ (Except E V))} (h : plain x r = .ok x') : ∃ c, r = .ok c ∧ x' = { x with c := c } := by
  cases r with
  | ok c => cases h; exact ⟨c, rfl, rfl⟩
  | ub => cases h
  | no => cases h

/-- Only bookkeeping. -/
theorem To.plain {x x' : XS σ V E} {a : FJ σ V E L} (ha : FJ.Reach body may ok m a) (hr : XR x a) {r : Res (State σ (Except E V))}
    (hs : plain x r = .ok x') (hc : ∀ c, r = .ok c → c.nf = x.c.nf ∧ c.link = x.c.link ∧ (∀ f, (c.fr f).st = (x.c.fr f).st) ∧
      (∀ f, (c.fr f).slots = (x.c.fr f).slots) ∧ c.log = x.c.log) : To body may ok m P Q a x' := by
  obtain ⟨c, e, rfl⟩ := plain_ok hs
  obtain ⟨h1, h2, h3, h4, h5⟩ := hc c e
  exact To.stay ha (hr.congr h1 h2 h3 h4 h5 rfl)

theorem goOn_st (c : State σ (Except E V)) (f : Nat) (k : σ) (g : Nat) : ((goOn c f k).fr g).st = if g = f then k else (c.fr g).st := by
  simp only [goOn, upd_apply]; split <;> rfl

theorem goOn_slots (c : State σ (Except E V)) (f : Nat) (k : σ) (g : Nat) : ((goOn c f k).fr g).slots = (c.fr g).slots := by
  simp only [goOn, upd_apply]; split
  · rename_i e; rw [e]
  · rfl

/-- A running task goes on. -/
theorem To.on {x : XS σ V E} {a : FJ σ V E L} (ha : FJ.Reach body may ok m a) (hr : XR x a) {f : Nat} (hP : P f) (hf : f < x.c.nf) (hm : modeOf f x.c.log = .run)
    (k : σ) (st : FJ.Step body may f a (a.on f k)) : To body may ok m P Q a { x with c := goOn x.c f k } :=
  To.one ha hP st (XR.to (hr.on hf hm k) rfl (fun _ => rfl) (goOn_st _ _ _) (goOn_slots _ _ _) rfl (fun _ => rfl)) rfl rfl

theorem sim_end {x x' : XS σ V E} {a : FJ σ V E L} (ha : FJ.Reach body may ok m a) (hr : XR x a) {w f : Nat} (hP : P f)
    (hQ : ∀ p, x.c.link f = .call p → Q f p) (hf : f < x.c.nf)
    (hm : modeOf f x.c.log = .run) {r : Except E V} (st : FJ.Step body may f a { a with mode := set a.mode f (.ended r) })
    (hs : doEnd (ctl body) x w f r = .ok x') : To body may ok m P Q a x' := by
  have hdes : ∀ c, destroy x.c w f = .ok c → c = { x.c with al := c.al } := by
    intro c hc
    unfold destroy at hc
    split at hc <;> cases hc
    rfl
  unfold doEnd at hs
  dsimp only at hs
  split at hs
  · cases hl : x.c.link f with
    | root =>
      rw [hl] at hs
      dsimp only at hs
      cases hdx : destroy x.c w f with
      | ok c =>
        rw [hdx] at hs
        have := hdes c hdx
        dsimp only at hs
        split at hs
        · cases hs
          refine To.one ha hP st (XR.to (hr.endRoot hf hm hl r) ?_ ?_ ?_ ?_ rfl (fun _ => rfl)) rfl rfl
          · rw [this]
          · intro g; rw [this]
          · intro g; rw [this]
          · intro g; rw [this]
        · cases hs
      | ub => rw [hdx] at hs; cases hs
      | no => rw [hdx] at hs; cases hs
    | call p =>
      rw [hl] at hs
      dsimp only at hs
      obtain ⟨hp, hmp⟩ := hr.cal f p hf hl (by rw [hm]; simp)
      have hne : p ≠ f := by rintro rfl; rw [hm] at hmp; cases hmp
      split at hs
      · cases hdx : destroy x.c w f with
        | ok c =>
          rw [hdx] at hs
          have := hdes c hdx
          cases haw : x.aw p with
          | none => simp [haw] at hs
          | some aw =>
            rw [haw] at hs
            cases aw with
            | fork pre => simp at hs
            | call =>
              cases hb : ctl body (x.c.fr p).st with
              | call c0 k xx =>
                rw [hb] at hs
                cases hs
                have h1 : FJ.Reach body may ok m { a with mode := set a.mode f (.ended r) } := .step f ha st
                have st2 : FJ.Step body may p { a with mode := set a.mode f (.ended r) } _ :=
                  FJ.Step.back { a with mode := set a.mode f (.ended r) } f r c0 k xx
                    (by show set a.mode f (.ended r) p = _; simp only [set, if_neg hne]; rw [hr.mode p hp]; exact hmp)
                    (by simp [set]) (by show body (a.st p) = _; rw [hr.st p hp]; exact ctl_call hb)
                refine ⟨_, .step p h1 st2, XR.to (hr.endCall (w := w) hf hm hl r (k r.toOption)) ?_ ?_ ?_ ?_ rfl ?_, rfl, rfl, .two hP (hQ p hl) (by rw [hr.mode p hp]; exact hmp) st st2⟩
                · rw [this]
                · intro g; rw [this]
                · intro g; simp only [upd_apply]; split <;> rfl
                · intro g; simp only [upd_apply]; split
                  · rename_i e; rw [e]
                  · rfl
                · intro g
                  cases r with
                  | ok v =>
                    simp only [caught]
                    split
                    · rename_i e; rw [e]
                    · rfl
                  | error e1 => simp only [capture, upd_apply, caught]; split <;> rfl
              | _ => simp [hb] at hs
        | ub => rw [hdx] at hs; split at hs <;> first | contradiction | cases hs
        | no => rw [hdx] at hs; split at hs <;> first | contradiction | cases hs
      · cases hs
    | fork p i =>
      rw [hl] at hs
      dsimp only at hs
      split at hs
      · cases hdx : destroy x.c w f with
        | ok c =>
          rw [hdx] at hs
          have := hdes c hdx
          cases hs
          refine To.one ha hP st (XR.to (hr.endFork hf hm hl r) ?_ ?_ ?_ ?_ rfl ?_) rfl rfl
          · rw [this]
          · intro g; rw [this]
          · intro g; simp only [upd_apply]; split
            · rename_i e; rw [e]
            · rfl
          · intro g; simp only [upd_apply]; split
            · cases r <;> rfl
            · rfl
          · intro g
            cases r with
            | ok v =>
              simp only [caught]
              split
              · rename_i e; rw [e]
              · rfl
            | error e1 => simp only [capture, upd_apply, caught]; split <;> rfl
        | ub => rw [hdx] at hs; cases hs
        | no => rw [hdx] at hs; cases hs
      · cases hs
  · cases hs

/-- Steps of a task that are no access to memory. -/
theorem sim_run {x x' : XS σ V E} (F : Facts x) {w f : Nat} {ch : Choice E} (hP : P f) (hQ : ∀ p, x.c.link f = .call p → Q f p) (hch : Exn.Allowed may ch)
    (hn : NoAcc body (x.c.fr f).st) (hp : x.c.pc w = .run f) (hs : Exn.run (ctl body) x w f ch = .ok x') (hleg : Legal x'.c.log) {a : FJ σ V E L}
    (ha : FJ.Reach body may ok m a) (hr : XR x a) : To body may ok m P Q a x' := by
  obtain ⟨hf, hm⟩ := F.run w f hp
  have hmode : a.mode f = .run := by rw [hr.mode f hf]; exact hm
  have hst := hr.st f hf
  unfold Exn.run at hs
  cases ch with
  | fail e late =>
    dsimp only at hs
    cases hb : ctl body (x.c.fr f).st with
    | fork c k xx =>
      rw [hb] at hs; dsimp only at hs; rw [Exn.failed_eq] at hs; cases hs
      exact To.on ha hr hP hf hm _ (.forkFails a e c k xx hmode (by rw [hst]; exact ctl_fork hb) hch)
    | call c k xx =>
      rw [hb] at hs; dsimp only at hs; rw [Exn.failed_eq] at hs; cases hs
      exact To.on ha hr hP hf hm _ (.callFails a e c k xx hmode (by rw [hst]; exact ctl_call hb) hch)
    | switch d k xx =>
      rw [hb] at hs; cases hs
      exact To.on ha hr hP hf hm _ (.switchFails a e d k xx hmode (by rw [hst]; exact ctl_switch hn hb) hch)
    | ret v => rw [hb] at hs; cases hs
    | throw v => rw [hb] at hs; cases hs
    | join k xx => rw [hb] at hs; cases hs
  | ready =>
    dsimp only at hs
    cases hb : ctl body (x.c.fr f).st with
    | switch d k xx =>
      rw [hb] at hs; cases hs
      exact To.on ha hr hP hf hm _ (.switch a d k xx hmode (by rw [hst]; exact ctl_switch hn hb))
    | ret v => rw [hb] at hs; cases hs
    | throw v => rw [hb] at hs; cases hs
    | join k xx => rw [hb] at hs; cases hs
    | fork c k xx => rw [hb] at hs; cases hs
    | call c k xx => rw [hb] at hs; cases hs
  | go ch =>
    dsimp only at hs
    cases hb : ctl body (x.c.fr f).st with
    | ret v =>
      rw [hb] at hs
      exact sim_end ha hr hP hQ hf hm (.ret a v hmode (by rw [hst]; exact ctl_ret hb)) hs
    | throw e =>
      rw [hb] at hs
      exact sim_end ha hr hP hQ hf hm (.throw a e hmode (by rw [hst]; exact ctl_throw hb)) hs
    | fork c k xx =>
      rw [hb] at hs; cases hs
      have st := FJ.Step.fork (may := may) a x.c.nf c k xx hmode (by rw [hst]; exact ctl_fork hb) (hr.un _ (Nat.le_refl _))
      refine To.one ha hP st (XR.to (hr.fork (w := w) hf hm c) rfl ?_ ?_ ?_ rfl ?_) rfl rfl
      · intro g; simp only [Exn.fork, doFork, newFrame, upd_apply]
      · intro g; simp only [Exn.fork, doFork, newFrame, upd_apply]
        by_cases e : g = f
        · rw [if_pos e, e, if_neg (by omega)]
        · rw [if_neg e]; split <;> rfl
      · intro g; simp only [Exn.fork, doFork, newFrame, upd_apply]
        split
        · rfl
        · split <;> rfl
      · intro g; simp only [Exn.fork, upd_apply]
    | call c k xx =>
      rw [hb] at hs; cases hs
      have st := FJ.Step.call (may := may) a x.c.nf c k xx hmode (by rw [hst]; exact ctl_call hb) (hr.un _ (Nat.le_refl _))
      refine To.one ha hP st (XR.to (hr.call (w := w) hf hm c) rfl ?_ ?_ ?_ rfl ?_) rfl rfl
      · intro g; simp only [Exn.call, doCall, newFrame, upd_apply]
      · intro g; simp only [Exn.call, doCall, newFrame, upd_apply]; split <;> rfl
      · intro g; simp only [Exn.call, doCall, newFrame, upd_apply]; split <;> rfl
      · intro g; simp only [Exn.call, upd_apply]
    | join k xx =>
      rw [hb] at hs
      dsimp only at hs
      unfold Exn.doJoin at hs
      dsimp only at hs
      have hr1 : XR { x with c := { x.c with log := .suspend f .join :: x.c.log } } a := hr.suspend hm (Or.inl rfl)
      split at hs
      · have hlog : x'.c.log = .resume f w :: .suspend f .join :: x.c.log := by
          unfold passJoin at hs
          dsimp only at hs
          split at hs
          · split at hs <;> cases hs <;> rfl
          · cases hs
        rw [hlog] at hleg
        have h2 := hleg.2.1
        have hst2 : status f (.suspend f .join :: x.c.log) = .waiting .join := by simp [status]
        unfold Runtime.MayResume at h2
        rw [hst2] at h2
        exact sim_pass ha hr1 hP hf (by simp [modeOf]) h2 hs
      · cases hs
        exact To.stay ha (hr1.congr rfl rfl (fun _ => rfl) (fun _ => rfl) rfl rfl)
    | switch d k xx =>
      rw [hb] at hs
      dsimp only at hs
      unfold Runtime.doSwitch at hs
      dsimp only at hs
      split at hs
      · cases hs
        have st := FJ.Step.switch (may := may) a d k xx hmode (by rw [hst]; exact ctl_switch hn hb)
        refine To.one ha hP st (XR.to ((hr.on hf hm k).suspend (y := .switch d) hm (Or.inr ⟨d, rfl⟩)) rfl (fun _ => rfl) ?_ ?_ rfl (fun _ => rfl)) rfl rfl
        · intro g; simp only [upd_apply]; split <;> rfl
        · intro g; simp only [upd_apply]; split
          · rename_i e; rw [e]
          · rfl
      · cases hs

/-- A task goes on after a fork. -/
theorem sim_wake {x x1 x' : XS σ V E} {a : FJ σ V E L} (ha : FJ.Reach body may ok m a) (hr : XR x a) {w p n : Nat} (hP : P p) (hp : p < x.c.nf)
    (hst : status p x.c.log = .waiting (.fork n)) (h1 : x1.c.nf = x.c.nf) (h2 : x1.c.link = x.c.link) (h3 : ∀ f, (x1.c.fr f).st = (x.c.fr f).st)
    (h4 : ∀ f, (x1.c.fr f).slots = (x.c.fr f).slots) (h5 : x1.c.log = .resume p w :: x.c.log) (h6 : x1.exc = x.exc)
    (hs : wake (ctl body) x1 p = .ok x')
    (hx : x'.c.log = .resume p w :: x.c.log →
      ∃ c k xx b, ctl body (x.c.fr p).st = .fork c k xx ∧ (x'.c.fr p).st = k b ∧ (b = true → ∃ r, modeOf n x.c.log = .ended r)) (hnn : ∀ r, modeOf n x.c.log = .ended r → n < x.c.nf) :
    To body may ok m P Q a x' := by
  have hmp : modeOf p x.c.log = .forked n := mode_of_status hst
  unfold wake at hs
  split at hs
  · cases hs
    obtain ⟨c, k, xx, b, e1, e2, e3⟩ := hx h5
    have st := FJ.Step.resume (may := may) a n c k xx b (by rw [hr.mode p hp]; exact hmp) (by rw [hr.st p hp]; exact ctl_fork e1)
      (fun hb => by obtain ⟨r, h⟩ := e3 hb; exact ⟨r, by rw [hr.mode n (hnn r h)]; exact h⟩)
    refine To.one ha hP st (XR.to (hr.wake (w := w) hp hmp (k b)) h1 ?_ ?_ ?_ h5 ?_) rfl rfl
    · intro g; simp only [goOn, h2]
    · intro g
      by_cases e : g = p
      · rw [if_pos e, e]; exact e2
      · rw [if_neg e]; simp only [goOn_st, if_neg e, h3]
    · intro g; simp only [goOn_slots, h4]
    · intro g; simp only [h6]
  · cases hs

/-- Worker `w` is about to take a step of task `f`. -/
def At (x : XS σ V E) (w f : Nat) : Prop := x.c.pc w = .run f ∨ x.c.pc w = .joinTake f ∨ (∃ b, x.c.pc w = .finWin f b) ∨ x.c.pc w = .stole f ∨ ∃ c, x.c.pc w = .finPop f c ∧ x.c.q w ≠ []

/-- It is about to end task `f`, which `p` has called. -/
def Ends (x : XS σ V E) (w f p : Nat) : Prop := x.c.pc w = .run f ∧ x.c.link f = .call p

theorem sim_control (hd : Disc body pend dirty) {x x' : XS σ V E} (h : Exn.Reach (ctl body) pend (fun _ => True) x) (hf : Few x.c) {w : Nat}
    {ch : Choice E} (hch : Exn.Allowed may ch) (hn : ∀ f, x.c.pc w = .run f → NoAcc body (x.c.fr f).st) (hs : Exn.step (ctl body) w ch x = .ok x')
    {a : FJ σ V E L} (ha : FJ.Reach body may ok m a) (hr : XR x a) :
    To body may ok m (At x w) (Ends x w) a x' := by
  have hd' := disc_ctl hd
  have F := facts hd' h
  have hleg0 := Exn.history_legal hd' h
  have hleg := Exn.history_legal hd' (.step h hf (allowed_any ch) hs)
  have hsync := fun p c h1 h2 => Exn.sync_fork hd' h hs (p := p) (c := c) h1 h2
  have hx : ∀ p n, status p x.c.log = .waiting (.fork n) → x'.c.log = .resume p w :: x.c.log →
      ∃ c k xx b, ctl body (x.c.fr p).st = .fork c k xx ∧ (x'.c.fr p).st = k b ∧ (b = true → ∃ r, modeOf n x.c.log = .ended r) := by
    intro p n h1 h2
    obtain ⟨c, k, xx, b, e1, e2, e3, _⟩ := hsync p n h2 h1
    exact ⟨c, k, xx, b, e1, e2, fun hb => by obtain ⟨⟨r, hr⟩, _⟩ := e3 hb; exact ⟨r, done_mode hleg0 hr⟩⟩
  have hlt : ∀ n r, modeOf n x.c.log = .ended r → n < x.c.nf := fun n r hr => F.dn n (ended_iff.1 ⟨r, hr⟩)
  have hpassw : ∀ {x0 : XS σ V E} {f : Nat}, At x w f → x0.c.log = x.c.log → x0.c.nf = x.c.nf → f < x.c.nf → status f x.c.log = .waiting .join → XR x0 a →
      passJoin (ctl body) x0 w f = .ok x' → To body may ok m (At x w) (Ends x w) a x' := by
    intro x0 f hP e1 e2 hf hst hr0 hp
    have hlog : x'.c.log = .resume f w :: x0.c.log := by
      unfold passJoin at hp
      dsimp only at hp
      split at hp
      · split at hp <;> cases hp <;> rfl
      · cases hp
    rw [hlog, e1] at hleg
    have h2 := hleg.2.1
    unfold Runtime.MayResume at h2
    rw [hst] at h2
    exact sim_pass ha hr0 hP (by rw [e2]; exact hf) (by rw [e1]; exact mode_of_status hst) (by rw [e1]; exact h2) hp
  unfold Exn.step at hs
  cases hp : x.c.pc w with
  | idle =>
    rw [hp] at hs
    cases ch with
    | go ch =>
      cases ch with
      | take =>
        obtain ⟨c, e, rfl⟩ := plain_ok hs
        unfold take at e
        cases hb : x.c.inbox w with
        | nil => rw [hb] at e; cases e
        | cons f l =>
          rw [hb] at e
          dsimp only at e
          split at e
          · cases e
            exact To.stay ha (XR.to (hr.resume (w := w) (F.ib w f (by rw [hb]; exact List.mem_cons_self ..))) rfl (fun _ => rfl) (fun _ => rfl) (fun _ => rfl)
              rfl (fun _ => rfl))
          · cases e
      | steal v =>
        refine To.plain ha hr hs fun c e => ?_
        unfold steal at e
        split at e
        · split at e
          · cases e; exact ⟨rfl, rfl, fun _ => rfl, fun _ => rfl, rfl⟩
          · split at e <;> cases e
        · cases e
    | fail e late => cases hs
    | ready => cases hs
  | run f => rw [hp] at hs; exact sim_run F (.inl hp) (fun p h => ⟨hp, h⟩) hch (hn f hp) hp hs hleg ha hr
  | joinLoad f =>
    rw [hp] at hs
    refine To.plain ha hr hs fun c e => ?_
    unfold joinLoad at e
    dsimp only at e
    split at e <;> cases e <;> exact ⟨rfl, rfl, fun _ => rfl, fun _ => rfl, rfl⟩
  | joinSub f =>
    rw [hp] at hs
    refine To.plain ha hr hs fun c e => ?_
    unfold joinSub at e
    dsimp only at e
    split at e <;> cases e <;> exact ⟨rfl, rfl, upd_st _ _ _ rfl, upd_slots _ _ _ rfl, rfl⟩
  | joinTake f =>
    rw [hp] at hs
    obtain ⟨h1, h2⟩ := F.win w f (Or.inl hp)
    dsimp only at hs
    unfold Exn.joinTake at hs
    split at hs
    · refine hpassw (.inr (.inl hp)) ?_ ?_ h1 h2 ?_ hs
      · rfl
      · rfl
      · exact hr.congr rfl rfl (upd_st _ _ _ rfl) (upd_slots _ _ _ rfl) rfl rfl
    · cases hs
  | finPop p k =>
    rw [hp] at hs
    dsimp only at hs
    cases hq : x.c.q w with
    | nil =>
      rw [hq] at hs
      refine To.plain ha hr hs fun c e => ?_
      unfold finPop at e
      rw [hq] at e
      dsimp only at e
      split at e <;> cases e
      exact ⟨rfl, rfl, fun _ => rfl, fun _ => rfl, rfl⟩
    | cons e l =>
      obtain ⟨p', c'⟩ := e
      rw [hq] at hs
      dsimp only at hs
      unfold finPop at hs
      rw [hq] at hs
      dsimp only at hs
      split at hs
      · rename_i hc
        obtain ⟨rfl, -⟩ := hc
        obtain ⟨h1, h2⟩ := F.pop w p' k c' l hp hq
        refine sim_wake (w := w) ha hr (.inr (.inr (.inr (.inr ⟨_, hp, by rw [hq]; simp⟩)))) h1 h2 ?_ ?_ ?_ ?_ ?_ ?_ hs (hx p' k h2) (hlt k)
        · rfl
        · rfl
        · exact upd_st _ _ _ rfl
        · exact upd_slots _ _ _ rfl
        · rfl
        · rfl
      · cases hs
  | finDec p k same =>
    rw [hp] at hs
    refine To.plain ha hr hs fun c e => ?_
    unfold finDec at e
    dsimp only at e
    split at e
    · split at e <;> cases e
      all_goals
        refine ⟨rfl, rfl, fun g => ?_, fun g => ?_, rfl⟩
        · simp only [report, upd_apply]; split
          · rename_i e; rw [e]; simp
          · rfl
        · simp only [report, upd_apply]; split
          · rename_i e; rw [e]; simp
          · rfl
    · cases e
  | finWin p same =>
    rw [hp] at hs
    obtain ⟨h1, h2⟩ := F.win w p (Or.inr ⟨same, hp⟩)
    dsimp only at hs
    unfold Exn.finWin at hs
    split at hs
    · dsimp only at hs
      split at hs
      · refine hpassw (.inr (.inr (.inl ⟨same, hp⟩))) ?_ ?_ h1 h2 ?_ hs
        · rfl
        · rfl
        · exact hr.congr rfl rfl (upd_st _ _ _ rfl) (upd_slots _ _ _ rfl) rfl rfl
      · split at hs
        · refine hpassw (.inr (.inr (.inl ⟨same, hp⟩))) ?_ ?_ h1 h2 ?_ hs
          · rfl
          · rfl
          · exact hr.congr rfl rfl (upd_st _ _ _ rfl) (upd_slots _ _ _ rfl) rfl rfl
        · cases hs
    · cases hs
  | finLose same =>
    rw [hp] at hs
    refine To.plain ha hr hs fun c e => ?_
    unfold finLose at e
    cases same <;> simp only [Bool.false_eq_true, if_false, if_true] at e <;> split at e <;> cases e <;>
      exact ⟨rfl, rfl, fun _ => rfl, fun _ => rfl, rfl⟩
  | selfSteal =>
    rw [hp] at hs
    refine To.plain ha hr hs fun c e => ?_
    unfold selfSteal at e
    split at e
    · cases e; exact ⟨rfl, rfl, fun _ => rfl, fun _ => rfl, rfl⟩
    · split at e <;> cases e; exact ⟨rfl, rfl, fun _ => rfl, fun _ => rfl, rfl⟩
  | stole p =>
    rw [hp] at hs
    obtain ⟨h1, c, h2⟩ := F.sto w p hp
    dsimp only at hs
    unfold stole at hs
    split at hs
    · refine sim_wake (w := w) ha hr (.inr (.inr (.inr (.inl hp)))) h1 h2 ?_ ?_ ?_ ?_ ?_ ?_ hs (hx p c h2) (hlt c)
      · rfl
      · rfl
      · exact upd_st _ _ _ rfl
      · exact upd_slots _ _ _ rfl
      · rfl
      · rfl
    · cases hs
  | switchRel z =>
    rw [hp] at hs
    refine To.plain ha hr hs fun c e => ?_
    unfold switchRel at e
    cases z <;> simp only [Bool.false_eq_true, if_false, if_true] at e <;> split at e <;> cases e <;>
      exact ⟨rfl, rfl, fun _ => rfl, fun _ => rfl, rfl⟩

end Verif.Mem
