import Verif.Runtime.NoUb

/-!
C09, C11, C12, C13, C36 for every disciplined program, any number of workers and every schedule (and C10 for scopes with at most
65534 forks). What the events and `Ser`, `Legal` mean is in Verif.Runtime.Spec.
-/
namespace Verif.Runtime
variable {σ V : Type}

/-- Every state reached by any schedule, whatever the number of steals. -/
inductive ReachAny (body : σ → Act σ V) (pend : σ → Nat) : State σ V → Prop
  | start (x : σ) : ReachAny body pend (State.start x)
  | submit {s : State σ V} {c : σ} (w : Nat) : ReachAny body pend s → pend c = 0 → ReachAny body pend (submit s c w)
  | step {s s' : State σ V} {w : Nat} {ch : Choice} : ReachAny body pend s → step body w ch s = .ok s' → ReachAny body pend s'

theorem few_start (x : σ) : Few (State.start (V := V) x) := by intro p; simp [State.start, tok]

/-- What is not changed by frames that are no longer there. -/
theorem few_of_inv {body : σ → Act σ V} {pend : σ → Nat} (hp : ∀ x, pend x ≤ 65534) {s : State σ V} (h : Inv body pend s)
    (hdead : ∀ p, ¬ Alive (s.loc p) → (s.fr p).stolen = 0) : Few s := by
  intro p
  by_cases ha : Alive (s.loc p)
  · have h1 := h.count.slot p ha
    have h2 := h.st.pd p ha
    have h3 := hp (s.fr p).st
    omega
  · have h1 := hdead p ha
    have h2 : tok (s.loc p) = 0 := by
      cases hx : s.loc p <;> simp only [hx, Alive, tok] at ha ⊢ <;> exact absurd trivial ha
    omega

/-- A frame that has not been made or is destroyed has no steals on record. -/
theorem dead_step {body : σ → Act σ V} {pend : σ → Nat} (hd : Disc body pend) {s s' : State σ V} (h : Inv body pend s) (hf : Few s)
    (hdead : ∀ p, ¬ Alive (s.loc p) → (s.fr p).stolen = 0) (st : Step body P s s') :
    ∀ p, ¬ Alive (s'.loc p) → (s'.fr p).stolen = 0 := by
  have hl := h.link
  have hc := h.count
  have hw := hw_of h.loc hl hc hf
  have stl := hc.steal
  obtain ⟨fresh, run, sto, win, fin, queue, inb, qnd, ind⟩ := h.loc
  have e0 : s.loc s.nf = .unborn := (fresh _).2 (Nat.le_refl _)
  have kidA : ∀ w p c, (s.pc w = .finPop p c ∨ ∃ b, s.pc w = .finDec p c b) → Alive (s.loc p) ∧ s.loc c = .finishing w := by
    intro w p c hpc
    have e1 : s.loc c = .finishing w := (fin w c).2 ⟨p, hpc⟩
    rcases hpc with e | ⟨b, e⟩
    · exact ⟨hl.kid c p (hl.flink w p c e) (by simp [e1]) (by simp [e1]), e1⟩
    · exact ⟨hl.kid c p (hl.flink' w p c b e) (by simp [e1]) (by simp [e1]), e1⟩
  cases st with
  | fork w f c k h1 h2 =>
    have e1 : s.loc f = .running w := (run w f).2 (Or.inl h1)
    simp only [doFork, newFrame, upd_apply]; grind [Alive]
  | call w f c k h1 h2 =>
    have e1 : s.loc f = .running w := (run w f).2 (Or.inl h1)
    simp only [doCall, newFrame, upd_apply]; grind [Alive]
  | joinNow w f k vs h1 => simp only [passed, upd_apply]; grind [Alive]
  | joinWait w f k h1 => exact hdead
  | loadWin w f h1 h2 =>
    have e1 : s.loc f = .running w := (run w f).2 (Or.inr (Or.inl h1))
    simp only [upd_apply]; grind [Alive]
  | loadLose w f h1 => exact hdead
  | subWin w f h1 h2 => simp only [upd_apply]; grind [Alive]
  | subLose w f h1 h2 => simp only [upd_apply]; grind [Alive]
  | joinTake w f k vs h1 => simp only [passed, reset, upd_apply]; grind [Alive]
  | retRoot w f v h1 h2 h3 =>
    have e1 : s.loc f = .running w := (run w f).2 (Or.inl h1)
    have := stl f (by simp [e1, Alive])
    simp only [destroyed, upd_apply]; grind [Alive]
  | retCall w f p v c k h1 h2 h3 h4 =>
    have e1 : s.loc f = .running w := (run w f).2 (Or.inl h1)
    have := stl f (by simp [e1, Alive])
    simp only [destroyed, upd_apply]; grind [Alive]
  | retFork w f p i v h1 h2 h3 h4 =>
    have e1 : s.loc f = .running w := (run w f).2 (Or.inl h1)
    have := stl f (by simp [e1, Alive])
    have e3 : Alive (s.loc p) := hl.kid f p (by rw [h4]; rfl) (by simp [e1]) (by simp [e1])
    simp only [destroyed, upd_apply]; grind [Alive]
  | popHit w p c c' r h1 h2 =>
    have := kidA w p c (Or.inl h1)
    simp only [report, upd_apply]; grind [Alive]
  | popMiss w p c h1 h2 => exact hdead
  | decWin w p c same h1 h2 =>
    have := kidA w p c (Or.inr ⟨_, h1⟩)
    simp only [report, upd_apply]; grind [Alive]
  | decLose w p c same h1 h2 =>
    have := kidA w p c (Or.inr ⟨_, h1⟩)
    simp only [report, upd_apply]; grind [Alive]
  | finWin w p same k vs h1 => simp only [passed, reset, upd_apply]; grind [Alive]
  | finLose w same h1 => cases same <;> exact hdead
  | selfSteal w p c r h1 h2 => simp only [upd_apply]; grind [Alive]
  | selfNone w h1 h2 => exact hdead
  | stole w p h1 => simp only [upd_apply]; grind [Alive]
  | switch w f d k z h1 => simp only [upd_apply]; grind [Alive]
  | switchRel w z h1 => cases z <;> exact hdead
  | steal w v p c r h1 h2 h3 => simp only [upd_apply]; grind [Alive]
  | take w f r h1 h2 => simp only [upd_apply]; grind [Alive]
  | submit c w => simp only [submit, newFrame, upd_apply]; grind [Alive]

/-- A program whose scopes fork at most 65534 children meets the bound of `Reach` in every schedule. -/
theorem reach_of_bounded {body : σ → Act σ V} {pend : σ → Nat} (hd : Disc body pend) (hp : ∀ x, pend x ≤ 65534) {s : State σ V}
    (h : ReachAny body pend s) : Reach body pend s ∧ Few s := by
  suffices hx : Reach body pend s ∧ ∀ p, ¬ Alive (s.loc p) → (s.fr p).stolen = 0 from
    ⟨hx.1, few_of_inv hp (reach_inv hd hx.1) hx.2⟩
  induction h with
  | start x => exact ⟨.start x, fun p _ => rfl⟩
  | submit w _ hc ih =>
    have hi := reach_inv hd ih.1
    have hf := few_of_inv hp hi ih.2
    exact ⟨.submit w ih.1 hf hc, dead_step hd hi hf ih.2 (P := fun _ => True) (.submit _ _ w trivial)⟩
  | step _ hs ih =>
    have hi := reach_inv hd ih.1
    have hf := few_of_inv hp hi ih.2
    exact ⟨.step ih.1 hf hs, dead_step hd hi hf ih.2 (P := fun _ => True) (step_rel hs)⟩

/-! ### Facts about histories -/

theorem done_of_status {f : Nat} {l : List (Ev σ V)} (h : status f l = .done) : ∃ v, Ev.done f v ∈ l := by
  induction l with
  | nil => cases h
  | cons e l ih =>
    cases e <;> simp only [status] at h <;> split at h <;>
      first
        | cases h; done
        | (rename_i e; subst e; exact ⟨_, List.mem_cons_self ..⟩)
        | (obtain ⟨v, hv⟩ := ih h; exact ⟨v, List.mem_cons_of_mem _ hv⟩)

theorem legal_tail {l1 l2 : List (Ev σ V)} (h : Legal (l2 ++ l1)) : Legal l1 := by
  induction l2 with
  | nil => exact h
  | cons e l ih =>
    cases e with
    | submit => exact ih h.2
    | resume => exact ih h.2.2
    | suspend => exact ih h.2
    | done => exact ih h.2.2

/-- A task that runs stops running only by being suspended or returning. -/
theorem stops {f w : Nat} {l1 l2 : List (Ev σ V)} (h : status f l1 = .running w) (hl : Legal (l2 ++ l1))
    (h2 : status f (l2 ++ l1) ≠ .running w) : (∃ y, Ev.suspend f y ∈ l2) ∨ ∃ v, Ev.done f v ∈ l2 := by
  induction l2 with
  | nil => exact absurd h h2
  | cons e l ih =>
    by_cases hr : status f (l ++ l1) = .running w
    · cases e with
      | submit g c v =>
        by_cases e : g = f
        · subst e; have this : status g (l ++ l1) = .new := hl.1; rw [hr] at this; cases this
        · simp [status, e, hr] at h2
      | resume g v =>
        by_cases e : g = f
        · subst e; have := hl.2.1; simp [MayResume, hr] at this
        · simp [status, e, hr] at h2
      | suspend g y =>
        by_cases e : g = f
        · subst e; exact Or.inl ⟨y, List.mem_cons_self ..⟩
        · simp [status, e, hr] at h2
      | done g v =>
        by_cases e : g = f
        · subst e; exact Or.inr ⟨v, List.mem_cons_self ..⟩
        · simp [status, e, hr] at h2
    · have := legal_tail (l2 := [e]) hl
      rcases ih this hr with ⟨y, hy⟩ | ⟨v, hv⟩
      · exact Or.inl ⟨y, List.mem_cons_of_mem _ hy⟩
      · exact Or.inr ⟨v, List.mem_cons_of_mem _ hv⟩

/-- Once done a task stays done. -/
theorem done_stays {f : Nat} {l1 l2 : List (Ev σ V)} (h : status f l1 = .done) (hl : Legal (l2 ++ l1)) :
    status f (l2 ++ l1) = .done ∧ ∀ e ∈ l2, (∀ w, e ≠ .resume f w) ∧ ∀ v, e ≠ .done f v := by
  induction l2 with
  | nil => exact ⟨h, by simp⟩
  | cons e l ih =>
    obtain ⟨hs, hn⟩ := ih (legal_tail (l2 := [e]) hl)
    cases e with
    | submit g c v =>
      have hne : g ≠ f := by rintro rfl; have this : status g (l ++ l1) = .new := hl.1; rw [hs] at this; cases this
      refine ⟨by simp [status, hne, hs], fun e he => ?_⟩
      rcases List.mem_cons.1 he with rfl | he
      · simp
      · exact hn e he
    | resume g v =>
      have hne : g ≠ f := by rintro rfl; have := hl.2.1; simp [MayResume, hs] at this
      refine ⟨by simp [status, hne, hs], fun e he => ?_⟩
      rcases List.mem_cons.1 he with rfl | he
      · simp [hne]
      · exact hn e he
    | suspend g y =>
      have hne : g ≠ f := by rintro rfl; obtain ⟨w, hw⟩ := hl.1; have hw : status g (l ++ l1) = .running w := hw; rw [hs] at hw; cases hw
      refine ⟨by simp [status, hne, hs], fun e he => ?_⟩
      rcases List.mem_cons.1 he with rfl | he
      · simp
      · exact hn e he
    | done g v =>
      have hne : g ≠ f := by rintro rfl; obtain ⟨w, hw⟩ := hl.1; have hw : status g (l ++ l1) = .running w := hw; rw [hs] at hw; cases hw
      refine ⟨by simp [status, hne, hs], fun e he => ?_⟩
      rcases List.mem_cons.1 he with rfl | he
      · simp [hne]
      · exact hn e he

/-! ### The properties -/

section
variable {body : σ → Act σ V} {pend : σ → Nat} (hd : Disc body pend)
include hd

/-- Every history keeps the rules of Verif.Runtime.Spec. -/
theorem history_legal {s : State σ V} (h : Reach body pend s) : Legal s.log := (reach_inv hd h).legal

/-- C09: a task resumed after `co_await join`, on whatever worker, is resumed when every child it has forked so far has returned
and its result is there. (`l1` is the history before the resumption.) -/
theorem join_after_children {s : State σ V} (h : Reach body pend s) {f w : Nat} {l1 l2 : List (Ev σ V)}
    (hl : s.log = l2 ++ .resume f w :: l1) (hj : status f l1 = .waiting .join) : ∀ c ∈ forked f l1, ∃ v, Ev.done c v ∈ l1 := by
  have hg := history_legal hd h
  rw [hl] at hg
  have := (legal_tail hg).2.1
  simp only [MayResume, hj] at this
  exact fun c hc => done_of_status (this c hc)

/-- C09, C11, C36: between two resumptions of a task it was suspended: every suspension is resumed at most once. -/
theorem resumed_once {s : State σ V} (h : Reach body pend s) {f w w' : Nat} {l1 l2 l3 : List (Ev σ V)}
    (hl : s.log = l3 ++ .resume f w' :: (l2 ++ .resume f w :: l1)) : ∃ y, Ev.suspend f y ∈ l2 := by
  have hg := history_legal hd h
  rw [hl] at hg
  have h1 := legal_tail hg
  have hr : status f (.resume f w :: l1) = .running w := by simp [status]
  have h2 : status f (l2 ++ .resume f w :: l1) ≠ .running w := by
    intro e; have := h1.2.1; simp [MayResume, e] at this
  rcases stops hr h1.2.2 h2 with h3 | ⟨v, hv⟩
  · exact h3
  · exfalso
    obtain ⟨a, b, rfl⟩ := List.append_of_mem hv
    have h4 : status f (.done f v :: (b ++ .resume f w :: l1)) = .done := by simp [status]
    have h5 := (done_stays (l2 := a) h4 (by simpa using h1.2.2)).1
    have h6 := h1.2.1
    simp only [List.append_assoc, List.cons_append] at h6
    simp [MayResume, h5] at h6

/-- C09: a task returns at most once and is not resumed afterwards. -/
theorem returns_once {s : State σ V} (h : Reach body pend s) {f : Nat} {v : V} {l1 l2 : List (Ev σ V)}
    (hl : s.log = l2 ++ .done f v :: l1) : ∀ e ∈ l2, (∀ w, e ≠ .resume f w) ∧ ∀ u, e ≠ .done f u := by
  have hg := history_legal hd h
  rw [hl] at hg
  exact (done_stays (by simp [status]) hg).2

/-- C09: the result of a submitted task is the one of its serial elision, whatever the schedule. -/
theorem result_serial {s : State σ V} (h : Reach body pend s) {f w : Nat} {c : σ} {v : V} (hsub : Ev.submit f c w ∈ s.log)
    (hdone : Ev.done f v ∈ s.log) : Ser body c [] v ∧ ∀ u, Ser body c [] u → u = v := by
  have hr := (reach_inv hd h).res
  have h1 := (hr.dn f v hdone).1
  rw [(hr.sb f c w hsub).1] at h1
  exact ⟨h1, fun u hu => hu.det h1⟩

/-- C11: a task resumed after `co_await call` is resumed when the callee has returned. -/
theorem call_after_callee {s : State σ V} (h : Reach body pend s) {f w c : Nat} {l1 l2 : List (Ev σ V)}
    (hl : s.log = l2 ++ .resume f w :: l1) (hj : status f l1 = .waiting (.call c)) : ∃ v, Ev.done c v ∈ l1 := by
  have hg := history_legal hd h
  rw [hl] at hg
  have := (legal_tail hg).2.1
  simp only [MayResume, hj] at this
  exact done_of_status this

/-- C36: a task that was handed to worker `d` is resumed by `d`. -/
theorem switch_dest {s : State σ V} (h : Reach body pend s) {f w d : Nat} {l1 l2 : List (Ev σ V)}
    (hl : s.log = l2 ++ .resume f w :: l1) (hj : status f l1 = .waiting (.switch d)) : w = d := by
  have hg := history_legal hd h
  rw [hl] at hg
  have := (legal_tail hg).2.1
  simpa only [MayResume, hj] using this

/-- A worker runs one task at a time. -/
theorem one_at_a_time {s : State σ V} (h : Reach body pend s) {f w : Nat} {l1 l2 : List (Ev σ V)}
    (hl : s.log = l2 ++ .resume f w :: l1) : ∀ g, status g l1 ≠ .running w := by
  have hg := history_legal hd h
  rw [hl] at hg
  exact (legal_tail hg).1

/-- C12: a worker that is in its scheduler loop has an empty queue and an empty stack. -/
theorem idle_empty {s : State σ V} (h : Reach body pend s) {w : Nat} (hw : s.pc w = .idle) : s.q w = [] ∧ s.al (s.wk w) = [] :=
  ⟨(reach_inv hd h).q.idl w hw, (reach_inv hd h).stk.id w hw⟩

/-- C12, C13: no assertion fails and nothing undefined happens: in particular every frame is destroyed on top of the stack of
the worker that destroys it, results are read after they are written, no destroyed frame is touched and the worker has an empty
queue and stack whenever control returns to the scheduler. -/
theorem no_ub {s : State σ V} (h : Reach body pend s) (hf : Few s) (w : Nat) (ch : Choice) : step body w ch s ≠ .ub := by
  have hi := reach_inv hd h
  by_cases hw : s.pc w = .idle
  · exact idle_step hi w ch hw
  · obtain ⟨s', e⟩ := busy_step hd hi hf w ch hw
    rw [e]; simp

/-- No worker ever gets stuck inside a task. -/
theorem busy_proceeds {s : State σ V} (h : Reach body pend s) (hf : Few s) (w : Nat) (ch : Choice) (hw : s.pc w ≠ .idle) :
    ∃ s', step body w ch s = .ok s' := busy_step hd (reach_inv hd h) hf w ch hw

/-- C13: two workers never own the same stack. (`Zomb`: the worker has given its stack away and is about to make a new one; it
allocates nothing in between.) -/
theorem stacks_unique {s : State σ V} (h : Reach body pend s) {w w' : Nat} (hz : ¬ Zomb (s.pc w)) (hz' : ¬ Zomb (s.pc w'))
    (he : s.wk w = s.wk w') : w = w' := (reach_inv hd h).stk.inj w w' hz hz' he

/-- C09, C36: no task is lost: when every worker is back in its scheduler and no submission is left, every task ever made has
returned. -/
theorem nothing_lost {s : State σ V} (h : Reach body pend s) (hw : ∀ w, s.pc w = .idle) (hb : ∀ w, s.inbox w = []) :
    ∀ f, f < s.nf → ∃ v, Ev.done f v ∈ s.log := by
  have hi := reach_inv hd h
  have key : ∀ n f, s.nf ≤ n + f → ¬ Alive (s.loc f) := by
    intro n
    induction n with
    | zero => intro f hf ha; rw [(hi.loc.fresh f).2 (by omega)] at ha; exact ha
    | succ n ih =>
      intro f hf ha
      cases hx : s.loc f with
      | unborn => rw [hx] at ha; exact ha
      | running w => have := (hi.loc.run w f).1 hx; simp [hw w] at this
      | stolenBy w => have := (hi.loc.sto w f).1 hx; simp [hw w] at this
      | queued w c => have := (hi.loc.queue w f c).1 hx; rw [hi.q.idl w (hw w)] at this; cases this
      | inbox w => have := (hi.loc.inb w f).1 hx; rw [hb w] at this; cases this
      | callwait c =>
        obtain ⟨h1, h2⟩ := (hi.link.callw f c).1 hx
        have hlt : c < s.nf := hi.st.cb f c hx
        have := hi.link.olderC c f hlt h1
        exact ih c (by omega) h2
      | parked =>
        have hj := hi.count.join f ha
        simp only [hx, JoinOk] at hj
        cases hk : (s.fr f).kids with
        | nil => exact hj.2 hk
        | cons c l =>
          obtain ⟨h1, h2, h3⟩ := (hi.link.kids f ha c).1 (by rw [hk]; exact List.mem_cons_self ..)
          have hlt : c < s.nf := by
            have := hi.loc.fresh c
            by_cases hc : s.nf ≤ c
            · exact absurd (this.2 hc) h2
            · omega
          have hlt2 := hi.link.olderF c f hlt h1
          refine ih c (by omega) ?_
          cases hx2 : s.loc c with
          | unborn => exact absurd hx2 h2
          | gone => exact absurd hx2 h3
          | finishing w =>
            obtain ⟨p, hp⟩ := (hi.loc.fin w c).1 hx2
            simp [hw w] at hp
          | _ => trivial
      | winning w => have := (hi.loc.win w f).1 hx; simp [hw w] at this
      | finishing w => rw [hx] at ha; exact ha
      | gone => rw [hx] at ha; exact ha
  intro f hf
  refine done_of_status ?_
  have ha := key s.nf f (by omega)
  cases hx : s.loc f with
  | unborn => have := (hi.loc.fresh f).1 hx; omega
  | finishing w => exact hi.log.fi w f hx
  | gone => exact hi.log.go f hx
  | _ => rw [hx] at ha; exact absurd trivial ha

/-- C10 for scopes with at most 65534 forks: every join decision is right (the history is legal) and no assertion fails, in every
schedule. What is missing of C10 is false: `Counter.join_counter_overflow` shows a wrong join decision with 65535 forks. -/
theorem join_counter_partial (hp : ∀ x, pend x ≤ 65534) {s : State σ V} (h : ReachAny body pend s) :
    Legal s.log ∧ ∀ w ch, step body w ch s ≠ .ub :=
  have hr := reach_of_bounded hd hp h
  ⟨history_legal hd hr.1, no_ub hd hr.1 hr.2⟩

end

/-- C13: frames are made and destroyed at the top: one step of a worker changes only the top of a stack, and only of its own. -/
theorem frames_filo {body : σ → Act σ V} {s s' : State σ V} {w : Nat} {ch : Choice} (hs : step body w ch s = .ok s') (k : Nat) :
    s'.al k = s.al k ∨ (k = s.wk w ∧ ∃ f, s'.al k = f :: s.al k ∨ s.al k = f :: s'.al k) := by
  have up : ∀ f t, s.al (s.wk w) = f :: t →
      (upd s.al (s.wk w) (s.al (s.wk w)).tail) k = s.al k ∨
        (k = s.wk w ∧ ∃ f, (upd s.al (s.wk w) (s.al (s.wk w)).tail) k = f :: s.al k ∨
          s.al k = f :: (upd s.al (s.wk w) (s.al (s.wk w)).tail) k) := by
    intro f t ht
    by_cases e : k = s.wk w
    · right; refine ⟨e, f, Or.inr ?_⟩; subst e; rw [upd_same, ht]; rfl
    · left; rw [upd_ne _ _ e]
  have pj : ∀ {s1 : State σ V} {f : Nat}, passJoin body s1 w f = .ok s' → s1.al = s.al → s'.al k = s.al k := by
    intro s1 f h1 h2
    obtain ⟨k', vs, rfl, _⟩ := passJoin_ok h1
    simp [passed, h2]
  unfold step at hs
  cases hp : s.pc w with
  | idle =>
    rw [hp] at hs
    cases ch with
    | take => simp only [take] at hs; split at hs <;> try split at hs
              all_goals cases hs
              exact Or.inl rfl
    | steal v => simp only [steal] at hs; split at hs <;> try split at hs
                 all_goals try split at hs
                 all_goals cases hs
                 exact Or.inl rfl
  | run f =>
    rw [hp] at hs
    simp only at hs
    cases hb : body (s.fr f).st with
    | ret v =>
      rw [hb] at hs
      simp only [doRet] at hs
      split at hs
      · cases hl : s.link f with
        | root =>
          rw [hl] at hs; simp only at hs
          cases hdt : destroy s w f with
          | ok s1 =>
            rw [hdt] at hs
            obtain ⟨rfl, ht⟩ := destroy_ok hdt
            obtain ⟨t, ht⟩ := top_cons ht
            simp only at hs
            split at hs
            · cases hs; exact up f t ht
            · cases hs
          | ub => rw [hdt] at hs; cases hs
          | no => rw [hdt] at hs; cases hs
        | call p =>
          rw [hl] at hs; simp only at hs
          split at hs
          · split at hs
            · rename_i hdt
              obtain ⟨rfl, ht⟩ := destroy_ok hdt
              obtain ⟨t, ht⟩ := top_cons ht
              cases hs; exact up f t ht
            · cases hs
          · cases hs
        | fork p i =>
          rw [hl] at hs; simp only at hs
          split at hs
          · split at hs
            · rename_i hdt
              obtain ⟨rfl, ht⟩ := destroy_ok hdt
              obtain ⟨t, ht⟩ := top_cons ht
              cases hs; exact up f t ht
            · cases hs
          · cases hs
      · cases hs
    | fork c k' =>
      rw [hb] at hs; cases hs
      by_cases e : k = s.wk w
      · right; refine ⟨e, s.nf, Or.inl ?_⟩; subst e; simp [doFork, newFrame, upd_same]
      · left; simp [doFork, newFrame, upd_ne _ _ e]
    | call c k' =>
      rw [hb] at hs; cases hs
      by_cases e : k = s.wk w
      · right; refine ⟨e, s.nf, Or.inl ?_⟩; subst e; simp [doCall, newFrame, upd_same]
      · left; simp [doCall, newFrame, upd_ne _ _ e]
    | join k' =>
      rw [hb] at hs
      simp only [doJoin] at hs
      split at hs
      · exact Or.inl (pj hs rfl)
      · cases hs; exact Or.inl rfl
    | switch d k' =>
      rw [hb] at hs
      simp only [doSwitch] at hs
      split at hs
      · cases hs; exact Or.inl rfl
      · cases hs
  | joinLoad f =>
    rw [hp] at hs; simp only [joinLoad] at hs
    split at hs <;> cases hs <;> exact Or.inl rfl
  | joinSub f =>
    rw [hp] at hs; simp only [joinSub] at hs
    split at hs <;> cases hs <;> exact Or.inl rfl
  | joinTake f =>
    rw [hp] at hs; simp only [joinTake] at hs
    split at hs
    · exact Or.inl (pj hs rfl)
    · cases hs
  | finPop p c =>
    rw [hp] at hs; simp only [finPop] at hs
    split at hs <;> split at hs <;> cases hs <;> exact Or.inl rfl
  | finDec p c same =>
    rw [hp] at hs; simp only [finDec] at hs
    split at hs
    · split at hs <;> cases hs <;> exact Or.inl rfl
    · cases hs
  | finWin p same =>
    rw [hp] at hs; simp only [finWin] at hs
    split at hs
    · cases same with
      | true => exact Or.inl (pj hs rfl)
      | false =>
        simp only [Bool.false_eq_true, if_false] at hs
        split at hs
        · exact Or.inl (pj hs rfl)
        · cases hs
    · cases hs
  | finLose same =>
    rw [hp] at hs; simp only [finLose] at hs
    by_cases hc : (if same = true then release s w else s).wkEmpty w = true ∧ (if same = true then release s w else s).q w = []
    · rw [if_pos hc] at hs; cases hs; cases same <;> exact Or.inl rfl
    · rw [if_neg hc] at hs; cases hs
  | selfSteal =>
    rw [hp] at hs; simp only [selfSteal] at hs
    split at hs
    · cases hs; exact Or.inl rfl
    · split at hs <;> cases hs; exact Or.inl rfl
  | stole p =>
    rw [hp] at hs; simp only [stole] at hs
    split at hs <;> cases hs; exact Or.inl rfl
  | switchRel z =>
    rw [hp] at hs; simp only [switchRel] at hs
    by_cases hc : (if z = true then release s w else s).wkEmpty w = true
    · rw [if_pos hc] at hs; cases hs; cases z <;> exact Or.inl rfl
    · rw [if_neg hc] at hs; cases hs

end Verif.Runtime
