import Verif.Compose.Props
import Verif.Runtime.Example

/-!
A worker that is in a task or in a call to a queue can always go on: `advance` is the next step of worker `w`. It also runs the
examples.
-/
namespace Verif.Compose
open Verif.Runtime
open Verif.Deque (St Buf OPc TPc setT setB hasSingleBit)
variable {σ V : Type} {maxCap cap : Nat} {body : σ → Act σ V} {pend : σ → Nat}

/-- The next access of the owner inside a call. -/
def ostep (maxCap : Nat) (s : St Nat Nat) : Option (St Nat Nat) :=
  match s.opc with
  | .idle | .ret _ => none
  | .push0 v => some { s with opc := .push1 v s.bottom }
  | .push1 v b => some { s with opc := .push2 v b s.top }
  | .push2 v b t =>
    if ((s.bufs s.cur).cap : Int) < (b - t) + 1 then some { s with opc := .push3 v b t s.cur } else some { s with opc := .push5 v b s.cur }
  | .push3 v b t buf =>
    if 2 * (s.bufs buf).cap ≤ maxCap then
      some { s with
        bufs := setB s.bufs (s.cur + 1) ((s.bufs buf).resize (fun _ => 0) b t), garbage := s.garbage + 1, opc := .push4 v b (s.cur + 1),
        bad := s.bad || !hasSingleBit (2 * (s.bufs buf).cap) || decide (t < 0) || decide (b < t) }
    else some { s with opc := .ret (.threw v) }
  | .push4 v b nb => some { s with cur := nb, opc := .push5 v b nb }
  | .push5 v b buf =>
    some { s with bufs := setB s.bufs buf ((s.bufs buf).set b v), opc := .push6 v b, bad := s.bad || decide (b < 0) }
  | .push6 _ b => some { s with bottom := b + 1, opc := .ret .pushed }
  | .pop0 => some { s with opc := .pop1 (s.bottom - 1) }
  | .pop1 b => some { s with opc := .pop2 b s.cur }
  | .pop2 b buf => some { s with bottom := b, opc := .pop3 b buf }
  | .pop3 b buf =>
    if s.top < b then some { s with opc := .pop7 b buf }
    else if s.top = b then some { s with opc := .pop4 b buf } else some { s with opc := .pop5 b }
  | .pop4 b buf => if s.top = b then some { s with top := b + 1, opc := .pop6 b buf } else some { s with opc := .pop5 b }
  | .pop5 b => some { s with bottom := b + 1, opc := .ret .none }
  | .pop6 b buf => some { s with bottom := b + 1, opc := .pop7 b buf }
  | .pop7 b buf => some { s with opc := .ret (.got ((s.bufs buf).get b)), bad := s.bad || decide (b < 0) }
  | .size0 => some { s with opc := .size1 s.bottom }
  | .size1 b => some { s with opc := .ret (.size (max (b - s.top) 0).toNat) }

theorem ostep_step {s s' : St Nat Nat} (h : ostep maxCap s = some s') : Verif.Deque.Step maxCap s none s' := by
  unfold ostep at h
  split at h
  all_goals try (rename_i hpc)
  all_goals try (split at h)
  all_goals try (split at h)
  all_goals cases h
  case h_3 => exact .push0 hpc
  case h_4 => exact .push1 hpc
  case h_5.isTrue => exact .push2full hpc ‹_›
  case h_5.isFalse => exact .push2 hpc ‹_›
  case h_6.isTrue => exact .push3 _ hpc ‹_›
  case h_6.isFalse => exact .push3throw hpc
  case h_7 => exact .push4 hpc
  case h_8 => exact .push5 hpc
  case h_9 => exact .push6 hpc
  case h_10 => exact .pop0 hpc
  case h_11 => exact .pop1 hpc
  case h_12 => exact .pop2 hpc
  case h_13.isTrue => exact .pop3lt hpc ‹_›
  case h_13.isFalse.isTrue => exact .pop3eq hpc ‹_›
  case h_13.isFalse.isFalse => exact .pop3gt hpc (by omega)
  case h_14.isTrue => exact .pop4ok hpc ‹_›
  case h_14.isFalse => exact .pop4fail hpc ‹_›
  case h_15 => exact .pop5 hpc
  case h_16 => exact .pop6 hpc
  case h_17 => exact .pop7 hpc
  case h_18 => exact .size0 hpc
  case h_19 => exact .size1 hpc

theorem ostep_some {s : St Nat Nat} (h : s.opc ≠ .idle) (h2 : ∀ r, s.opc ≠ .ret r) : ∃ s', ostep maxCap s = some s' := by
  unfold ostep
  split
  · exact absurd ‹_› h
  · exact absurd ‹_› (h2 _)
  all_goals try (split)
  all_goals try (split)
  all_goals exact ⟨_, rfl⟩

/-- The next access of thief `i` inside `steal`. -/
def tstep (s : St Nat Nat) (i : Nat) : Option (St Nat Nat) :=
  match s.tpc i with
  | .idle | .ret _ => none
  | .st0 => some { s with tpc := setT s.tpc i (.st1 s.top) }
  | .st1 t => if t < s.bottom then some { s with tpc := setT s.tpc i (.st2 t) } else some { s with tpc := setT s.tpc i (.ret .empty) }
  | .st2 t => some { s with tpc := setT s.tpc i (.st3 t s.cur) }
  | .st3 t buf => some { s with tpc := setT s.tpc i (.st4 t ((s.bufs buf).get t)), bad := s.bad || decide (t < 0) }
  | .st4 t v =>
    if s.top = t then some { s with top := t + 1, tpc := setT s.tpc i (.ret (.got v)) } else some { s with tpc := setT s.tpc i (.ret .lost) }

theorem tstep_step {s s' : St Nat Nat} {i : Nat} (h : tstep s i = some s') : Verif.Deque.Step maxCap s none s' := by
  unfold tstep at h
  split at h
  all_goals try (rename_i hpc)
  all_goals try (split at h)
  all_goals cases h
  case h_3 => exact .st0 hpc
  case h_4.isTrue => exact .st1 hpc ‹_›
  case h_4.isFalse => exact .st1empty hpc ‹_›
  case h_5 => exact .st2 hpc
  case h_6 => exact .st3 hpc
  case h_7.isTrue => exact .st4ok hpc ‹_›
  case h_7.isFalse => exact .st4fail hpc ‹_›

theorem tstep_some {s : St Nat Nat} {i : Nat} (h : s.tpc i ≠ .idle) (h2 : ∀ r, s.tpc i ≠ .ret r) : ∃ s', tstep s i = some s' := by
  unfold tstep
  split
  · exact absurd ‹_› h
  · exact absurd ‹_› (h2 _)
  all_goals try (split)
  all_goals exact ⟨_, rfl⟩

def isIdle : OPc Nat → Bool
  | .idle => true
  | _ => false

def isIdleT : TPc Nat → Bool
  | .idle => true
  | _ => false

theorem isIdle_eq {p : OPc Nat} : isIdle p = true ↔ p = .idle := by cases p <;> simp [isIdle]
theorem isIdleT_eq {p : TPc Nat} : isIdleT p = true ↔ p = .idle := by cases p <;> simp [isIdleT]

/-- The next step of worker `w`; `ch` is its choice if it is in its scheduler loop. `none`: there is none (nothing submitted, it
would steal from itself, or its `push` throws). -/
def advance (body : σ → Act σ V) (maxCap cap w : Nat) (ch : Choice) (x : ICS σ V maxCap cap) : Res (ICS σ V maxCap cap) :=
  let d := x.dq w
  let own := (implObj maxCap cap).own d
  let loc := Res.map (fun c' => { x with c := c' }) (step body w ch (see x.c w own))
  match x.call w with
  | .none =>
    match x.c.pc w with
    | .selfSteal | .finPop _ _ => if isIdle d.opc then .ok { x with dq := upd x.dq w { d with opc := .pop0 }, call := upd x.call w .pop } else .no
    | .run f =>
      match body (x.c.fr f).st with
      | .fork a k => if isIdle d.opc then .ok ⟨doFork x.c w f a k, upd x.dq w { d with opc := .push0 f }, upd x.call w .push⟩ else .no
      | _ => loc
    | .idle =>
      match ch with
      | .take => loc
      | .steal v =>
        let e := x.dq v
        if v ≠ w ∧ isIdleT (e.tpc w) then
          .ok { x with dq := upd x.dq v { e with tpc := setT e.tpc w .st0 }, call := upd x.call w (.steal v) }
        else .no
    | _ => loc
  | .push =>
    match d.opc with
    | .ret .pushed => .ok { x with dq := upd x.dq w { d with opc := .idle }, call := upd x.call w .none }
    | _ => match ostep maxCap d with
      | some d' => .ok { x with dq := upd x.dq w d' }
      | none => .no
  | .pop =>
    match d.opc with
    | .ret r =>
      match popSeen r with
      | some l => Res.map (fun c' => ⟨c', upd x.dq w { d with opc := .idle }, upd x.call w .none⟩) (step body w ch (see x.c w l))
      | none => .no
    | _ => match ostep maxCap d with
      | some d' => .ok { x with dq := upd x.dq w d' }
      | none => .no
  | .steal v =>
    let e := x.dq v
    match e.tpc w with
    | .ret (.got p) =>
      Res.map (fun c' => ⟨c', upd x.dq v { e with tpc := setT e.tpc w .idle }, upd x.call w .none⟩) (step body w (.steal v) (see2 x.c w own v p))
    | .ret _ => .ok { x with dq := upd x.dq v { e with tpc := setT e.tpc w .idle }, call := upd x.call w .none }
    | _ => match tstep e w with
      | some d' => .ok { x with dq := upd x.dq v d' }
      | none => .no

/-- `advance` takes steps of the model. -/
theorem advance_step {x : ICS σ V maxCap cap} {w : Nat} {ch : Choice} :
    advance body maxCap cap w ch x = .no ∨ Step body (implObj maxCap cap) x (advance body maxCap cap w ch x) := by
  unfold advance
  dsimp only
  cases hc : x.call w with
  | none =>
    dsimp only
    cases hp : x.c.pc w with
    | idle =>
      dsimp only
      cases ch with
      | take => exact .inr (.loc w .take hc (by simp [Local, hp]))
      | steal v =>
        dsimp only
        split
        · rename_i h
          exact .inr (.steal w v hc hp h.1 (.sinv (isIdleT_eq.1 h.2)))
        · exact .inl rfl
    | run f =>
      dsimp only
      cases hb : body (x.c.fr f).st with
      | fork a k =>
        dsimp only
        split
        · rename_i h
          exact .inr (.fork w f a k hc hp hb (.oinvPush f (isIdle_eq.1 h)))
        · exact .inl rfl
      | _ => exact .inr (.loc w ch hc (by simp [Local, hp, hb]))
    | finPop p k =>
      dsimp only
      split
      · rename_i h
        exact .inr (.pop w hc (.inr ⟨p, k, hp⟩) (.oinvPop (isIdle_eq.1 h)))
      · exact .inl rfl
    | selfSteal =>
      dsimp only
      split
      · rename_i h
        exact .inr (.pop w hc (.inl hp) (.oinvPop (isIdle_eq.1 h)))
      · exact .inl rfl
    | _ => exact .inr (.loc w ch hc (by simp [Local, hp]))
  | push =>
    dsimp only
    split
    · rename_i h; exact .inr (.pushed w hc (.oret h))
    · split
      · rename_i h; exact .inr (.tau w (ostep_step h))
      · exact .inl rfl
  | pop =>
    dsimp only
    split
    · rename_i h
      split
      · rename_i h2; exact .inr (.popped w ch _ _ hc (.oret h) h2)
      · exact .inl rfl
    · split
      · rename_i h; exact .inr (.tau w (ostep_step h))
      · exact .inl rfl
  | steal v =>
    dsimp only
    split
    · rename_i h; exact .inr (.stolen w v _ hc (.sret h))
    · rename_i r h1 h2
      refine .inr (.missed w v r hc ?_ (.sret h2))
      cases r with
      | got p => exact absurd rfl (h1 p)
      | lost => exact .inl rfl
      | empty => exact .inr rfl
    · split
      · rename_i h; exact .inr (.tau v (tstep_step h))
      · exact .inl rfl

/-- Only a worker in its scheduler loop may find nothing to do. -/
theorem step_no {s : State σ V} {w : Nat} {ch : Choice} (h : step body w ch s = .no) : s.pc w = .idle := by
  have hpj : ∀ (s : State σ V) f, passJoin body s w f ≠ .no := by
    intro s f; unfold passJoin; dsimp only; split
    · split <;> simp
    · simp
  have hds : ∀ (s : State σ V) f, destroy s w f ≠ .no := by intro s f; unfold destroy; split <;> simp
  unfold step at h
  cases hp : s.pc w with
  | idle => rfl
  | run f =>
    exfalso
    rw [hp] at h
    dsimp only at h
    cases hb : body (s.fr f).st with
    | ret v =>
      rw [hb] at h
      dsimp only [doRet] at h
      split at h
      · split at h
        · split at h
          · split at h <;> cases h
          · cases h
        · split at h
          · split at h <;> cases h
          · cases h
        · split at h
          · split at h <;> cases h
          · cases h
      · cases h
    | fork a k => rw [hb] at h; cases h
    | call a k => rw [hb] at h; cases h
    | join k =>
      rw [hb] at h
      dsimp only [doJoin] at h
      split at h
      · exact hpj _ _ h
      · cases h
    | switch d k => rw [hb] at h; dsimp only [doSwitch] at h; split at h <;> cases h
  | joinLoad f => exfalso; rw [hp] at h; dsimp only [joinLoad] at h; split at h <;> cases h
  | joinSub f => exfalso; rw [hp] at h; dsimp only [joinSub] at h; split at h <;> cases h
  | joinTake f =>
    exfalso; rw [hp] at h; dsimp only [joinTake] at h; split at h
    · exact hpj _ _ h
    · cases h
  | finPop p k => exfalso; rw [hp] at h; dsimp only [finPop] at h; split at h <;> split at h <;> cases h
  | finDec p k b =>
    exfalso; rw [hp] at h; dsimp only [finDec] at h; split at h
    · split at h <;> cases h
    · cases h
  | finWin p b =>
    exfalso; rw [hp] at h; dsimp only [finWin] at h; split at h
    · split at h
      · exact hpj _ _ h
      · split at h
        · exact hpj _ _ h
        · cases h
    · cases h
  | finLose b =>
    exfalso; rw [hp] at h; dsimp only [finLose] at h
    by_cases hc : (if b = true then release s w else s).wkEmpty w = true ∧ (if b = true then release s w else s).q w = []
    · rw [if_pos hc] at h; cases h
    · rw [if_neg hc] at h; cases h
  | selfSteal =>
    exfalso; rw [hp] at h; dsimp only [selfSteal] at h; split at h
    · cases h
    · split at h <;> cases h
  | stole p => exfalso; rw [hp] at h; dsimp only [stole] at h; split at h <;> cases h
  | switchRel z =>
    exfalso; rw [hp] at h; dsimp only [switchRel] at h
    by_cases hc : (if z = true then release s w else s).wkEmpty w = true
    · rw [if_pos hc] at h; cases h
    · rw [if_neg hc] at h; cases h

theorem map_no {α β : Type} {f : α → β} {r : Res α} (h : Res.map f r = .no) : r = .no := by
  cases r <;> first | rfl | cases h

theorem oabs_idle {d : St Nat Nat} : (Verif.Deque.absOf d none).owner = .idle ↔ d.opc = .idle := by
  show Verif.Deque.oAbs d none d.opc = .idle ↔ _
  cases h : d.opc <;> simp [Verif.Deque.oAbs]
  all_goals split <;> simp

theorem tpc_keep {d d' : St Nat Nat} {e : Option (Verif.Deque.Ev Nat Nat)} {i : Nat} (h : Verif.Deque.Step maxCap d e d')
    (hi : d.tpc i ≠ .idle) (he : ∀ r, e ≠ some (.sres i r)) : d'.tpc i ≠ .idle := by
  cases h
  case sret j r hj =>
    have : i ≠ j := by rintro rfl; exact he r rfl
    simpa [setT, this] using hi
  all_goals first
    | exact hi
    | (dsimp only [setT]; split
       · simp
       · exact hi)

/-- A worker in a call to `steal` is inside that queue. -/
theorem thief_in {x : CS σ V (implObj maxCap cap).D} (h : Reach body pend (implObj maxCap cap) x) :
    ∀ w v, x.call w = .steal v → (x.dq v).tpc w ≠ .idle := by
  have own : ∀ {x : CS σ V (implObj maxCap cap).D} {u : Nat} {d' : St Nat Nat} {e : Option (Verif.Deque.Ev Nat Nat)},
      (∀ w v, x.call w = .steal v → (x.dq v).tpc w ≠ .idle) → Verif.Deque.Step maxCap (x.dq u) e d' → ∀ w v, (∀ r, e ≠ some (.sres w r)) →
      x.call w = .steal v → (upd x.dq u d' v).tpc w ≠ .idle := by
    intro x u d' e ih ht w v he hc
    by_cases e1 : v = u
    · subst e1; rw [upd_same]; exact tpc_keep ht (ih w v hc) he
    · rw [upd_ne _ _ e1]; exact ih w v hc
  have thf : ∀ {x : CS σ V (implObj maxCap cap).D} {u : Nat} {d' : St Nat Nat} {e : Option (Verif.Deque.Ev Nat Nat)} {i : Nat} {k : Call},
      (∀ w v, x.call w = .steal v → (x.dq v).tpc w ≠ .idle) → Verif.Deque.Step maxCap (x.dq u) e d' →
      (∀ w r, w ≠ i → e ≠ some (.sres w r)) → (∀ v, k = .steal v → (upd x.dq u d' v).tpc i ≠ .idle) →
      ∀ w v, upd x.call i k w = .steal v → (upd x.dq u d' v).tpc w ≠ .idle := by
    intro x u d' e i k ih ht he hk w v hc
    by_cases e1 : w = i
    · subst e1; rw [upd_same] at hc; exact hk v hc
    · rw [upd_ne _ _ e1] at hc; exact own ih ht w v (fun r => he w r e1) hc
  induction h with
  | start x d hi => intro w v e; cases e
  | submit w _ hc ih => exact ih
  | step _ hs ih =>
    rename_i x x' _
    generalize hr : Res.ok x' = r at hs
    cases hs with
    | loc w ch hc hl => obtain ⟨a, rfl⟩ := map_ok hr.symm; exact ih
    | tau v ht => cases hr; exact fun w u hc => own ih ht w u (by simp) hc
    | fork w f a k hc hpc hbd ht => cases hr; exact thf ih ht (by simp) (by simp)
    | pushed w hc ht => cases hr; exact thf ih ht (by simp) (by simp)
    | pop w hc hpp ht => cases hr; exact thf ih ht (by simp) (by simp)
    | popped w ch rr l hc ht hl => obtain ⟨a, rfl⟩ := map_ok hr.symm; exact thf ih ht (by simp) (by simp)
    | steal w v hc hpc hne ht =>
      cases hr
      refine thf ih ht (by simp) (fun u e => ?_)
      cases e
      rw [upd_same]
      cases ht
      simp [setT]
    | stolen w v p hc ht =>
      obtain ⟨a, rfl⟩ := map_ok hr.symm
      refine thf ih ht (fun u r hu e => ?_) (by simp)
      simp only [Option.some.injEq, Verif.Deque.Ev.sres.injEq] at e
      exact hu e.1.symm
    | missed w v rr hc hrr ht =>
      cases hr
      refine thf ih ht (fun u r hu e => ?_) (by simp)
      simp only [Option.some.injEq, Verif.Deque.Ev.sres.injEq] at e
      exact hu e.1.symm

/-- C55: a worker that is in a task or in a call to a queue has a next step, which does not depend on what the other workers do
(unless its `push` has thrown `std::bad_alloc`). -/
theorem composed_progress (hd : Disc body pend) (hp : ∀ x, pend x ≤ 65534) (hcap : ∃ k, cap = 2 ^ k) {x : CS σ V (implObj maxCap cap).D}
    (h : Reach body pend (implObj maxCap cap) x) {w : Nat} (ch : Choice) (hw : x.call w ≠ .none ∨ x.c.pc w ≠ .idle)
    (ht : ∀ v, (x.dq w).opc ≠ .ret (.threw v)) :
    ∃ x', advance body maxCap cap w ch x = .ok x' ∧ Step body (implObj maxCap cap) x (.ok x') := by
  obtain ⟨Q, L, P, hr, hrel⟩ := forward hd hp (to_spec hcap h)
  have hub := (composed_no_ub hd hp hcap h).1
  have hadv := advance_step (body := body) (x := x) (w := w) (ch := ch)
  suffices hno : advance body maxCap cap w ch x ≠ .no by
    cases hr : advance body maxCap cap w ch x with
    | no => exact absurd hr hno
    | ub => rw [hr] at hadv; rcases hadv with e | e; cases e; exact absurd e hub
    | ok x' => rw [hr] at hadv; rcases hadv with e | e; cases e; exact ⟨x', rfl, e⟩
  have hown := hrel.own w
  rw [show (absS x fun _ => none).call w = x.call w from rfl, show (absS x fun _ => none).dq w = Verif.Deque.absOf (x.dq w) none from rfl] at hown
  intro hno
  unfold advance at hno
  dsimp only at hno
  cases hc : x.call w with
  | none =>
    rw [hc] at hno hown hw
    have ho : isIdle (x.dq w).opc = true := isIdle_eq.2 (oabs_idle.1 hown)
    simp only [ho, if_true] at hno
    have hpc : x.c.pc w ≠ .idle := hw.resolve_left (fun e => e rfl)
    have key : Res.map (fun c' => ({ x with c := c' } : ICS σ V maxCap cap)) (step body w ch (see x.c w ((implObj maxCap cap).own (x.dq w)))) ≠ .no :=
      fun e => hpc (step_no (s := see x.c w ((implObj maxCap cap).own (x.dq w))) (map_no e))
    cases hpx : x.c.pc w with
    | idle => exact hpc hpx
    | run f =>
      rw [hpx] at hno
      dsimp only at hno
      cases hb : body (x.c.fr f).st <;> rw [hb] at hno <;> dsimp only at hno
      case fork => cases hno
      all_goals exact key hno
    | finPop p k => rw [hpx] at hno; cases hno
    | selfSteal => rw [hpx] at hno; cases hno
    | _ => rw [hpx] at hno; exact key hno
  | push =>
    rw [hc] at hno hown
    have h1 : (x.dq w).opc ≠ .idle := by
      intro e
      have := oabs_idle.2 e
      rcases hown with ⟨f, e⟩ | e | ⟨f, e⟩ <;> rw [this] at e <;> cases e
    dsimp only at hno
    split at hno
    · cases hno
    · rename_i hx
      have h2 : ∀ r, (x.dq w).opc ≠ .ret r := by
        intro r e
        have e2 : (Verif.Deque.absOf (x.dq w) none).owner = .done r := by
          show Verif.Deque.oAbs (x.dq w) none (x.dq w).opc = _; rw [e]; rfl
        rcases hown with ⟨f, e3⟩ | e3 | ⟨f, e3⟩ <;> rw [e2] at e3 <;> cases e3
        · exact hx e
        · exact ht f e
      obtain ⟨s', hs⟩ := ostep_some (maxCap := maxCap) h1 h2
      rw [hs] at hno; cases hno
  | pop =>
    rw [hc] at hno hown
    have hpp := hrel.pops w hc
    dsimp only at hno
    split at hno
    · rename_i r e
      have e2 : (Verif.Deque.absOf (x.dq w) none).owner = .done r := by
        show Verif.Deque.oAbs (x.dq w) none (x.dq w).opc = _; rw [e]; rfl
      have e3 : popSeen r ≠ none := by
        rcases hown with e3 | ⟨f, e3⟩ | ⟨e3, _⟩ <;> rw [e2] at e3 <;> cases e3 <;> simp [popSeen]
      split at hno
      · have := step_no (map_no hno)
        rcases hpp with e | ⟨p, k, e⟩
        · rw [show (see x.c w _).pc w = .selfSteal from e] at this; cases this
        · rw [show (see x.c w _).pc w = .finPop p k from e] at this; cases this
      · exact e3 ‹_›
    · rename_i hx
      have h1 : (x.dq w).opc ≠ .idle := by
        intro e
        have := oabs_idle.2 e
        rcases hown with e | ⟨f, e⟩ | ⟨e, _⟩ <;> rw [this] at e <;> cases e
      obtain ⟨s', hs⟩ := ostep_some (maxCap := maxCap) h1 hx
      rw [hs] at hno; cases hno
  | steal v =>
    rw [hc] at hno
    have hst := hrel.stl w v hc
    dsimp only at hno
    split at hno
    · rename_i p e
      have hno := map_no hno
      unfold step at hno
      rw [show (see2 x.c w _ v p).pc w = .idle from hst.1] at hno
      dsimp only [Verif.Runtime.steal] at hno
      rw [show (see2 x.c w _ v p).q v = [(p, 0)] from upd_same ..] at hno
      dsimp only [List.getLast?] at hno
      split at hno
      · cases hno
      · rw [if_neg (Ne.symm hst.2.1)] at hno; cases hno
    · cases hno
    · rename_i hx1 hx2
      obtain ⟨s', hs⟩ := tstep_some (thief_in h w v hc) (fun r e => hx2 r e)
      rw [hs] at hno; cases hno

end Verif.Compose
