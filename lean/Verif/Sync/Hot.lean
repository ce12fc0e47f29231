import Verif.Sync.Fj2
import Verif.Mem.Props

/-! In the runtime: a task that has just been told that its only child has completed has not been stolen since its last join, and runs. -/
namespace Verif.Sync
open Verif.Runtime (State Res Fr Pc Loc Link Ev Why upd maxU16 U16 newFrame reset destroy release joinLoad joinSub finPop finDec finLose
  selfSteal stole switchRel steal take doFork doCall report upd_apply upd_same upd_ne Alive Few doSwitch)
open Verif.Exn (XS Choice plain wake passJoin doJoin joinTake finWin doEnd goOn failed)

variable {τ V E : Type}

/-- Tasks get to `hot` states only when a fork answers yes. -/
structure Only (B : τ → Exn.Act τ V E) (hot : τ → Prop) : Prop where
  fork : ∀ {s c k x}, B s = .fork c k x → ¬ hot c ∧ ¬ hot (k false) ∧ ∀ e, ¬ hot (x e)
  call : ∀ {s c k x}, B s = .call c k x → ¬ hot c ∧ (∀ r, ¬ hot (k r)) ∧ ∀ e, ¬ hot (x e)
  join : ∀ {s k x}, B s = .join k x → (∀ l, ¬ hot (k l)) ∧ ∀ e l, ¬ hot (x e l)
  switch : ∀ {s d k x}, B s = .switch d k x → ¬ hot k ∧ ∀ e, ¬ hot (x e)

def HotInv (hot : τ → Prop) (s : XS τ V E) : Prop := ∀ f, hot (s.c.fr f).st → ∃ w, s.c.pc w = .run f ∧ (s.c.fr f).steal = 0

variable {B : τ → Exn.Act τ V E} {hot : τ → Prop} {s s' : XS τ V E}

theorem HotInv.keep (h : HotInv hot s) (hk : ∀ g, hot (s'.c.fr g).st → (s'.c.fr g).st = (s.c.fr g).st ∧
    ∀ v, s.c.pc v = .run g → s'.c.pc v = .run g ∧ (s'.c.fr g).steal = (s.c.fr g).steal) : HotInv hot s' := by
  intro f hf
  obtain ⟨h1, h2⟩ := hk f hf
  obtain ⟨w, h3, h4⟩ := h f (by rw [← h1]; exact hf)
  exact ⟨w, (h2 w h3).1, (h2 w h3).2.trans h4⟩

/-- A worker that is not in a task does something. -/
theorem HotInv.other (h : HotInv hot s) {w : Nat} (hw : ∀ g, s.c.pc w ≠ .run g) (hp : ∀ v, v ≠ w → s'.c.pc v = s.c.pc v)
    (hs : ∀ g, (s'.c.fr g).st = (s.c.fr g).st) (hst : ∀ g, (∃ v, s.c.pc v = .run g) → (s'.c.fr g).steal = (s.c.fr g).steal) : HotInv hot s' :=
  h.keep fun g _ => ⟨hs g, fun v hv => ⟨by rw [hp v (by rintro rfl; exact hw g hv)]; exact hv, hst g ⟨v, hv⟩⟩⟩

theorem fr_st {W : Type} (fr : Nat → Fr τ W) (p : Nat) (g : Fr τ W) (h : g.st = (fr p).st) (f : Nat) : ((upd fr p g) f).st = (fr f).st := by
  simp only [upd_apply]; split
  · rename_i e; rw [e]; exact h
  · rfl

theorem fr_steal {W : Type} (fr : Nat → Fr τ W) (p : Nat) (g : Fr τ W) (h : g.steal = (fr p).steal) (f : Nat) : ((upd fr p g) f).steal = (fr f).steal := by
  simp only [upd_apply]; split
  · rename_i e; rw [e]; exact h
  · rfl

/-- What the operations of the runtime that do not run a task leave as it is. -/
structure Quiet (c c' : State τ (Except E V)) (w : Nat) : Prop where
  pc : ∀ v, v ≠ w → c'.pc v = c.pc v
  st : ∀ g, (c'.fr g).st = (c.fr g).st
  steal : ∀ g, (c'.fr g).steal = (c.fr g).steal

theorem quiet_take {c c' : State τ (Except E V)} {w : Nat} (h : take c w = .ok c') : Quiet c c' w := by
  unfold take at h
  split at h
  · split at h
    · cases h; exact ⟨fun v hv => upd_ne _ _ hv, fun _ => rfl, fun _ => rfl⟩
    · cases h
  · cases h

theorem quiet_steal {c c' : State τ (Except E V)} {w v : Nat} (h : steal c w v = .ok c') : Quiet c c' w := by
  unfold steal at h
  split at h
  · split at h
    · cases h; exact ⟨fun v hv => upd_ne _ _ hv, fun _ => rfl, fun _ => rfl⟩
    · split at h <;> cases h
  · cases h

theorem quiet_joinLoad {c c' : State τ (Except E V)} {w f : Nat} (h : joinLoad c w f = .ok c') : Quiet c c' w := by
  unfold joinLoad at h
  dsimp only at h
  split at h <;> cases h <;> exact ⟨fun v hv => upd_ne _ _ hv, fun _ => rfl, fun _ => rfl⟩

theorem quiet_joinSub {c c' : State τ (Except E V)} {w f : Nat} (h : joinSub c w f = .ok c') : Quiet c c' w := by
  unfold joinSub at h
  dsimp only at h
  split at h <;> cases h <;> exact ⟨fun v hv => upd_ne _ _ hv, fr_st _ _ _ rfl, fr_steal _ _ _ rfl⟩

theorem quiet_finPop {c c' : State τ (Except E V)} {w p k : Nat} (h : finPop c w p k = .ok c') : Quiet c c' w := by
  unfold finPop at h
  split at h
  · split at h
    · cases h; exact ⟨fun v hv => upd_ne _ _ hv, fr_st _ _ _ rfl, fr_steal _ _ _ rfl⟩
    · cases h
  · split at h
    · cases h; exact ⟨fun v hv => upd_ne _ _ hv, fun _ => rfl, fun _ => rfl⟩
    · cases h

theorem quiet_finDec {c c' : State τ (Except E V)} {w p k : Nat} {b : Bool} (h : finDec c w p k b = .ok c') : Quiet c c' w := by
  unfold finDec at h
  dsimp only at h
  split at h
  · split at h <;> cases h <;> refine ⟨fun v hv => upd_ne _ _ hv, fun g => ?_, fun g => ?_⟩ <;>
      simp only [report, upd_apply] <;> split <;> simp_all
  · cases h

theorem quiet_finLose {c c' : State τ (Except E V)} {w : Nat} {b : Bool} (h : finLose c w b = .ok c') : Quiet c c' w := by
  unfold finLose at h
  dsimp only at h
  generalize hr : (if b = true then release c w else c) = s1 at h
  have e : s1.fr = c.fr := by rw [← hr]; split <;> rfl
  split at h
  · cases h; exact ⟨fun v hv => upd_ne _ _ hv, fun g => by dsimp only; rw [e], fun g => by dsimp only; rw [e]⟩
  · cases h

theorem quiet_selfSteal {c c' : State τ (Except E V)} {w : Nat} (h : selfSteal c w = .ok c') : Quiet c c' w := by
  unfold selfSteal at h
  split at h
  · cases h; exact ⟨fun v hv => upd_ne _ _ hv, fun _ => rfl, fun _ => rfl⟩
  · split at h
    · cases h; exact ⟨fun v hv => upd_ne _ _ hv, fun _ => rfl, fun _ => rfl⟩
    · cases h

theorem quiet_switchRel {c c' : State τ (Except E V)} {w : Nat} {b : Bool} (h : switchRel c w b = .ok c') : Quiet c c' w := by
  unfold switchRel at h
  dsimp only at h
  generalize hr : (if b = true then release c w else c) = s1 at h
  have e : s1.fr = c.fr := by rw [← hr]; split <;> rfl
  split at h
  · cases h; exact ⟨fun v hv => upd_ne _ _ hv, fun g => by dsimp only; rw [e], fun g => by dsimp only; rw [e]⟩
  · cases h

theorem plain_ok {r : Res (State τ (Except E V))} (h : plain s r = .ok s') : ∃ c, r = .ok c ∧ s' = { s with c := c } := by
  cases r with
  | ok c => cases h; exact ⟨c, rfl, rfl⟩
  | ub => cases h
  | no => cases h

theorem HotInv.quiet (h : HotInv hot s) {w : Nat} (hw : ∀ g, s.c.pc w ≠ .run g) {r : Res (State τ (Except E V))} (hq : ∀ c', r = .ok c' → Quiet s.c c' w)
    (hs : plain s r = .ok s') : HotInv hot s' := by
  obtain ⟨c', rfl, rfl⟩ := plain_ok hs
  have q := hq c' rfl
  exact h.other hw q.pc q.st fun g _ => q.steal g

/-- A task passes a join. -/
theorem HotInv.pass (ho : Only B hot) (h : HotInv hot s) {w f : Nat} {s0 : XS τ V E} (hp : passJoin B s0 w f = .ok s')
    (e1 : s0.c.pc = s.c.pc) (e2 : ∀ g, (s0.c.fr g).st = (s.c.fr g).st) (e3 : ∀ g, g ≠ f → (s0.c.fr g).steal = (s.c.fr g).steal)
    (hw : ∀ g, s.c.pc w = .run g → g = f) : HotInv hot s' := by
  have key : ∀ (k : τ) (exc : Nat → Option E), ¬ hot k → HotInv hot ({ s0 with
      c := { s0.c with
        fr := upd s0.c.fr f { s0.c.fr f with st := k, slots := [], inits := [] }
        pc := upd s0.c.pc w (.run f)
        loc := upd s0.c.loc f (.running w)
        log := .resume f w :: s0.c.log }
      exc := exc } : XS τ V E) := by
    intro k exc hk
    refine h.keep fun g hg => ?_
    dsimp only at hg ⊢
    by_cases e : g = f
    · subst e; rw [upd_same] at hg; exact absurd hg hk
    · simp only [upd_ne _ _ e]
      refine ⟨e2 g, fun v hv => ⟨?_, e3 g e⟩⟩
      rw [upd_ne _ _ (by rintro rfl; exact e (hw g hv)), e1]; exact hv
  unfold passJoin at hp
  dsimp only at hp
  split at hp
  · split at hp
    · rename_i hb _; cases hp; exact key _ _ ((ho.join hb).2 _ _)
    · rename_i hb _ _; cases hp; exact key _ _ ((ho.join hb).1 _)
    · cases hp
  · cases hp

/-- A task goes on in a state that is not hot. -/
theorem HotInv.goOn (h : HotInv hot s) {w f : Nat} (hp : s.c.pc w = .run f) {k : τ} (hk : ¬ hot k) {c : State τ (Except E V)} (e1 : c.pc = s.c.pc)
    (e2 : c.fr = s.c.fr) {exc : Nat → Option E} {aw : Nat → Option Exn.Aw} : HotInv hot ⟨Exn.goOn c f k, exc, aw⟩ := by
  refine h.keep fun g hg => ?_
  simp only [Exn.goOn, e2] at hg ⊢
  by_cases e : g = f
  · subst e; rw [upd_same] at hg; exact absurd hg hk
  · rw [upd_ne _ _ e]
    exact ⟨rfl, fun v hv => ⟨by rw [e1]; exact hv, rfl⟩⟩

/-- A task gets a child. -/
theorem HotInv.child (h : HotInv hot s) {w f : Nat} (hp : s.c.pc w = .run f) (hf : ¬ hot (s.c.fr f).st) {c : τ} (hc : ¬ hot c)
    (e1 : ∀ v, v ≠ w → s'.c.pc v = s.c.pc v) (e2 : ∀ g, g ≠ s.c.nf → (s'.c.fr g).st = (s.c.fr g).st)
    (e3 : ∀ g, g ≠ s.c.nf → (s'.c.fr g).steal = (s.c.fr g).steal) (e4 : (s'.c.fr s.c.nf).st = c) : HotInv hot s' := by
  refine h.keep fun g hg => ?_
  by_cases e : g = s.c.nf
  · subst e; rw [e4] at hg; exact absurd hg hc
  · rw [e2 g e] at hg ⊢
    refine ⟨rfl, fun v hv => ⟨?_, e3 g e⟩⟩
    rw [e1 v (by rintro rfl; rw [hp] at hv; cases hv; exact hf hg)]; exact hv

/-- A task ends. -/
theorem HotInv.ended (ho : Only B hot) (h : HotInv hot s) {w f : Nat} (hp : s.c.pc w = .run f) (hf : ¬ hot (s.c.fr f).st) {r : Except E V}
    (hs : doEnd B s w f r = .ok s') : HotInv hot s' := by
  have hw : ∀ g v, hot (s.c.fr g).st → s.c.pc v = .run g → v ≠ w := by
    rintro g v hg hv rfl; rw [hp] at hv; cases hv; exact hf hg
  unfold doEnd at hs
  dsimp only at hs
  split at hs
  · split at hs
    · split at hs
      · rename_i s1 hd
        split at hs
        · cases hs
          have e : s1.fr = s.c.fr := by unfold destroy at hd; split at hd <;> cases hd; rfl
          refine h.keep fun g hg => ?_
          dsimp only at hg ⊢
          rw [e] at hg ⊢
          exact ⟨rfl, fun v hv => ⟨by rw [upd_ne _ _ (hw g v hg hv)]; exact hv, rfl⟩⟩
        · cases hs
      · cases hs
    · rename_i p hl
      split at hs
      · split at hs
        · rename_i c k x s1 ha hb hd
          cases hs
          refine h.keep fun g hg => ?_
          dsimp only at hg ⊢
          by_cases e : g = p
          · subst e; rw [upd_same] at hg; exact absurd hg ((ho.call hb).2.1 _)
          · rw [upd_ne _ _ e] at hg ⊢
            exact ⟨rfl, fun v hv => ⟨by rw [upd_ne _ _ (hw g v hg hv)]; exact hv, rfl⟩⟩
        · cases hs
      · cases hs
    · rename_i p i hl
      split at hs
      · split at hs
        · cases hs
          refine h.keep fun g hg => ?_
          dsimp only at hg ⊢
          have e1 : ∀ x : List (Option (Except E V)), ({ s.c.fr p with slots := x } : Fr τ (Except E V)).st = (s.c.fr p).st := fun _ => rfl
          have e2 : ∀ x : List (Option (Except E V)), ({ s.c.fr p with slots := x } : Fr τ (Except E V)).steal = (s.c.fr p).steal := fun _ => rfl
          rw [fr_st _ _ _ (e1 _)] at hg ⊢
          rw [fr_steal _ _ _ (e2 _)]
          exact ⟨rfl, fun v hv => ⟨by rw [upd_ne _ _ (hw g v hg hv)]; exact hv, rfl⟩⟩
        · cases hs
      · cases hs
  · cases hs

/-- The rules make hot tasks of tasks with nothing pending. -/
theorem HotInv.step {pend : τ → Nat} {dirty : τ → Prop} {may : E → Prop} (hd : Exn.Disc B pend dirty) (ho : Only B hot)
    (hb : ∀ {s c k x}, B s = .fork c k x → hot (k true) → pend s = 0) (hj : ∀ {y}, hot y → ∃ k x, B y = .join k x)
    (hr : Exn.Reach B pend may s) (h : HotInv hot s) {w : Nat} {ch : Choice E} (hs : Exn.step B w ch s = .ok s') : HotInv hot s' := by
  obtain ⟨es, r, hrr, hrel⟩ := Exn.reach_rel hd hr fun _ => .nil
  have hi := Verif.Runtime.reach_inv (Exn.disc_tgt hd) hrr
  unfold Exn.step at hs
  cases hp : s.c.pc w with
  | idle =>
    rw [hp] at hs
    have hw : ∀ g, s.c.pc w ≠ .run g := by intro g; rw [hp]; exact fun e => nomatch e
    cases ch with
    | go c =>
      cases c with
      | take => exact h.quiet hw (fun _ => quiet_take) hs
      | steal v => exact h.quiet hw (fun _ => quiet_steal) hs
    | fail e l => cases hs
    | ready => cases hs
  | run f =>
    rw [hp] at hs
    dsimp only at hs
    have hcold : ∀ {x}, B (s.c.fr f).st = x → (∀ k y, x ≠ .join k y) → ¬ hot (s.c.fr f).st := by
      intro x e hn hh
      obtain ⟨k, y, e'⟩ := hj hh
      exact hn k y (e.symm.trans e')
    cases ch with
    | go c =>
      simp only [Exn.run] at hs
      split at hs
      · rename_i v e; exact h.ended ho hp (hcold e (by intros; simp)) hs
      · rename_i v e; exact h.ended ho hp (hcold e (by intros; simp)) hs
      · rename_i c k x e
        cases hs
        refine h.child (c := c) hp (hcold e (by intros; simp)) (ho.fork e).1 (fun v hv => ?_) (fun g hg => ?_) (fun g hg => ?_) ?_
        · simp only [Exn.fork, doFork, upd_ne _ _ hv]
        · simp only [Exn.fork, doFork, newFrame, upd_apply, hg, if_false]; split
          · rename_i e'; rw [e']
          · rfl
        · simp only [Exn.fork, doFork, newFrame, upd_apply, hg, if_false]; split
          · rename_i e'; rw [e']
          · rfl
        · have hlt : f ≠ s.c.nf := by
            have hal : r.loc f = .running w := (hi.loc.run w f).2 (Or.inl (by rw [hrel.base.pc]; exact hp))
            have := Exn.alive_lt hi hrel (f := f) (by rw [← hrel.base.loc, hal]; trivial)
            omega
          simp only [Exn.fork, doFork, newFrame, upd_apply, if_neg (Ne.symm hlt), if_true]
      · rename_i c k x e
        cases hs
        refine h.child (c := c) hp (hcold e (by intros; simp)) (ho.call e).1 (fun v hv => ?_) (fun g hg => ?_) (fun g hg => ?_) ?_
        · simp only [Exn.call, doCall, upd_ne _ _ hv]
        · simp only [Exn.call, doCall, newFrame, upd_apply, hg, if_false]
        · simp only [Exn.call, doCall, newFrame, upd_apply, hg, if_false]
        · simp only [Exn.call, doCall, newFrame, upd_same]
      · unfold doJoin at hs
        dsimp only at hs
        split at hs
        · exact h.pass ho hs rfl (fun _ => rfl) (fun _ _ => rfl) fun g hg => by rw [hp] at hg; cases hg; rfl
        · rename_i hst
          cases hs
          refine h.keep fun g hg => ⟨rfl, fun v hv => ⟨?_, rfl⟩⟩
          dsimp only at hg ⊢
          by_cases e : v = w
          · subst e; rw [hp] at hv; cases hv
            obtain ⟨u, -, h0⟩ := h f hg
            exact absurd h0 hst
          · rw [upd_ne _ _ e]; exact hv
      · rename_i d k x e
        cases hx : doSwitch s.c w f d k with
        | ok c' =>
          rw [hx] at hs; cases hs
          unfold doSwitch at hx
          dsimp only at hx
          split at hx
          · cases hx
            refine h.keep fun g hg => ?_
            dsimp only at hg ⊢
            by_cases e' : g = f
            · subst e'; rw [upd_same] at hg; exact absurd hg (ho.switch e).1
            · rw [upd_ne _ _ e'] at hg ⊢
              refine ⟨rfl, fun v hv => ⟨?_, rfl⟩⟩
              rw [upd_ne _ _ (by rintro rfl; rw [hp] at hv; cases hv; exact e' rfl)]; exact hv
          · cases hx
        | ub => rw [hx] at hs; cases hs
        | no => rw [hx] at hs; cases hs
    | fail e late =>
      simp only [Exn.run] at hs
      have hfail : ∀ {c x : τ}, ¬ hot x → failed s w f c x late = .ok s' → HotInv hot s' := by
        intro c x hx h'
        unfold failed at h'
        split at h'
        · split at h'
          · cases h'; exact h.goOn (exc := s.exc) (aw := s.aw) hp hx rfl rfl
          · cases h'
        · cases h'; exact h.goOn (exc := s.exc) (aw := s.aw) hp hx rfl rfl
      split at hs
      · rename_i e'; exact hfail ((ho.fork e').2.2 e) hs
      · rename_i e'; exact hfail ((ho.call e').2.2 e) hs
      · rename_i e'; cases hs; exact h.goOn (exc := s.exc) (aw := s.aw) hp ((ho.switch e').2 e) rfl rfl
      · cases hs
    | ready =>
      simp only [Exn.run] at hs
      split at hs
      · rename_i e'; cases hs; exact h.goOn (exc := s.exc) (aw := s.aw) hp (ho.switch e').1 rfl rfl
      · cases hs
  | joinLoad f =>
    rw [hp] at hs
    exact h.quiet (by intro g; rw [hp]; exact fun e => nomatch e) (fun _ => quiet_joinLoad) hs
  | joinSub f =>
    rw [hp] at hs
    exact h.quiet (by intro g; rw [hp]; exact fun e => nomatch e) (fun _ => quiet_joinSub) hs
  | joinTake f =>
    rw [hp] at hs
    dsimp only [joinTake] at hs
    split at hs
    · exact h.pass ho hs rfl (fr_st _ _ _ rfl) (fun g hg => by dsimp only; rw [upd_ne _ _ hg]) fun g hg => by rw [hp] at hg; cases hg
    · cases hs
  | finPop p c =>
    rw [hp] at hs
    have hw : ∀ g, s.c.pc w ≠ .run g := by intro g; rw [hp]; exact fun e => nomatch e
    dsimp only at hs
    cases hq : s.c.q w with
    | nil => rw [hq] at hs; exact h.quiet hw (fun _ => quiet_finPop) hs
    | cons a l =>
      rw [hq] at hs
      dsimp only at hs
      cases hx : plain s (finPop s.c w p c) with
      | ub => rw [hx] at hs; cases hs
      | no => rw [hx] at hs; cases hs
      | ok s1 =>
        rw [hx] at hs
        have h1 : HotInv hot s1 := h.quiet hw (fun _ => quiet_finPop) hx
        obtain ⟨c', hc', rfl⟩ := plain_ok hx
        have q := quiet_finPop hc'
        obtain ⟨p', k0⟩ := a
        have hpp : p' = p ∧ c'.pc w = .run p := by
          unfold finPop at hc'; rw [hq] at hc'; dsimp only at hc'
          split at hc'
          · rename_i e; cases hc'; exact ⟨e.1, upd_same _ _ _⟩
          · cases hc'
        obtain ⟨rfl, hpc⟩ := hpp
        simp only [Exn.Res.bind, wake] at hs
        split at hs
        · rename_i pre cc k x hawn hbb
          cases hs
          rw [q.st] at hbb
          -- the task was in the queue
          have hq' : r.q w = (p', k0) :: l := by rw [hrel.base.q]; exact hq
          have hle : r.loc p' = .queued w k0 := (hi.loc.queue w p' k0).2 (by rw [hq']; exact List.mem_cons_self ..)
          have hal : Alive (r.loc p') := by rw [hle]; trivial
          have hlt : p' < s.c.nf := Exn.alive_lt hi hrel (by rw [← hrel.base.loc]; exact hal)
          intro g hg
          by_cases e : g = p'
          · subst e
            refine ⟨w, hpc, ?_⟩
            simp only [Exn.goOn, upd_same]
            rw [q.steal]
            have hsh := hrel.base.st g hlt
            have haw := hrel.aw g
            rw [← hrel.base.loc, hle] at haw
            simp only [Exn.AwOk] at haw
            simp only [Exn.Sh, haw] at hsh
            obtain ⟨-, c1, k1, x1, e1, e2⟩ := hsh
            rw [hbb] at e1; cases e1
            simp only [Exn.goOn, upd_same] at hg
            have hk : hot (k true) := by
              cases hdec : decide ((c'.fr g).steal = pre) with
              | true => rw [hdec] at hg; exact hg
              | false => rw [hdec] at hg; exact absurd hg (ho.fork hbb).2.1
            have hps := hb hbb hk
            have hpd := hi.st.pd g hal
            rw [e2] at hpd
            rw [Exn.norm_pend hd] at hpd
            have hfd := ((hd.fork _ _ _ _ hbb).2.1 (Exn.Orc.nil : Exn.Orc E).bit).1
            have hsl := hi.count.slot g hal
            rw [hle] at hsl
            simp only [Runtime.tok] at hsl
            have hst := hi.count.steal g hal
            rw [hrel.base.steal] at hst
            omega
          · simp only [Exn.goOn, upd_ne _ _ e] at hg ⊢
            exact h1 g hg
        · cases hs
  | finDec p c same =>
    rw [hp] at hs
    exact h.quiet (by intro g; rw [hp]; exact fun e => nomatch e) (fun _ => quiet_finDec) hs
  | finWin p same =>
    rw [hp] at hs
    have hnr : ∀ g, s.c.pc w = .run g → g = p := by intro g hg; rw [hp] at hg; cases hg
    dsimp only [finWin] at hs
    split at hs
    · split at hs
      · exact h.pass ho hs rfl (fr_st _ _ _ rfl) (fun g hg => by dsimp only; rw [upd_ne _ _ hg]) hnr
      · split at hs
        · exact h.pass ho hs rfl (fr_st _ _ _ rfl) (fun g hg => by dsimp only; rw [upd_ne _ _ hg]) hnr
        · cases hs
    · cases hs
  | finLose same =>
    rw [hp] at hs
    exact h.quiet (by intro g; rw [hp]; exact fun e => nomatch e) (fun _ => quiet_finLose) hs
  | selfSteal =>
    rw [hp] at hs
    exact h.quiet (by intro g; rw [hp]; exact fun e => nomatch e) (fun _ => quiet_selfSteal) hs
  | stole p =>
    rw [hp] at hs
    dsimp only at hs
    have hle : r.loc p = .stolenBy w := (hi.loc.sto w p).2 (by rw [hrel.base.pc]; exact hp)
    cases hx : stole s.c w p with
    | ub => rw [hx] at hs; cases hs
    | no => rw [hx] at hs; cases hs
    | ok c' =>
      rw [hx] at hs
      simp only [Exn.plain, Exn.Res.bind, wake] at hs
      unfold stole at hx
      split at hx
      · cases hx
        dsimp only at hs
        simp only [upd_same] at hs
        split at hs
        · rename_i pre cc k x haw hbb
          have hawk := hrel.aw p
          rw [← hrel.base.loc, hle] at hawk
          simp only [Exn.AwOk] at hawk
          rw [hawk] at haw; cases haw
          cases hs
          have hne : decide (((s.c.fr p).steal + 1) % U16 = (s.c.fr p).steal) = false := by
            apply decide_eq_false
            unfold U16; omega
          refine h.keep fun g hg => ?_
          dsimp only [Exn.goOn] at hg ⊢
          by_cases e : g = p
          · subst e; simp only [upd_same, hne] at hg; exact absurd hg (ho.fork hbb).2.1
          · rw [upd_ne _ _ e, upd_ne _ _ e] at hg ⊢
            refine ⟨rfl, fun v hv => ⟨?_, rfl⟩⟩
            rw [upd_ne _ _ (by rintro rfl; rw [hp] at hv; cases hv)]; exact hv
        · cases hs
      · cases hx
  | switchRel z =>
    rw [hp] at hs
    exact h.quiet (by intro g; rw [hp]; exact fun e => nomatch e) (fun _ => quiet_switchRel) hs

end Verif.Sync
