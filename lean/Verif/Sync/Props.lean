import Verif.Sync.Hot
import Verif.Mem.Runs
import Verif.Mem.FootReach
import Verif.Mem.Determ

/-! C65: a `sync_outside` fork that reports completion opens no fork-join scope. -/
namespace Verif.Sync
open Verif.Runtime (Res Ev Few upd upd_apply upd_same upd_ne maxU16)
open Verif.Exn (XS Choice held allHeld)
open Verif.Mem (MS FJ subs)

variable {σ V E L : Type} [Inhabited E] [DecidableEq L]
variable {body : σ → Act σ V E L} {pend : σ → Nat} {dirty : σ → Prop} {may : E → Prop} {ok : (σ → Prop) → σ → Prop} {m : L → E}
  {J : List (V → Prop) → (V → Prop) → σ → Prop}

def isAnswer : St σ → Prop
  | .answer _ => True
  | _ => False

theorem only_seen (body : σ → Act σ V E L) : Only (Mem.ctl (seen body)) isAnswer where
  fork {s c k x} h := by
    replace h := seen_fork (Mem.ctl_fork h)
    obtain ⟨y, c0, -, rfl, h⟩ := h
    rcases h with ⟨k0, x0, -, rfl, rfl⟩ | ⟨k0, x0, -, rfl, rfl⟩
    · exact ⟨id, id, fun _ => id⟩
    · exact ⟨id, id, fun _ => id⟩
  call {s c k x} h := by
    obtain ⟨y, c0, k0, x0, -, -, rfl, rfl, rfl⟩ := seen_call (Mem.ctl_call h)
    exact ⟨id, fun _ => id, fun _ => id⟩
  join {s k x} h := by
    have h := Mem.ctl_join h
    rcases seen_join h with ⟨y, k0, x0, -, -, rfl, rfl⟩ | ⟨y, c0, k0, x0, -, -, rfl, rfl⟩ | ⟨y, a, rfl, e⟩ | rfl
    · exact ⟨fun _ => id, fun _ _ => id⟩
    · refine ⟨fun l => ?_, fun _ _ => id⟩
      match l with
      | [] => exact id
      | [v] => exact id
      | _ :: _ :: _ => exact id
    · simp only [seen, e] at h; cases h; exact ⟨fun _ => id, fun _ _ => id⟩
    · cases h; exact ⟨fun _ => id, fun _ _ => id⟩
  switch {s d k x} h := by
    unfold Mem.ctl at h
    split at h <;> cases h
    · rename_i e
      obtain ⟨y, k0, x0, -, -, rfl, rfl⟩ := seen_switch e; exact ⟨id, fun _ => id⟩
    · rename_i e
      obtain ⟨y, k0, -, -, rfl⟩ := seen_load e; exact ⟨id, fun _ => id⟩
    · rename_i e
      obtain ⟨y, k0, -, -, rfl⟩ := seen_store e; exact ⟨id, fun _ => id⟩

omit [DecidableEq L] in
theorem join_answer (body : σ → Act σ V E L) {y : St σ} (h : isAnswer y) : ∃ k x, Mem.ctl (seen body) y = .join k x := by
  cases y with
  | here y => exact h.elim
  | bad => exact h.elim
  | answer y =>
    simp only [Mem.ctl, seen]
    cases body y with
    | plain a => exact ⟨_, _, rfl⟩
    | out c k x => exact ⟨_, _, rfl⟩

theorem pend_answer (hd : Disc body pend dirty) {s c : St σ} {k x} (h : Mem.ctl (seen body) s = .fork c k x) (hk : isAnswer (k true)) : pendS pend s = 0 := by
  obtain ⟨y, c0, rfl, -, h⟩ := seen_fork (Mem.ctl_fork h)
  rcases h with ⟨k0, x0, -, rfl, -⟩ | ⟨k0, x0, hb, -, -⟩
  · exact hk.elim
  · exact (hd.out.before y _ _ _ hb).1

theorem hot_step (hd : Disc body pend dirty) {s s' : MS (St σ) V E L} (h : Mem.Reach (seen body) (pendS pend) may (okS pend ok) m s)
    (hh : HotInv isAnswer s.x) {w : Nat} {ch : Choice E} (hs : Mem.step (seen body) w ch s = .ok s') : HotInv isAnswer s'.x := by
  obtain ⟨ch', h1⟩ := Mem.step_x hs
  exact HotInv.step (Mem.disc_ctl (disc_seen hd)) (only_seen body) (pend_answer hd) (join_answer body) (Mem.reach_x h) hh h1

/-- What a reachable state is like when a task has been told that its child has completed. -/
structure Told (body : σ → Act σ V E L) (s : MS (St σ) V E L) (w f : Nat) (y : σ) : Prop where
  /-- It has not been stolen, no child is missing, nothing was thrown, -/
  steal : (s.x.c.fr f).steal = 0
  exc : s.x.exc f = none
  loc : s.x.c.loc f = .running w
  /-- and the return object holds what the child returned. -/
  val : ∃ c k x v n, body y = .out c k x ∧ (s.x.c.fr f).slots = [some (.ok v)] ∧ s.x.c.link n = .fork f 0 ∧ Ev.done n (.ok v) ∈ s.x.c.log
  /-- The join that is not there would do nothing. -/
  join : (s.x.c.fr f).join = maxU16 ∧ s.x.c.wk w = s.x.c.stk f ∧ s.x.c.isTop f

theorem told (hd : Disc body pend dirty) (hJ : Safe body may ok J) {s : MS (St σ) V E L} (h : Mem.Reach (seen body) (pendS pend) may (okS pend ok) m s)
    (hh : HotInv isAnswer s.x) (hf : Few s.x.c) {w f : Nat} {y : σ} (hp : s.x.c.pc w = .run f) (hy : (s.x.c.fr f).st = .answer y) : Told body s w f y := by
  have hD := disc_seen hd
  obtain ⟨es, r, hr, hrel⟩ := Exn.reach_rel (Mem.disc_ctl hD) (Mem.reach_x h) fun _ => .nil
  have hi := Verif.Runtime.reach_inv (Exn.disc_tgt (Mem.disc_ctl hD)) hr
  have hloc : s.x.c.loc f = .running w := by
    rw [← hrel.base.loc]; exact (hi.loc.run w f).2 (Or.inl (by rw [hrel.base.pc]; exact hp))
  have hsteal : (s.x.c.fr f).steal = 0 := (hh f (by rw [hy]; trivial)).choose_spec.2
  -- a step would not get to `bad`
  obtain ⟨s', hs'⟩ := Mem.C61_proceeds hD h hf w .take (by rw [hp]; exact fun e => nomatch e)
  have hbad : ∀ f', s'.x.c.pc w = .run f' → (s'.x.c.fr f').st ≠ .bad := by
    intro f' hp' hb
    have h' : Mem.Reach (seen body) (pendS pend) may (okS pend ok) m s' := .step h hf (ch := .go .take) (show Mem.Allowed may (.go .take) from trivial) hs'
    obtain ⟨a, ha, -, -, -, -, hrun⟩ := Mem.C61_refines hD h'
    obtain ⟨e1, e2⟩ := hrun w f' hp'
    exact not_bad hd hJ ha e1 (e2.trans hb)
  obtain ⟨k, x, hjn, hjc⟩ : ∃ k x, seen body (.answer y) = .join k x ∧ ((∃ c k0 x0, body y = .out c k0 x0 ∧ k = one fun v => k0 (some v)) ∨ ∀ l, k l = .bad) ∧
      ∀ e l, x e l = .bad := by
    simp only [seen]
    cases hb : body y with
    | plain a => exact ⟨_, _, rfl, Or.inr fun _ => rfl, fun _ _ => rfl⟩
    | out c k x => exact ⟨_, _, rfl, Or.inl ⟨c, k, x, rfl, rfl⟩, fun _ _ => rfl⟩
  have hpass : Exn.passJoin (Mem.ctl (seen body)) { s.x with c := { s.x.c with log := .suspend f .join :: s.x.c.log } } w f = .ok s'.x := by
    unfold Mem.step at hs'
    simp only [hp, hy, hjn] at hs'
    unfold Mem.control at hs'
    have e : Exn.step (Mem.ctl (seen body)) w (.go .take) s.x =
        Exn.passJoin (Mem.ctl (seen body)) { s.x with c := { s.x.c with log := .suspend f .join :: s.x.c.log } } w f := by
      simp only [Exn.step, hp, Exn.run, Mem.ctl, hy, hjn, Exn.doJoin, if_pos hsteal]
    rw [e] at hs'
    cases hx : Exn.passJoin (Mem.ctl (seen body)) { s.x with c := { s.x.c with log := .suspend f .join :: s.x.c.log } } w f with
    | ok x' => rw [hx] at hs'; cases hs'; rfl
    | ub => rw [hx] at hs'; cases hs'
    | no => rw [hx] at hs'; cases hs'
  have hctl : Mem.ctl (seen body) (.answer y) = .join k x := by simp only [Mem.ctl, hjn]
  unfold Exn.passJoin at hpass
  simp only [hy, hctl] at hpass
  split at hpass
  · rename_i hcond
    cases hex : s.x.exc f with
    | some e =>
      rw [hex] at hpass
      simp only [Res.ok.injEq] at hpass
      exfalso
      refine hbad f (by rw [← hpass]; exact upd_same _ _ _) ?_
      rw [← hpass]
      simp only [upd_same]
      exact hjc.2 _ _
    | none =>
      rw [hex] at hpass
      cases hall : allHeld ((s.x.c.fr f).slots.map held) with
      | none => rw [hall] at hpass; cases hpass
      | some vs =>
        rw [hall] at hpass
        simp only [Res.ok.injEq] at hpass
        have hne : k vs ≠ .bad := by
          intro e
          refine hbad f (by rw [← hpass]; exact upd_same _ _ _) ?_
          rw [← hpass]
          simp only [upd_same]
          exact e
        rcases hjc.1 with ⟨c, k0, x0, hb, rfl⟩ | hall'
        · have hsl : ∃ v, (s.x.c.fr f).slots = [some (.ok v)] := by
            generalize hsl : (s.x.c.fr f).slots = sl at hall
            match sl, vs with
            | [], [] => exact absurd rfl hne
            | [], _ :: _ => cases hall
            | [some (.ok v)], _ => exact ⟨v, rfl⟩
            | [some (.error e)], _ => cases hall
            | [none], _ => cases hall
            | a :: b :: l, vs =>
              exfalso
              simp only [List.map_cons] at hall
              cases h1 : held a with
              | none => rw [h1] at hall; cases hall
              | some u =>
                cases h2 : held b with
                | none => rw [h1, h2] at hall; cases hall
                | some u' =>
                  rw [h1, h2] at hall
                  cases h3 : allHeld (l.map held) with
                  | none => simp only [allHeld, h3, Option.map_none] at hall; cases hall
                  | some l' =>
                    simp only [allHeld, h3, Option.map_some, Option.some.injEq] at hall
                    subst hall
                    exact hne rfl
          obtain ⟨v, hsl⟩ := hsl
          obtain ⟨a, ha, hxr, -, -⟩ := Mem.sim hD h
          have hlt : f < s.x.c.nf := ((Mem.facts (Mem.disc_ctl hD) (Mem.reach_x h)).run w f hp).1
          have hlen := hxr.len f hlt
          rw [hsl] at hlen
          have hkid : ∃ n, (a.kids f)[0]? = some n := by
            cases hk : a.kids f with
            | nil => rw [hk] at hlen; cases hlen
            | cons n l => exact ⟨n, rfl⟩
          obtain ⟨n, hn⟩ := hkid
          obtain ⟨-, hlk, -, hso⟩ := hxr.kid f hlt 0 n hn
          rw [hsl] at hso
          have hmd : Mem.modeOf n s.x.c.log = .ended (.ok v) := by
            simp only [List.getElem?_cons_zero, Option.some.injEq] at hso
            unfold Mem.slotOf at hso
            split at hso
            · cases hso; assumption
            · cases hso
          exact ⟨hsteal, hex, hloc, ⟨c, k0, x0, v, n, hb, hsl, hlk, Mem.done_of_mode hmd⟩, hcond.2⟩
        · exact absurd (hall' vs) hne
  · cases hpass

theorem upd_id {α : Type} (f : Nat → α) (i : Nat) (x : α) (h : f i = x) : upd f i x = f := by
  funext j
  rw [upd_apply]
  split
  · rename_i e; rw [e, h]
  · rfl

/-- The join that is not there makes no difference. -/
theorem step_eq (hd : Disc body pend dirty) (hJ : Safe body may ok J) {s : MS (St σ) V E L} (h : Mem.Reach (seen body) (pendS pend) may (okS pend ok) m s)
    (hh : HotInv isAnswer s.x) (hf : Few s.x.c) (w : Nat) (ch : Choice E) : step body w ch s = Mem.step (seen body) w ch s := by
  unfold step
  cases ha : atAnswer s w with
  | none => rfl
  | some p =>
    obtain ⟨f, y⟩ := p
    have hpy : s.x.c.pc w = .run f ∧ (s.x.c.fr f).st = .answer y := by
      unfold atAnswer at ha
      split at ha
      · rename_i g hp
        split at ha
        · rename_i y' hy
          simp only [Option.some.injEq, Prod.mk.injEq] at ha
          obtain ⟨rfl, rfl⟩ := ha
          exact ⟨hp, hy⟩
        · cases ha
      · cases ha
    obtain ⟨hp, hy⟩ := hpy
    have T := told hd hJ h hh hf hp hy
    obtain ⟨c, k, x, v, n, hb, hsl, -, -⟩ := T.val
    have hjn : seen body (.answer y) = .join (one fun v => k (some v)) fun _ _ => .bad := by simp only [seen, hb]
    cases ch with
    | fail e l =>
      dsimp only
      simp only [Mem.step, hp, hy, hjn, Mem.control, Exn.step, Exn.run, Mem.ctl, Exn.Res.bind]
    | ready =>
      dsimp only
      simp only [Mem.step, hp, hy, hjn, Mem.control, Exn.step, Exn.run, Mem.ctl, Exn.Res.bind]
    | go ch =>
      dsimp only
      simp only [Mem.step, hp, hy, hjn, Mem.control, Exn.step, Exn.run, Mem.ctl, Exn.doJoin, if_pos T.steal, Exn.passJoin]
      have hc : (s.x.c.fr f).steal = 0 ∧ (s.x.c.fr f).join = maxU16 ∧ s.x.c.wk w = s.x.c.stk f ∧
          Runtime.State.isTop { s.x.c with log := .suspend f .join :: s.x.c.log } f := ⟨T.steal, T.join⟩
      rw [if_pos hc]
      simp only [T.exc, hsl, List.map_cons, List.map_nil, held, allHeld, Option.map_some, Exn.Res.bind, readAnswer, hb, one,
        upd_id _ _ _ hp, upd_id _ _ _ T.loc]

/-- Tasks are submitted in their first state. -/
theorem roots_here {a : FJ (St σ) V E L} (h : FJ.Reach (seen body) may (okS pend ok) m a) : ∀ p ∈ a.roots, ∃ y, p.2 = .here y := by
  induction h with
  | start y => intro p hp; cases hp
  | submit n c _ ho _ ih =>
    obtain ⟨y, rfl, -⟩ := ho
    intro p hp
    rcases List.mem_cons.1 hp with rfl | hp
    · exact ⟨y, rfl⟩
    · exact ih p hp
  | step f _ hs ih => cases hs <;> exact ih

/-- The executions are those of `seen`. -/
theorem reach (hd : Disc body pend dirty) (hJ : Safe body may ok J) {s : MS (St σ) V E L} (h : Reach body pend may ok m s) :
    Mem.Reach (seen body) (pendS pend) may (okS pend ok) m s ∧ HotInv isAnswer s.x := by
  induction h with
  | start y => exact ⟨.start _, fun f hf => hf.elim⟩
  | @submit s c w _ hf hp ho ih =>
    refine ⟨.submit w ih.1 hf hp ⟨c, rfl, hp, ho, ?_⟩, ?_⟩
    · rintro c' ⟨f, w', hc', -⟩
      obtain ⟨a, ha, -, -, hroots, -⟩ := Mem.C61_refines (disc_seen hd) ih.1
      exact roots_here ha (f, c') (by rw [hroots]; exact Mem.mem_subs.2 ⟨w', hc'⟩)
    refine ih.2.keep fun g hg => ?_
    simp only [Mem.submit, Exn.submit, Runtime.submit, Runtime.newFrame, upd_apply] at hg ⊢
    split
    · rename_i e; rw [if_pos e] at hg; exact hg.elim
    · exact ⟨rfl, fun v hv => ⟨hv, rfl⟩⟩
  | step _ hf hch hs ih =>
    rw [step_eq hd hJ ih.1 ih.2 hf] at hs
    exact ⟨.step ih.1 hf hch hs, hot_step hd ih.1 ih.2 hs⟩

/-- C65: a task that forks `sync_outside` and is told that the child has completed has opened no scope. In whatever schedule, when it is told so the
child has returned, the task's return object holds the value it returned, the task has not been stolen and has nothing to join: its
counters are as they were before the fork, it is on the stack it was on, and no exception is pending. -/
theorem C65_told (hd : Disc body pend dirty) (hJ : Safe body may ok J) {s : MS (St σ) V E L} (h : Reach body pend may ok m s) (hf : Few s.x.c) {w f : Nat}
    {y : σ} (hp : s.x.c.pc w = .run f) (hy : (s.x.c.fr f).st = .answer y) :
    (∃ c k x v n, body y = .out c k x ∧ (s.x.c.fr f).slots = [some (.ok v)] ∧ s.x.c.link n = .fork f 0 ∧ Ev.done n (.ok v) ∈ s.x.c.log) ∧
    (s.x.c.fr f).steal = 0 ∧ (s.x.c.fr f).join = maxU16 ∧ s.x.c.wk w = s.x.c.stk f ∧ s.x.c.isTop f ∧ s.x.exc f = none := by
  obtain ⟨h1, h2⟩ := reach hd hJ h
  have T := told hd hJ h1 h2 hf hp hy
  exact ⟨T.val, T.steal, T.join.1, T.join.2.1, T.join.2.2, T.exc⟩

/-- C65: so the task can go on without a join. A program that does is executed as if it did join, in every step of every execution. -/
theorem C65_step (hd : Disc body pend dirty) (hJ : Safe body may ok J) {s : MS (St σ) V E L} (h : Reach body pend may ok m s) (hf : Few s.x.c) (w : Nat)
    (ch : Choice E) : step body w ch s = Mem.step (seen body) w ch s :=
  step_eq hd hJ (reach hd hJ h).1 (reach hd hJ h).2 hf w ch

/-- C65: nothing is undefined. -/
theorem C65_no_ub (hd : Disc body pend dirty) (hJ : Safe body may ok J) {s : MS (St σ) V E L} (h : Reach body pend may ok m s) (hf : Few s.x.c) (w : Nat)
    (ch : Choice E) : step body w ch s ≠ .ub := by
  rw [C65_step hd hJ h hf]
  exact Mem.C61_no_ub (disc_seen hd) (reach hd hJ h).1 hf w ch

/-- C65: a worker inside a task can always go on. -/
theorem C65_proceeds (hd : Disc body pend dirty) (hJ : Safe body may ok J) {s : MS (St σ) V E L} (h : Reach body pend may ok m s) (hf : Few s.x.c) (w : Nat)
    (ch : Runtime.Choice) (hw : s.x.c.pc w ≠ .idle) : ∃ s', step body w (.go ch) s = .ok s' := by
  rw [C65_step hd hJ h hf]
  exact Mem.C61_proceeds (disc_seen hd) (reach hd hJ h).1 hf w ch hw

/-- C65: the tasks, the memory they share and every result are those of an execution of the fork/join machine, in which a `sync_outside` fork that
answers yes is a fork and a join. -/
theorem C65_refines (hd : Disc body pend dirty) (hJ : Safe body may ok J) {s : MS (St σ) V E L} (h : Reach body pend may ok m s) :
    ∃ a : FJ (St σ) V E L, FJ.Reach (seen body) may (okS pend ok) m a ∧ a.m = s.m ∧ a.hist = s.hist ∧ a.roots = subs s.x.c.log ∧
      (∀ f r, a.mode f = .ended r ↔ Ev.done f r ∈ s.x.c.log) ∧
      ∀ w f, s.x.c.pc w = .run f → a.mode f = .run ∧ a.st f = (s.x.c.fr f).st :=
  Mem.C61_refines (disc_seen hd) (reach hd hJ h).1

/-- C65: if the program has no races then, whenever all the tasks that were submitted have ended, memory and results are those of the tasks run one after
another by one thread. -/
theorem C65_runtime (hd : Disc body pend dirty) (hJ : Safe body may ok J) (hmono : Mem.Mono ok) (hrf : Mem.RaceFree (seen body) may (okS pend ok) m)
    {s : MS (St σ) V E L} (h : Reach body pend may ok m s) (hz : ∀ f c w, Ev.submit f c w ∈ s.x.c.log → ∃ r, Ev.done f r ∈ s.x.c.log) :
    ∃ l : List (Nat × St σ × Except E V), l.map (fun p => (p.1, p.2.1)) = (subs s.x.c.log).reverse ∧ (∀ p ∈ l, Ev.done p.1 p.2.2 ∈ s.x.c.log) ∧
      Mem.Runs (seen body) may m (l.map Prod.snd) s.m :=
  Mem.C62_runtime (disc_seen hd) (fun O c ⟨y, e, hp, _⟩ => by rw [e]; exact hp)
    (fun O O' hO c ⟨y, e, hp, h, h'⟩ => ⟨y, e, hp, hmono _ _ (fun y => hO _) _ h, fun c hc => h' c (hO c hc)⟩) hrf (reach hd hJ h).1 hz

/-- The states the runtime reaches, with no bound on how often a task is stolen. -/
inductive ReachAny (body : σ → Act σ V E L) (pend : σ → Nat) (may : E → Prop) (ok : (σ → Prop) → σ → Prop) (m : L → E) : MS (St σ) V E L → Prop
  | start (y : σ) : ReachAny body pend may ok m (MS.start (.here y) m)
  | submit {s : MS (St σ) V E L} {c : σ} (w : Nat) : ReachAny body pend may ok m s → pend c = 0 → ok (fun y => s.open (.here y)) c →
      ReachAny body pend may ok m (Mem.submit s (.here c) w)
  | step {s s' : MS (St σ) V E L} {w : Nat} {ch : Choice E} : ReachAny body pend may ok m s → Mem.Allowed may ch → step body w ch s = .ok s' →
      ReachAny body pend may ok m s'

theorem mem_any {s : MS (St σ) V E L} (h : Mem.Reach (seen body) (pendS pend) may (okS pend ok) m s) :
    Mem.ReachAny (seen body) (pendS pend) may (okS pend ok) m s := by
  induction h with
  | start y => exact .start y
  | submit w _ _ h2 h3 ih => exact .submit w ih h2 h3
  | step _ _ h2 h3 ih => exact .step ih h2 h3

/-- C65: a program whose scopes fork at most 65534 children meets the bound of `Reach` in every schedule. -/
theorem C65_bounded (hd : Disc body pend dirty) (hJ : Safe body may ok J) (hp : ∀ y, pend y ≤ 65534) {s : MS (St σ) V E L}
    (h : ReachAny body pend may ok m s) : Reach body pend may ok m s ∧ Few s.x.c := by
  have few : ∀ {s : MS (St σ) V E L}, Reach body pend may ok m s → Few s.x.c := fun h =>
    (Mem.C61_bounded (disc_seen hd) (fun y => by cases y <;> simp [pendS, hp]) (mem_any (reach hd hJ h).1)).2
  have : Reach body pend may ok m s := by
    induction h with
    | start y => exact .start y
    | submit w _ h2 h3 ih => exact .submit w ih (few ih) h2 h3
    | step _ h2 h3 ih => exact .step ih (few ih) h2 h3
  exact ⟨this, few this⟩

end Verif.Sync
