import Verif.WholeX.Shadow

/-!
C60: a whole program with exceptions, from `sync_wait` to the destructor of the pool. As C57, but tasks throw, and forks, calls and context
switches may fail with any exception in `may`; the program is disciplined in the sense of C56 (`Exn.Disc`): a task catches what is thrown while it has
children and joins. `Exn.Ser`: the serial elisions (which of several exceptions a join rethrows is left open). `Exn.Ends` (C59): all
serial elisions end.
-/
namespace Verif.WholeX
open Verif.Runtime (State Res Ev Legal)
open Verif.LazyPool (Cfg St)
open Verif.EventCount (upd upd_same upd_ne upd_apply)
open Verif.Exn (XS Act Choice Allowed T Orc tgt norm Rel orcBefore seen Disc disc_tgt Ends Ser)
open Verif.Whole (Caller Actor Res.map W early map_ok map_ub)

variable {σ V E : Type} {c : Cfg} {body : σ → Act σ V E} {pend : σ → Nat} {dirty : σ → Prop} {may : E → Prop} {K : Nat} {root : Nat → σ}

theorem tgt_switch (hsw : ∀ x d k h, body x = .switch d k h → d < c.N) (y : T σ E) (d : Nat) (k : T σ E) (h : tgt body may y = .switch d k) :
    d < c.N := by
  unfold tgt at h
  split at h <;> cases h
  exact hsw _ _ _ _ ‹_›

section
variable (hc : c.Ok) (hd : Disc body pend dirty) (hp : ∀ x, pend x ≤ 65534) (hsw : ∀ x d k h, body x = .switch d k h → d < c.N)
  (hroot : ∀ i, i < K → pend (root i) = 0)

include hc hd hp hroot

/-- Inside: a step of the runtime. -/
theorem rt_no_ub {s : X σ V E} (h : Reach c body may K root s) (w : Nat) {ch : Choice E} (hch : Allowed may ch) : Exn.step body w ch s.xt ≠ .ub := by
  obtain ⟨root', es, r, hi, hrel⟩ := reach_hex hc hd hp hroot h (orcBefore body (fun _ => .nil) s.xt w ch)
  have := rt_step hd hp hi hch hrel
  intro e
  rw [e] at this
  exact this

include hsw in
/-- C60: nothing undefined happens, in the pool, in the runtime or in a task, and no assertion fails, whatever is thrown; except that (C58) two threads
call `sync_wait` at the same time and both are in the pool's random number generator. -/
theorem C60_no_ub {s : X σ V E} (h : Reach c body may K root s) {a : Actor} (st : Step c body may K root a s .ub) :
    ∃ i k, i ≠ k ∧ a = .caller i ∧ s.caller i = .before ∧ k < K ∧ s.caller k = .picking := by
  have hn := fun w {ch} hch => rt_no_ub hc hd hp hroot h w (ch := ch) hch
  generalize hx : (Res.ub : Res (X σ V E)) = res at st
  cases st with
  | stole _ w v h1 h2 h3 => exact absurd (map_ub hx.symm) (hn _ trivial)
  | work _ w ch h1 h2 h3 h4 h5 h6 => exact absurd (map_ub hx.symm) (hn _ h5)
  | switch _ w f d k h1 h2 h3 h4 =>
    obtain ⟨_, x, h5⟩ := h4
    rw [if_pos (hsw _ _ _ _ h5)] at hx
    exact absurd (map_ub hx.symm) (hn _ trivial)
  | take _ w j js h1 h2 h3 h4 => exact absurd (map_ub hx.symm) (hn _ trivial)
  | race _ i k h1 h2 h3 h4 => exact ⟨i, k, (fun e => by rw [e, h4] at h2; cases h2), rfl, h2, h3, h4⟩
  | _ => cases hx

include hsw in
/-- C60: with one thread that calls `sync_wait` nothing undefined happens at all. -/
theorem C60_no_ub_single (hK : K ≤ 1) {s : X σ V E} (h : Reach c body may K root s) (a : Actor) : ¬ Step c body may K root a s .ub := by
  intro st
  obtain ⟨i, k, hne, rfl, _, hk, _⟩ := C60_no_ub hc hd hp hsw hroot h st
  have : i < K := by
    generalize hx : (Res.ub : Res (X σ V E)) = res at st
    cases st with
    | race _ _ k h1 h2 h3 h4 => exact h1
    | _ => cases hx
  omega

/-- C60: the history of resumptions and suspensions keeps the rules of Verif.Runtime.Spec, where a task is done when it has returned or thrown. -/
theorem C60_history {s : X σ V E} (h : Reach c body may K root s) : Legal s.x.c.log := by
  obtain ⟨root', es, r, h1, h2, _, h3⟩ := reach_shadow hc hd hp hroot h (fun _ => .nil) fun _ => .nil
  exact h3.base.log.legal (Whole.C57_history hc (disc_tgt hd) (fun y => hp y.1) (roots_pend hd hroot h2) h1)

/-- C60: what `sync_wait` returns or throws is what a serial elision of its root task returns or throws. -/
theorem C60_result {s : X σ V E} (h : Reach c body may K root s) {i : Nat} {r : Except E V} (hb : s.caller i = .back r) :
    Ser body may (root i) [] [] r := by
  obtain ⟨root', es, y, h1, h2, _, h3⟩ := reach_shadow hc hd hp hroot h (fun _ => .nil) fun _ => .nil
  have h4 := (Whole.C57_result hc (disc_tgt hd) (fun y => hp y.1) (roots_pend hd hroot h2) h1 (i := i) (v := r) hb).1
  have h5 := Exn.ser_tgt h4
  obtain ⟨o, e⟩ := h2 i
  rw [e, Exn.norm_es] at h5
  exact Exn.norm_ser _ _ _ h5

/-- C60: while a call of `schedule`, by a thread outside or by a task, is not finished, the pool has not been destroyed, and no worker's context is
finalised. -/
theorem C60_pool_alive {s : X σ V E} (h : Reach c body may K root s) {j : Nat}
    (hj : (∃ i f, s.caller i = .calling j f) ∨ ∃ w, s.out w = some j) : s.l.dpc ≠ .gone ∧ ∀ v, v < c.N → s.l.pc v ≠ .fin4 := by
  obtain ⟨root', es, y, h1, h2, _, _⟩ := reach_shadow hc hd hp hroot h (fun _ => .nil) fun _ => .nil
  exact Whole.C57_pool_alive (pend := fun y : T σ E => pend y.1) (s := lower s y) hc (roots_pend hd hroot h2) h1 (j := j) hj

/-- C60: when the destructor of the pool runs, every task has returned or thrown and no submission is left: the destructor drops nothing. -/
theorem C60_destructor_idle {s : X σ V E} (h : Reach c body may K root s) (hdt : s.l.dpc ≠ .alive) :
    (∀ f, f < s.x.c.nf → ∃ r, Ev.done f r ∈ s.x.c.log) ∧ ∀ w, s.l.hand w = [] ∧ s.l.inbox w = [] := by
  obtain ⟨root', es, y, h1, h2, _, h3⟩ := reach_shadow hc hd hp hroot h (fun _ => .nil) fun _ => .nil
  obtain ⟨h4, h5⟩ := Whole.C57_destructor_idle hc (disc_tgt hd) (fun y => hp y.1) (roots_pend hd hroot h2) h1 hdt
  refine ⟨fun f hf => ?_, h5⟩
  obtain ⟨v, hv⟩ := h4 f (by have := h3.base.nf; rw [show (lower s y).r.nf = (lower s y).rt.nf from rfl, this]; exact hf)
  exact ⟨v, (h3.base.log.doneIff f v).2 hv⟩

include hsw in
/-- Whoever is obliged to take a step can take one that does not fail. -/
theorem progress (hN : 0 < c.N) {s : X σ V E} (h : Reach c body may K root s) {a : Actor} (hr : ready c s a) (may' : E → Prop) :
    ∃ s', Step c body may' K root a s (.ok s') := by
  obtain ⟨root', es, y, hq, h2, _, h3⟩ := reach_shadow hc hd hp hroot h (fun _ => .nil) fun _ => .nil
  have hi := Whole.reach_inv (pend := fun y => pend y.1) hc (roots_pend hd hroot h2) hq
  have hn := fun w {ch} hch => rt_no_ub hc hd hp hroot h w (ch := ch) hch
  cases a with
  | worker w =>
    obtain ⟨hw, _⟩ := id hr
    by_cases h1 : s.l.pc w = .work
    · cases ho : s.out w with
      | some j =>
        have hpd := (hi.sync.out w j ho).2.2
        obtain ⟨l, st⟩ := LazyPool.ready_step (c := c) (a := .submit j) hpd.ne
        exact ⟨_, .notify s w j l hw ho st⟩
      | none =>
        by_cases h2 : s.x.c.pc w = .idle
        · cases hh : s.l.hand w with
          | nil => exact ⟨_, .worked s w hw h1 h2 hh⟩
          | cons j js =>
            have hs := Step.take (c := c) (body := body) (may := may') (K := K) (root := root) s w j js hw h1 h2 hh
            cases hx : Exn.step body w (.go .take) s.xt with
            | ok r => rw [hx] at hs; exact ⟨_, hs⟩
            | ub => exact absurd hx (hn w trivial)
            | no =>
              have hib : s.xt.c.inbox w = s.task j :: (js ++ s.l.inbox w).map s.task := by simp [X.xt, hh]
              have hpc : s.xt.c.pc w = .idle := h2
              simp only [Exn.step, hpc, Runtime.take, hib] at hx
              split at hx <;> simp [Exn.plain, Exn.Res.bind] at hx
        · have hx : ∃ x, Exn.step body w (.go .take) s.xt = .ok x := by
            cases hx : Exn.step body w (.go .take) s.xt with
            | ok r => exact ⟨r, rfl⟩
            | ub => exact absurd hx (hn w trivial)
            | no => exact absurd hx (Exn.never_no (s := s.xt) h2 _)
          obtain ⟨x, hx⟩ := hx
          by_cases h3 : ∃ f d k, AtSwitch body s w f d k
          · obtain ⟨f, d, k, h3⟩ := h3
            have hs := Step.switch (c := c) (body := body) (may := may') (K := K) (root := root) s w f d k hw h1 ho h3
            obtain ⟨_, y, h4⟩ := h3
            rw [if_pos (hsw _ _ _ _ h4), hx] at hs
            exact ⟨_, hs⟩
          · have hs := Step.work (c := c) (body := body) (may := may') (K := K) (root := root) s w (.go .take) hw h1 h2 ho trivial
              fun f d k _ _ h => h3 ⟨f, d, k, h⟩
            rw [hx] at hs
            exact ⟨_, hs⟩
    · by_cases h2 : s.l.pc w = .steal
      · exact ⟨_, .noSteal s w hw h2⟩
      · obtain ⟨l, st⟩ := LazyPool.ready_step (c := c) (s := s.l) (a := .worker w) hr
        exact ⟨_, .pool s w l h2 h1 st⟩
  | caller i =>
    have hlt := hi.sync.lt i
    cases hx : s.caller i with
    | before => simp only [ready, hx] at hr
    | picking => exact ⟨_, .submit s i 0 (hlt (by show s.caller i ≠ _; rw [hx]; simp)) hx hN⟩
    | calling j f =>
      obtain ⟨l, st⟩ := LazyPool.ready_step (c := c) (a := .submit j) (hi.sync.calling i j f hx).ne
      exact ⟨_, .call s i j f l (hlt (by show s.caller i ≠ _; rw [hx]; simp)) hx st⟩
    | waiting f =>
      simp only [ready, hx] at hr
      obtain ⟨v, hv⟩ := hr
      exact ⟨_, .get s i f v (hlt (by show s.caller i ≠ _; rw [hx]; simp)) hx hv⟩
    | back v => simp only [ready, hx] at hr
  | dtor =>
    obtain ⟨l, st⟩ := LazyPool.ready_step (c := c) (s := s.l) (a := .dtor) hr
    exact ⟨_, .dtor s l (hi.sync.dtor hr.1) st⟩

include hsw in
/-- C60: nobody gets stuck, whatever has been thrown: whoever is obliged to take a step can. -/
theorem C60_progress (hN : 0 < c.N) {s : X σ V E} (h : Reach c body may K root s) {a : Actor} (hr : ready c s a) :
    ∃ s', Step c body may K root a s (.ok s') := progress hc hd hp hsw hroot hN h hr may

omit hc hd hp hroot in
theorem roots_ser (hE : ∀ i, i < K → ∃ n, Ends body may (root i) [] [] n) {root' : Nat → T σ E} (h : Roots body may root root') (i : Nat)
    (hi : i < K) : ∃ v, Runtime.Ser (tgt body may) (root' i) [] v := by
  obtain ⟨o, e⟩ := h i
  obtain ⟨n, h1⟩ := hE i hi
  obtain ⟨r, j, h2, _⟩ := h1.serC o
  exact ⟨r, by rw [e]; exact h2.ser⟩

include hsw in
/-- C60: every call of `sync_wait` returns or throws, with what a serial elision of its root task returns or throws, if all serial elisions end. -/
theorem C60_returns (hE : ∀ i, i < K → ∃ n, Ends body may (root i) [] [] n) {r : Fair.Run (system c body may K root)} (hf : r.Fair)
    (few : ∀ t, LazyPool.Few c (r.st t).l) {t i : Nat} (hcall : (r.st t).caller i ≠ .before) :
    ∃ t' v, t ≤ t' ∧ (r.st t').caller i = .back v ∧ Ser body may (root i) [] [] v := by
  obtain ⟨root', h1, q, h2, h3⟩ := shadow_run hc hd hp hroot hE r hf few
  have few' : ∀ t, LazyPool.Few c (q.st t).l := fun t => by obtain ⟨y, e⟩ := h3 t; rw [e]; exact few t
  obtain ⟨t', v, h4, h5, _⟩ := Whole.C57_returns hc (disc_tgt hd) (fun y => hp y.1) (tgt_switch hsw) (roots_pend hd hroot h1) (roots_ser hE h1) h2
    few' (t := t) (i := i) (by obtain ⟨y, e⟩ := h3 t; rw [e]; exact hcall)
  have h6 : (r.st t').caller i = .back v := by obtain ⟨y, e⟩ := h3 t'; rw [e] at h5; exact h5
  exact ⟨t', v, h4, h6, C60_result hc hd hp hroot (run_reach r few t') h6⟩

/-- C60: the destructor of the pool, once called, returns. -/
theorem C60_destroyed (hE : ∀ i, i < K → ∃ n, Ends body may (root i) [] [] n) {r : Fair.Run (system c body may K root)} (hf : r.Fair)
    (few : ∀ t, LazyPool.Few c (r.st t).l) {t : Nat} (hdt : (r.st t).l.dpc ≠ .alive) : ∃ t', t ≤ t' ∧ (r.st t').l.dpc = .gone := by
  obtain ⟨root', h1, q, h2, h3⟩ := shadow_run hc hd hp hroot hE r hf few
  have few' : ∀ t, LazyPool.Few c (q.st t).l := fun t => by obtain ⟨y, e⟩ := h3 t; rw [e]; exact few t
  obtain ⟨t', h4, h5⟩ := Whole.C57_destroyed hc (disc_tgt hd) (fun y => hp y.1) (roots_pend hd hroot h1) (roots_ser hE h1) h2
    few' (t := t) (by obtain ⟨y, e⟩ := h3 t; rw [e]; exact hdt)
  exact ⟨t', h4, by obtain ⟨y, e⟩ := h3 t'; rw [e] at h5; exact h5⟩

end

end Verif.WholeX
