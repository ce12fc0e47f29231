import Verif.Whole.Return

/-!
C57: a whole program, from `sync_wait` to the destructor of the pool. `K` threads call `lf::sync_wait` on one `lazy_pool`, with root tasks that
start in the states `root i`; the program is disciplined (`Disc`, C51), forks at most 65534 children between two joins (C10), and switches only to
workers of the pool. `Reach`: the states reached in any schedule; `Fair.Run (system …)`: an infinite schedule, possibly with idle times. Both
exclude 2^32 notifications of a domain between a worker's `prepare_wait` and the end of its wait (`Few`, C21).
-/
namespace Verif.Whole
open Verif.Runtime (State Res Ev ExecN Disc SerC Ser Legal)
open Verif.LazyPool (Cfg St)
open Verif.EventCount (upd upd_same upd_ne upd_apply)
variable {σ V : Type} {c : Cfg} {body : σ → Runtime.Act σ V} {pend : σ → Nat} {K : Nat} {root : Nat → σ}

section
variable (hc : c.Ok) (hd : Disc body pend) (hp : ∀ x, pend x ≤ 65534) (hsw : ∀ x d k, body x = .switch d k → d < c.N)
  (hroot : ∀ i, i < K → pend (root i) = 0)

/-- Inside: the runtime of a reached state is a reached state of the runtime. -/
theorem Inv.any {s : W σ V} (h : Inv c body pend K root s) : ∃ k cs, ExecN body pend c.N cs k s.rt := by
  obtain ⟨k, cs, e⟩ := h.exec
  obtain ⟨m, e, _⟩ := e.run
  exact ⟨m, cs, e⟩

include hc hd hp hroot

omit hd hp in
theorem reach_own {s : W σ V} (h : Reach c body K root s) : Own s := by
  induction h with
  | start x => intro f x d hm; cases hm
  | step h few st ih =>
    have hi := reach_inv (pend := pend) hc hroot h
    exact own_step hi.sync (LazyPool.reach_sub hc hi.pool) ih st

include hsw in
/-- C57: nothing undefined happens, in the pool, in the runtime or in a task, and no assertion fails; except that (C58) two threads call
`sync_wait` at the same time and both are in the pool's random number generator. -/
theorem C57_no_ub {s : W σ V} (h : Reach c body K root s) {a : Actor} (st : Step c body K root a s .ub) :
    ∃ i k, i ≠ k ∧ a = .caller i ∧ s.caller i = .before ∧ k < K ∧ s.caller k = .picking := by
  have hi := reach_inv (pend := pend) hc hroot h
  obtain ⟨_, _, e⟩ := hi.any
  obtain ⟨hr, hf⟩ := Runtime.reach_of_bounded hd hp e.any
  have hn := fun w ch => Runtime.no_ub hd hr hf w ch
  generalize hx : (Res.ub : Res (W σ V)) = res at st
  cases st with
  | stole _ w v h1 h2 h3 h4 => exact absurd (map_ub hx.symm) (hn _ _)
  | work _ w h1 h2 h3 h4 h5 => exact absurd (map_ub hx.symm) (hn _ _)
  | switch _ w f d k h1 h2 h3 h4 =>
    rw [if_pos (hsw _ _ _ h4.2)] at hx
    exact absurd (map_ub hx.symm) (hn _ _)
  | take _ w j js h1 h2 h3 h4 => exact absurd (map_ub hx.symm) (hn _ _)
  | race _ i k h1 h2 h3 h4 => exact ⟨i, k, (fun e => by rw [e, h4] at h2; cases h2), rfl, h2, h3, h4⟩
  | _ => cases hx

include hsw in
/-- C57: with one thread that calls `sync_wait` nothing undefined happens at all. -/
theorem C57_no_ub_single (hK : K ≤ 1) {s : W σ V} (h : Reach c body K root s) (a : Actor) : ¬ Step c body K root a s .ub := by
  intro st
  obtain ⟨i, k, hne, rfl, _, hk, _⟩ := C57_no_ub hc hd hp hsw hroot h st
  have : i < K := by
    generalize hx : (Res.ub : Res (W σ V)) = res at st
    cases st with
    | race _ _ k h1 h2 h3 h4 => exact h1
    | _ => cases hx
  omega

include hsw in
/-- C58: calls of `schedule` that are not both in the generator at the same time do not disturb each other, wherever else they are. Missing for the full
property: two that are (`Example.C58_generator_race`). -/
theorem C58_concurrent_calls_partial {s : W σ V} (h : Reach c body K root s) (hg : ∀ k, k < K → s.caller k ≠ .picking) (a : Actor) :
    ¬ Step c body K root a s .ub := by
  intro st
  obtain ⟨_, k, _, _, _, hk, e⟩ := C57_no_ub hc hd hp hsw hroot h st
  exact hg k hk e

/-- C57: the history of resumptions and suspensions keeps the rules of Verif.Runtime.Spec. -/
theorem C57_history {s : W σ V} (h : Reach c body K root s) : Legal s.r.log := by
  obtain ⟨_, _, e⟩ := (reach_inv (pend := pend) hc hroot h).any
  exact Runtime.history_legal (s := s.rt) hd (Runtime.reach_of_bounded hd hp e.any).1

/-- C57: what `sync_wait` returns is the result of the serial elision of its root task. -/
theorem C57_result {s : W σ V} (h : Reach c body K root s) {i : Nat} {v : V} (hb : s.caller i = .back v) :
    Ser body (root i) [] v ∧ ∀ u, Ser body (root i) [] u → u = v := by
  have hi := reach_inv (pend := pend) hc hroot h
  obtain ⟨_, _, e⟩ := hi.any
  obtain ⟨f, d, h1, h2⟩ := hi.sync.back i v hb
  exact Runtime.result_serial hd (Runtime.reach_of_bounded hd hp e.any).1 (s := s.rt) h1 h2

omit hd hp in
/-- C57: while a call of `schedule`, by a thread outside or by a task, is not finished, the pool has not been destroyed, and no worker's context is
finalised. -/
theorem C57_pool_alive {s : W σ V} (h : Reach c body K root s) {j : Nat}
    (hj : (∃ i f, s.caller i = .calling j f) ∨ ∃ w, s.out w = some j) : s.l.dpc ≠ .gone ∧ ∀ v, v < c.N → s.l.pc v ≠ .fin4 := by
  have hi := reach_inv (pend := pend) hc hroot h
  rcases hj with ⟨i, f, hj⟩ | ⟨w, hj⟩
  · have hal : s.l.dpc = .alive := by
      apply Classical.byContradiction
      intro hn
      obtain ⟨v, hv⟩ := hi.sync.dtor hn i (hi.sync.lt i (by rw [hj]; simp))
      rw [hj] at hv; cases hv
    refine ⟨by rw [hal]; simp, fun v hv e => ?_⟩
    have h1 := (LazyPool.reach_data hc hi.pool).quit v hv (by rw [e]; rfl)
    rw [LazyPool.reach_alive hc hi.pool hal] at h1; cases h1
  · obtain ⟨h1, ⟨z, h2⟩, _⟩ := hi.sync.out w j hj
    have hw : w < c.N := by
      by_cases hw : w < c.N
      · exact hw
      · rw [hi.sync.idle w (by omega)] at h2; cases h2
    exact LazyPool.C39_schedule_from_worker_partial hc hi.pool hw h1

/-- C57: when the destructor of the pool runs, every task has returned and no submission is left in a list or in a worker's hands: the destructor
drops nothing. -/
theorem C57_destructor_idle {s : W σ V} (h : Reach c body K root s) (hdt : s.l.dpc ≠ .alive) :
    (∀ f, f < s.r.nf → ∃ v, Ev.done f v ∈ s.r.log) ∧ ∀ w, s.l.hand w = [] ∧ s.l.inbox w = [] := by
  have hi := reach_inv (pend := pend) hc hroot h
  have ho := reach_own hc hroot h
  obtain ⟨_, _, e⟩ := hi.any
  obtain ⟨h1, h2⟩ := Runtime.roots_done hd hp e.any (s := s.rt) fun f x d hm => by
    rcases ho f x d hm with ⟨i, hh⟩ | hv
    · exfalso
      have hk : i < K := hi.sync.lt i (by intro e; rw [e] at hh; exact hh)
      obtain ⟨v, hv⟩ := hi.sync.dtor hdt i hk
      rw [hv] at hh; exact hh
    · exact hv
  refine ⟨h1, fun w => ?_⟩
  have := h2 w
  have : (s.l.hand w ++ s.l.inbox w).map s.task = [] := this
  rw [List.map_eq_nil_iff, List.append_eq_nil_iff] at this
  exact this

include hsw in
/-- C57: nobody gets stuck: whoever is obliged to take a step can. -/
theorem C57_progress (hN : 0 < c.N) {s : W σ V} (h : Reach c body K root s) {a : Actor} (hr : ready c s a) : ∃ s', Step c body K root a s (.ok s') := by
  have hi := reach_inv (pend := pend) hc hroot h
  obtain ⟨_, _, e⟩ := hi.any
  obtain ⟨hre, hf⟩ := Runtime.reach_of_bounded hd hp e.any
  cases a with
  | worker w =>
    obtain ⟨hw, _⟩ := id hr
    by_cases h1 : s.l.pc w = .work
    · cases ho : s.out w with
      | some j =>
        have hpd := (hi.sync.out w j ho).2.2
        obtain ⟨l, st⟩ := LazyPool.ready_step (c := c) (a := .submit j) hpd.ne
        exact ⟨_, .notify s w j l hw ho st⟩
      | none =>
        by_cases h2 : s.r.pc w = .idle
        · cases hh : s.l.hand w with
          | nil => exact ⟨_, .worked s w hw h1 h2 hh⟩
          | cons j js =>
            have hs := Step.take (c := c) (body := body) (K := K) (root := root) s w j js hw h1 h2 hh
            cases hx : Runtime.step body w .take s.rt with
            | ok r => rw [hx] at hs; exact ⟨_, hs⟩
            | ub => exact absurd hx (Runtime.no_ub hd hre hf w .take)
            | no =>
              have hib : s.rt.inbox w = s.task j :: (js ++ s.l.inbox w).map s.task := by simp [W.rt, hh]
              have hpc : s.rt.pc w = .idle := h2
              simp only [Runtime.step, hpc, Runtime.take, hib] at hx
              split at hx <;> cases hx
        · obtain ⟨r, hx⟩ := Runtime.busy_proceeds hd hre hf w .take h2
          by_cases h3 : ∃ f d k, AtSwitch body s w f d k
          · obtain ⟨f, d, k, h3⟩ := h3
            have hs := Step.switch (c := c) (body := body) (K := K) (root := root) s w f d k hw h1 ho h3
            rw [if_pos (hsw _ _ _ h3.2), hx] at hs
            exact ⟨_, hs⟩
          · have hs := Step.work (c := c) (body := body) (K := K) (root := root) s w hw h1 h2 ho fun f d k h => h3 ⟨f, d, k, h⟩
            rw [hx] at hs
            exact ⟨_, hs⟩
    · by_cases h2 : s.l.pc w = .steal
      · exact ⟨_, .noSteal s w hw h2⟩
      · obtain ⟨l, st⟩ := LazyPool.ready_step (c := c) (s := s.l) (a := .worker w) hr
        exact ⟨_, .pool s w l h2 h1 st⟩
  | caller i =>
    have hlt := hi.sync.lt i
    cases hx : s.caller i with
    | before => simp only [ready, hx] at hr
    | picking => exact ⟨_, .submit s i 0 (hlt (by rw [hx]; simp)) hx hN⟩
    | calling j f =>
      obtain ⟨l, st⟩ := LazyPool.ready_step (c := c) (a := .submit j) (hi.sync.calling i j f hx).ne
      exact ⟨_, .call s i j f l (hlt (by rw [hx]; simp)) hx st⟩
    | waiting f =>
      simp only [ready, hx] at hr
      obtain ⟨v, hv⟩ := hr
      exact ⟨_, .get s i f v (hlt (by rw [hx]; simp)) hx hv⟩
    | back v => simp only [ready, hx] at hr
  | dtor =>
    obtain ⟨l, st⟩ := LazyPool.ready_step (c := c) (s := s.l) (a := .dtor) hr
    exact ⟨_, .dtor s l (hi.sync.dtor hr.1) st⟩

include hsw in
/-- C57: every call of `sync_wait` returns, with the result of the serial elision of its root task, if that has one. -/
theorem C57_returns (hser : ∀ i, i < K → ∃ v, Ser body (root i) [] v) {r : Fair.Run (system c body K root)} (hf : r.Fair)
    (few : ∀ t, LazyPool.Few c (r.st t).l) {t i : Nat} (hcall : (r.st t).caller i ≠ .before) :
    ∃ t' v, t ≤ t' ∧ (r.st t').caller i = .back v ∧ Ser body (root i) [] v := by
  obtain ⟨t', v, h1, h2⟩ := caller_returns hc hd hp hsw hroot hser hf few hcall
  exact ⟨t', v, h1, h2, (C57_result hc hd hp hroot (run_reach r few t') h2).1⟩

omit hsw in
/-- C57: the destructor of the pool, once called, returns. -/
theorem C57_destroyed (hser : ∀ i, i < K → ∃ v, Ser body (root i) [] v) {r : Fair.Run (system c body K root)} (hf : r.Fair)
    (few : ∀ t, LazyPool.Few c (r.st t).l) {t : Nat} (hdt : (r.st t).l.dpc ≠ .alive) : ∃ t', t ≤ t' ∧ (r.st t').l.dpc = .gone :=
  dtor_returns hc hd hp hroot hser hf few hdt

end

end Verif.Whole
