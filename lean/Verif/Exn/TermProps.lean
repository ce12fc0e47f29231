import Verif.Exn.Term

/-!
C59: a program with exceptions comes to an end on every schedule: if the serial elision does, however many forks, calls and switches
fail and whichever exceptions are rethrown, then the number of steps `N` workers take is bounded, a schedule ends only when every task
has returned or thrown, and if no worker that has something to do is ignored for ever this moment comes. `Ends`, `ExecN` and `system` are
in Verif.Exn.TermSpec.
-/
namespace Verif.Exn
open Verif.Runtime (State Res Fr Pc Loc Link Ev Why upd upd_apply upd_same upd_ne Alive Few SerC sumTo Closed PInv)
variable {σ V E : Type} {body : σ → Act σ V E} {pend : σ → Nat} {dirty : σ → Prop} {may : E → Prop}

theorem ExecN.any {N k : Nat} {cs : List σ} {s : XS σ V E} (h : ExecN body pend may N cs k s) : ReachAny body pend may s := by
  induction h with
  | start x => exact .start x
  | submit _ _ hp ih => exact .submit _ ih hp
  | step _ _ hc hs ih => exact .step ih hc hs

/-- The runtime without exceptions that corresponds to `s` if the future is `F`. -/
structure Shadow (body : σ → Act σ V E) (pend : σ → Nat) (dirty : σ → Prop) (may : E → Prop) (N n : Nat) (cs : List σ) (kv : Nat)
    (s : XS σ V E) (F : Nat → Orc E) (es : Nat → List E) (r : State (T σ E) (Except E V)) (cs' : List (T σ E)) (k' : Nat) : Prop where
  le : kv ≤ k'
  exec : Verif.Runtime.ExecN (tgt body may) (fun y => pend y.1) N cs' k' r
  short : PInv (tgt body may) (Short body may n) r
  rel : Rel body may dirty F es s r
  len : cs'.length = cs.length
  orig : ∀ c' ∈ cs', ∃ c ∈ cs, ∃ o, c' = norm body may o c []

/-- What is left to fail. -/
def Fuel (body : σ → Act σ V E) (may : E → Prop) (n : Nat) (s : XS σ V E) (φ : Nat → Nat) : Prop :=
  ∀ f, f < s.c.nf → s.aw f = none → φ f ≤ n ∧ ∃ rs es, Ends body may (s.c.fr f).st rs es (φ f)

/-- A task that goes on has a short way to go. -/
theorem Shadow.ends {N n kv k' : Nat} {cs : List σ} {s : XS σ V E} {es : Nat → List E} {r : State (T σ E) (Except E V)} {cs' : List (T σ E)}
    (h : Shadow body pend dirty may N n cs kv s (fun _ => .nil) es r cs' k') {f : Nat} (hf : f < s.c.nf) (ha : Alive (s.c.loc f))
    (hw : s.aw f = none) : ∃ rs es, Ends body may (s.c.fr f).st rs es n := by
  have h1 := h.rel.base.st f hf
  obtain ⟨rs, -, h2⟩ := h.short f (by rw [h.rel.base.loc]; exact ha)
  unfold Sh at h1
  rw [hw] at h1
  have h3 := h1.2
  dsimp only at h3
  rw [h3] at h2
  exact ⟨_, _, h2⟩

section
variable (hd : Disc body pend dirty) (hp : ∀ x, pend x ≤ 65534)
include hd hp

theorem exec_shadow {N k n : Nat} {cs : List σ} {s : XS σ V E} (h : ExecN body pend may N cs k s)
    (hE : ∀ c ∈ cs, Ends body may c [] [] n) : ∃ kv ki φ, kv + ki = k ∧ ki + sumTo φ s.c.nf ≤ n * (kv + cs.length) ∧
      Fuel body may n s φ ∧ ∀ F, ∃ es r cs' k', Shadow body pend dirty may N n cs kv s F es r cs' k' := by
  have hd' := disc_tgt (may := may) hd
  induction h with
  | start x =>
    refine ⟨0, 0, fun _ => 0, rfl, Nat.zero_le _, fun f hf => absurd hf (Nat.not_lt_zero _),
      fun F => ⟨fun _ => [], State.start (x, [], Orc.nil), [], 0, ?_⟩⟩
    exact ⟨Nat.le_refl _, .start ((x, [], Orc.nil) : T σ E), fun f hf => hf.elim, sim_start F x, rfl, fun c' h => absurd h (by simp)⟩
  | @submit cs k s c w hx hw hpc ih =>
    obtain ⟨kv, ki, φ, h1, h2, h3, h4⟩ := ih fun c hm => hE c (List.mem_cons_of_mem _ hm)
    have hc := hE c (List.mem_cons_self ..)
    refine ⟨kv, ki, upd φ s.c.nf n, h1, ?_, ?_, fun F => ?_⟩
    · show ki + sumTo _ (s.c.nf + 1) ≤ _
      rw [sumTo, Verif.Runtime.sumTo_out (Nat.le_refl _), upd_same, List.length_cons, ← Nat.add_assoc kv, Nat.mul_add, Nat.mul_one]
      omega
    · intro f hf ha
      by_cases e : f = s.c.nf
      · subst e
        refine ⟨by rw [upd_same]; exact Nat.le_refl _, [], [], ?_⟩
        simp only [submit, Verif.Runtime.submit, Verif.Runtime.newFrame, upd_same]
        exact hc
      · have hf' : f < s.c.nf + 1 := hf
        simp only [submit, upd_ne _ _ e] at ha
        obtain ⟨h6, rs, es, h5⟩ := h3 f (by omega) ha
        refine ⟨by rw [upd_ne _ _ e]; exact h6, rs, es, ?_⟩
        simp only [submit, Verif.Runtime.submit, Verif.Runtime.newFrame, upd_ne _ _ e]
        exact h5
    · obtain ⟨es, r, cs', k', sh⟩ := h4 F
      obtain ⟨hr, hf⟩ := Verif.Runtime.reach_of_bounded hd' (fun y => hp y.1) sh.exec.any
      have hpn : pend (norm body may (F s.c.nf) c []).1 = 0 := (norm_pend hd ..).trans hpc
      refine ⟨_, _, norm body may (F s.c.nf) c [] :: cs', k', sh.le, .submit sh.exec hw hpn, ?_, sim_submit w c sh.rel, by simp [sh.len], ?_⟩
      · exact Verif.Runtime.pinv_step (closed_short n) hd' (Verif.Runtime.reach_inv hd' hr) hf sh.short (.submit _ _ w (ends_norm _ hc))
      · intro c' hm
        rcases List.mem_cons.1 hm with rfl | hm
        · exact ⟨c, List.mem_cons_self .., _, rfl⟩
        · obtain ⟨c0, h5, h6⟩ := sh.orig c' hm
          exact ⟨c0, List.mem_cons_of_mem _ h5, h6⟩
  | @step cs k s s' w ch hx hw hch hs ih =>
    obtain ⟨kv, ki, φ, h1, h2, h3, h4⟩ := ih hE
    have after : ∀ F, ∃ es r cs' k' es' r', Shadow body pend dirty may N n cs kv s (orcBefore body F s w ch) es r cs' k' ∧
        ((Quiet s w ch ∧ r' = r) ∨ ∃ ch, Verif.Runtime.step (tgt body may) w ch r = .ok r') ∧
        (r' = r ∨ ∃ ch, Verif.Runtime.step (tgt body may) w ch r = .ok r') ∧ Rel body may dirty F es' s' r' ∧
        PInv (tgt body may) (Short body may n) r' := by
      intro F
      obtain ⟨es, r, cs', k', sh⟩ := h4 (orcBefore body F s w ch)
      obtain ⟨hr, hf⟩ := Verif.Runtime.reach_of_bounded hd' (fun y => hp y.1) sh.exec.any
      have := sim_step hd hch hr hf sh.rel
      rw [hs] at this
      obtain ⟨es', r', h5, h6⟩ := this
      replace h5 : (Quiet s w ch ∧ r' = r) ∨ ∃ ch, Verif.Runtime.step (tgt body may) w ch r = .ok r' := by
        rw [quiet_iff]
        split at h5
        · rename_i hn; exact .inl ⟨hn, h5⟩
        · exact .inr ⟨_, h5⟩
      refine ⟨es, r, cs', k', es', r', sh, h5, h5.imp And.right id, h6, ?_⟩
      rcases h5 with ⟨-, rfl⟩ | ⟨ch', h5⟩
      · exact sh.short
      · exact Verif.Runtime.pinv_step (closed_short n) hd' (Verif.Runtime.reach_inv hd' hr) hf sh.short (Verif.Runtime.step_rel h5)
    by_cases hq : Quiet s w ch
    · obtain ⟨f, q1, q2, q3, q4, q5⟩ := quiet_step hq hch hs
      obtain ⟨es0, r0, cs0, k0, sh0⟩ := h4 fun _ => .nil
      have hrun : s.c.loc f = .running w := by
        have hi := Verif.Runtime.reach_inv hd' (Verif.Runtime.reach_of_bounded hd' (fun y => hp y.1) sh0.exec.any).1
        rw [← sh0.rel.base.loc]
        exact (hi.loc.run w f).2 (.inl (by rw [sh0.rel.base.pc]; exact q1))
      have hfn : f < s.c.nf := by
        have hi := Verif.Runtime.reach_inv hd' (Verif.Runtime.reach_of_bounded hd' (fun y => hp y.1) sh0.exec.any).1
        by_cases e : f < s.c.nf
        · exact e
        · have := (hi.loc.fresh f).2 (by rw [sh0.rel.base.nf]; omega)
          rw [sh0.rel.base.loc, hrun] at this; cases this
      have haw : s.aw f = none := by
        have := sh0.rel.aw f
        rw [hrun] at this
        exact this
      obtain ⟨h50, rs, es, h5⟩ := h3 f hfn haw
      obtain ⟨m, h6, h7⟩ := q5 _ _ _ h5
      refine ⟨kv, ki + 1, upd φ f m, by omega, ?_, ?_, fun F => ?_⟩
      · rw [q2]
        have := Verif.Runtime.sumTo_upd (g := φ) m hfn
        omega
      · intro g hg ha
        by_cases e : g = f
        · subst e; rw [upd_same]; exact ⟨by omega, rs, es, h7⟩
        · rw [upd_ne _ _ e, q4 g e]
          exact h3 g (by omega) (by rw [← q3]; exact ha)
      · obtain ⟨es, r, cs', k', es', r', sh, -, h8, h9, h10⟩ := after F
        rcases h8 with rfl | ⟨ch', h8⟩
        · exact ⟨es', r', cs', k', sh.le, sh.exec, h10, h9, sh.len, sh.orig⟩
        · exact ⟨es', r', cs', k' + 1, Nat.le_succ_of_le sh.le, sh.exec.step hw h8, h10, h9, sh.len, sh.orig⟩
    · have vis : ∀ F, ∃ es r cs' k', Shadow body pend dirty may N n cs (kv + 1) s' F es r cs' k' := by
        intro F
        obtain ⟨es, r, cs', k', es', r', sh, h8, -, h9, h10⟩ := after F
        rcases h8 with ⟨h8, -⟩ | ⟨ch', h8⟩
        · exact absurd h8 hq
        · exact ⟨es', r', cs', k' + 1, Nat.succ_le_succ sh.le, sh.exec.step hw h8, h10, h9, sh.len, sh.orig⟩
      obtain ⟨g, t1, t2⟩ := touch_step hq hs
      obtain ⟨es0, r0, cs0, k0, sh0⟩ := vis fun _ => .nil
      refine ⟨kv + 1, ki, upd φ g n, by omega, ?_, ?_, vis⟩
      · have hm : n * (kv + 1 + cs.length) = n * (kv + cs.length) + n := by
          rw [show kv + 1 + cs.length = (kv + cs.length) + 1 by omega, Nat.mul_add, Nat.mul_one]
        rcases t1 with t1 | ⟨t1, rfl⟩
        · rw [t1]
          by_cases hg : g < s.c.nf
          · have := Verif.Runtime.sumTo_upd (g := φ) n hg
            omega
          · rw [Verif.Runtime.sumTo_out (by omega)]; omega
        · rw [t1, sumTo, Verif.Runtime.sumTo_out (Nat.le_refl _), upd_same]; omega
      · intro f hf ha
        rcases t2 f hf ha with ⟨a, b, c⟩ | ⟨rfl, a⟩
        · by_cases e : f = g
          · subst e
            obtain ⟨h6, rs, es, h5⟩ := h3 f a b
            rw [upd_same, c]
            exact ⟨Nat.le_refl _, rs, es, h5.mono h6⟩
          · rw [upd_ne _ _ e, c]; exact h3 f a b
        · rw [upd_same]; exact ⟨Nat.le_refl _, sh0.ends hf a ha⟩

theorem exec_result {N k n : Nat} {cs : List σ} {s : XS σ V E} (h : ExecN body pend may N cs k s)
    (hE : ∀ c ∈ cs, Ends body may c [] [] n) : ∃ kv, k ≤ kv + n * (kv + cs.length) ∧
      ∀ F, ∃ es r cs' k', Shadow body pend dirty may N n cs kv s F es r cs' k' := by
  obtain ⟨kv, ki, φ, h1, h2, -, h4⟩ := exec_shadow hd hp h hE
  exact ⟨kv, by omega, h4⟩

/-- C59: if every serial elision of every submitted task ends within `n` actions, no schedule of any number of workers is longer than
this, whatever fails and whatever is rethrown. -/
theorem C59_bounded {N k n : Nat} {cs : List σ} {s : XS σ V E} (h : ExecN body pend may N cs k s)
    (hE : ∀ c ∈ cs, Ends body may c [] [] n) : k ≤ (n + 1) * (10 * n + 6) * cs.length := by
  classical
  obtain ⟨kv, h1, h2⟩ := exec_result hd hp h hE
  obtain ⟨es, r, cs', k', sh⟩ := h2 fun _ => .nil
  have hd' := disc_tgt (may := may) hd
  have hcost : ∃ cost : T σ E → Nat, ∀ c ∈ cs', (∃ v, SerC (tgt body may) c [] v (cost c)) ∧ cost c ≤ n := by
    refine ⟨fun c => if h : ∃ j, (∃ v, SerC (tgt body may) c [] v j) ∧ j ≤ n then h.choose else 0, fun c hm => ?_⟩
    obtain ⟨c0, hc0, o, rfl⟩ := sh.orig c hm
    obtain ⟨v, j, a1, a2⟩ := (hE c0 hc0).serC o
    have h : ∃ j, (∃ v, SerC (tgt body may) (norm body may o c0 []) [] v j) ∧ j ≤ n := ⟨j, ⟨v, a1⟩, a2⟩
    simp only [dif_pos h]
    exact h.choose_spec
  obtain ⟨cost, hcost⟩ := hcost
  have h3 := Verif.Runtime.schedule_bounded hd' (fun y => hp y.1) sh.exec fun c hm => (hcost c hm).1
  have h4 : (cs'.map fun c => 10 * cost c + 5).sum ≤ (10 * n + 5) * cs'.length := by
    have : ∀ l : List (T σ E), (∀ c ∈ l, cost c ≤ n) → (l.map fun c => 10 * cost c + 5).sum ≤ (10 * n + 5) * l.length := by
      intro l hl
      induction l with
      | nil => simp
      | cons a l ih =>
        have h5 := hl a (List.mem_cons_self ..)
        have h6 := ih fun c hm => hl c (List.mem_cons_of_mem _ hm)
        simp only [List.map_cons, List.sum_cons, List.length_cons, Nat.mul_add, Nat.mul_one]
        omega
    exact this cs' fun c hm => (hcost c hm).2
  rw [sh.len] at h4
  have h5 : kv ≤ (10 * n + 5) * cs.length := Nat.le_trans sh.le (Nat.le_trans h3 h4)
  have h6 : n * (kv + cs.length) ≤ n * ((10 * n + 6) * cs.length) := by
    refine Nat.mul_le_mul_left _ ?_
    have : (10 * n + 6) * cs.length = (10 * n + 5) * cs.length + cs.length := by
      rw [show 10 * n + 6 = (10 * n + 5) + 1 by omega, Nat.add_mul, Nat.one_mul]
    omega
  have h7 : kv ≤ (10 * n + 6) * cs.length := Nat.le_trans h5 (Nat.mul_le_mul_right _ (by omega))
  calc k ≤ kv + n * (kv + cs.length) := h1
    _ ≤ (10 * n + 6) * cs.length + n * ((10 * n + 6) * cs.length) := Nat.add_le_add h7 h6
    _ = (n + 1) * (10 * n + 6) * cs.length := by
        rw [Nat.mul_assoc, Nat.add_comm]
        generalize (10 * n + 6) * cs.length = z
        rw [Nat.add_mul, Nat.one_mul]

theorem rest_done {N k n : Nat} {cs : List σ} {s : XS σ V E} (h : ExecN body pend may N cs k s) (hE : ∀ c ∈ cs, Ends body may c [] [] n)
    (hsw : ∀ x d k h, body x = .switch d k h → d < N) (hrest : ∀ w, w < N → s.c.pc w = .idle ∧ s.c.inbox w = []) :
    ∀ f, f < s.c.nf → ∃ r, Ev.done f r ∈ s.c.log := by
  obtain ⟨kv, -, h2⟩ := exec_result hd hp h hE
  obtain ⟨es, r, cs', k', sh⟩ := h2 fun _ => .nil
  intro f hf
  have := Verif.Runtime.rest_done (disc_tgt (may := may) hd) (fun y => hp y.1) sh.exec (fun y d k hb => by
      unfold tgt at hb
      split at hb <;> cases hb
      exact hsw _ _ _ _ ‹_›)
    (by rw [sh.rel.base.pc, sh.rel.base.inbox]; exact hrest) f (by rw [sh.rel.base.nf]; exact hf)
  obtain ⟨v, hv⟩ := this
  exact ⟨v, (sh.rel.base.log.doneIff f v).2 hv⟩

/-- C59: a schedule ends only when everything is done: when no worker can take a step all tasks have returned or thrown. (Tasks switch to
existing workers.) -/
theorem C59_stuck_done {N k n : Nat} {cs : List σ} {s : XS σ V E} (h : ExecN body pend may N cs k s)
    (hE : ∀ c ∈ cs, Ends body may c [] [] n) (hsw : ∀ x d k h, body x = .switch d k h → d < N)
    (hstuck : ∀ w, w < N → ∀ ch s', Allowed may ch → step body w ch s ≠ .ok s') : ∀ f, f < s.c.nf → ∃ r, Ev.done f r ∈ s.c.log := by
  obtain ⟨hr, hf⟩ := reach_of_bounded hd hp h.any
  refine rest_done hd hp h hE hsw fun w hw => ?_
  have hidle : s.c.pc w = .idle := by
    by_cases e : s.c.pc w = .idle
    · exact e
    · exfalso
      obtain ⟨s', hs⟩ := busy_proceeds hd hr hf w .take e
      exact hstuck w hw (.go .take) _ trivial hs
  refine ⟨hidle, ?_⟩
  cases hi : s.c.inbox w with
  | nil => rfl
  | cons f l =>
    exfalso
    have hu := no_ub hd hr hf w (ch := .go .take) trivial
    cases hs : step body w (.go .take) s with
    | ok s' => exact hstuck w hw (.go .take) _ trivial hs
    | ub => exact hu hs
    | no =>
      simp only [step, hidle, Verif.Runtime.take, hi, plain] at hs
      split at hs <;> cases hs

/-- C59: in every fair schedule there is a moment from which on every task has returned or thrown; a submitted task then has a result, value
or exception, of its serial elision. -/
theorem C59_eventually {N n : Nat} (hsw : ∀ x d k h, body x = .switch d k h → d < N) {cs : List σ}
    (hE : ∀ c ∈ cs, Ends body may c [] [] n) (r : Fair.Run (system body pend may N cs)) (hfair : r.Fair) :
    ∃ t, ∀ u, t ≤ u → (∀ f, f < (r.st u).c.nf → ∃ v, Ev.done f v ∈ (r.st u).c.log) ∧
      ∀ f c w, Ev.submit f c w ∈ (r.st u).c.log → ∃ v, Ev.done f v ∈ (r.st u).c.log ∧ Ser body may c [] [] v := by
  obtain ⟨t, ht⟩ := r.stops (fun k s => ExecN body pend may N cs k s) r.start
    (fun k w s s' h ⟨hw, ch, hc, hs⟩ => .step h hw hc hs) (fun k s h => C59_bounded hd hp h hE)
  have hex : ∃ k, ExecN body pend may N cs k (r.st t) := by
    have : ∀ t, ∃ k, ExecN body pend may N cs k (r.st t) := by
      intro t
      induction t with
      | zero => exact r.start
      | succ t ih =>
        rcases r.next t with ⟨_, e⟩ | ⟨w, _, hw, ch, hc, hs⟩
        · rw [e]; exact ih
        · obtain ⟨k, ih⟩ := ih; exact ⟨_, ih.step hw hc hs⟩
    exact this t
  obtain ⟨k, hk⟩ := hex
  have hrest : ∀ w, w < N → (r.st t).c.pc w = .idle ∧ (r.st t).c.inbox w = [] := by
    intro w hw
    obtain ⟨t', h1, h2⟩ := hfair w t
    rcases h2 with h2 | h2
    · rw [(ht t' h1).2] at h2
      simp only [system, not_and, not_or, Classical.not_not] at h2
      exact h2 hw
    · rw [(ht t' h1).1] at h2; cases h2
  have hall := rest_done hd hp hk hE hsw hrest
  refine ⟨t, fun u hu => ?_⟩
  rw [(ht u hu).2]
  refine ⟨hall, fun f c w hsub => ?_⟩
  obtain ⟨hr, -⟩ := reach_of_bounded hd hp hk.any
  have hfn : f < (r.st t).c.nf := by
    obtain ⟨kv, -, h2⟩ := exec_result hd hp hk hE
    obtain ⟨es, q, cs', k', sh⟩ := h2 fun _ => .nil
    obtain ⟨c', -, h3⟩ := sh.rel.base.log.submitted hsub
    have hi := Verif.Runtime.reach_inv (disc_tgt (may := may) hd)
      (Verif.Runtime.reach_of_bounded (disc_tgt (may := may) hd) (fun y => hp y.1) sh.exec.any).1
    have := (hi.res.sb f c' w h3).2
    rw [sh.rel.base.nf] at this
    exact this
  obtain ⟨v, hv⟩ := hall f hfn
  exact ⟨v, hv, result_serial hd hr hsub hv⟩
end

end Verif.Exn
