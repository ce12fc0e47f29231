import Verif.Runtime.Term
import Verif.Fair

/-!
C45: every schedule finishes. The number of steps `N` workers take is at most ten times the number of actions of the serial elisions of
the tasks submitted, plus five for each of them (unsuccessful attempts to steal are not steps); and if no worker that has something to do is
ignored for ever, all tasks return, with the results of their serial elisions.
-/
namespace Verif.Runtime
variable {σ V : Type}

/-- The schedules of `N` workers: `ExecN body pend N cs k s` when the tasks submitted (to any of them) started in the states `cs` and the workers
have taken `k` steps in all, which led to state `s`. -/
inductive ExecN (body : σ → Act σ V) (pend : σ → Nat) (N : Nat) : List σ → Nat → State σ V → Prop
  | start (x : σ) : ExecN body pend N [] 0 (State.start x)
  | submit {cs : List σ} {k : Nat} {s : State σ V} {c : σ} {w : Nat} : ExecN body pend N cs k s → w < N → pend c = 0 →
      ExecN body pend N (c :: cs) k (submit s c w)
  | step {cs : List σ} {k : Nat} {s s' : State σ V} {w : Nat} {ch : Choice} : ExecN body pend N cs k s → w < N →
      step body w ch s = .ok s' → ExecN body pend N cs (k + 1) s'

theorem ExecN.any {body : σ → Act σ V} {pend : σ → Nat} {N k : Nat} {cs : List σ} {s : State σ V} (h : ExecN body pend N cs k s) :
    ReachAny body pend s := by
  induction h with
  | start x => exact .start x
  | submit _ _ hp ih => exact .submit _ ih hp
  | step _ _ hs ih => exact .step ih hs

/-- The step of a worker moves only this worker, and adds only to its own queue. -/
theorem step_other {body : σ → Act σ V} {w : Nat} {ch : Choice} {s s' : State σ V} (hs : step body w ch s = .ok s') :
    (∀ v, v ≠ w → s'.pc v = s.pc v ∧ (s.q v = [] → s'.q v = [])) ∧
      ∀ v, s.inbox v = [] → s'.inbox v = [] ∨ ∃ f k, body (s.fr f).st = .switch v k := by
  have pj : ∀ {s1 : State σ V} {f : Nat}, passJoin body s1 w f = .ok s' → s1.pc = s.pc → s1.q = s.q → s1.inbox = s.inbox →
      (∀ v, v ≠ w → s'.pc v = s.pc v ∧ (s.q v = [] → s'.q v = [])) ∧ ∀ v, s.inbox v = [] → s'.inbox v = [] ∨ ∃ f k, body (s.fr f).st = .switch v k := by
    intro s1 f h1 h2 h3 h4
    obtain ⟨k', vs, rfl, _⟩ := passJoin_ok h1
    exact ⟨fun v hv => ⟨by simp [passed, h2, upd_ne _ _ hv], by simp [passed, h3]⟩, fun v hv => by simp [passed, h4, hv]⟩
  have lo : ∀ {s1 : State σ V} {p : Pc}, s1.pc = upd s.pc w p → s1.q = s.q → s1.inbox = s.inbox →
      (∀ v, v ≠ w → s1.pc v = s.pc v ∧ (s.q v = [] → s1.q v = [])) ∧ ∀ v, s.inbox v = [] → s1.inbox v = [] ∨ ∃ f k, body (s.fr f).st = .switch v k := by
    intro s1 p h1 h2 h3
    exact ⟨fun v hv => ⟨by rw [h1, upd_ne _ _ hv], by rw [h2]; exact id⟩, fun v hv => by rw [h3]; exact .inl hv⟩
  have ds : ∀ {f : Nat} {s1 : State σ V}, destroy s w f = .ok s1 → s1.pc = s.pc ∧ s1.q = s.q ∧ s1.inbox = s.inbox := by
    intro f s1 h; obtain ⟨rfl, _⟩ := destroy_ok h; exact ⟨rfl, rfl, rfl⟩
  unfold step at hs
  cases hp : s.pc w with
  | idle =>
    rw [hp] at hs
    cases ch with
    | take =>
      simp only [take] at hs
      split at hs
      · rename_i f r hi
        split at hs
        · cases hs
          exact ⟨fun v hv => ⟨by simp [upd_ne _ _ hv], fun h => h⟩, fun v hv => .inl (by
            simp only [upd_apply]; split
            · subst_vars; rw [hi] at hv; cases hv
            · exact hv)⟩
        · cases hs
      · cases hs
    | steal v =>
      simp only [steal] at hs
      split at hs
      · split at hs
        · cases hs
          refine ⟨fun u hu => ⟨by simp [upd_ne _ _ hu], fun h => ?_⟩, fun u hu => .inl hu⟩
          simp only [upd_apply]; split
          · subst_vars; rw [h]; rfl
          · exact h
        · split at hs <;> cases hs
      · cases hs
  | run f =>
    rw [hp] at hs
    simp only at hs
    cases hb : body (s.fr f).st with
    | ret v =>
      rw [hb] at hs
      simp only [doRet] at hs
      split at hs
      · cases hl : s.link f with
        | root =>
          rw [hl] at hs; simp only at hs
          cases hdt : destroy s w f with
          | ok s1 =>
            rw [hdt] at hs
            simp only at hs
            obtain ⟨a, b, c⟩ := ds hdt
            split at hs
            · cases hs; exact lo rfl b c
            · cases hs
          | ub => rw [hdt] at hs; cases hs
          | no => rw [hdt] at hs; cases hs
        | call p =>
          rw [hl] at hs; simp only at hs
          split at hs
          · split at hs
            · rename_i hdt
              obtain ⟨a, b, c⟩ := ds hdt
              cases hs; exact lo rfl b c
            · cases hs
          · cases hs
        | fork p i =>
          rw [hl] at hs; simp only at hs
          split at hs
          · split at hs
            · rename_i hdt
              obtain ⟨a, b, c⟩ := ds hdt
              cases hs; exact lo rfl b c
            · cases hs
          · cases hs
      · cases hs
    | fork c k' =>
      rw [hb] at hs; cases hs
      exact ⟨fun v hv => ⟨by simp [doFork, upd_ne _ _ hv], by simp [doFork, upd_ne _ _ hv]⟩, fun v hv => .inl hv⟩
    | call c k' => rw [hb] at hs; cases hs; exact lo rfl rfl rfl
    | join k' =>
      rw [hb] at hs
      simp only [doJoin] at hs
      split at hs
      · exact pj hs rfl rfl rfl
      · cases hs; exact lo rfl rfl rfl
    | switch d k' =>
      rw [hb] at hs
      simp only [doSwitch] at hs
      split at hs
      · cases hs
        refine ⟨fun v hv => ⟨by simp [upd_ne _ _ hv], id⟩, fun v hv => ?_⟩
        by_cases e : v = d
        · subst e; exact .inr ⟨f, k', hb⟩
        · left; simp [upd_ne _ _ e, hv]
      · cases hs
  | joinLoad f =>
    rw [hp] at hs; simp only [joinLoad] at hs
    split at hs <;> cases hs <;> exact lo rfl rfl rfl
  | joinSub f =>
    rw [hp] at hs; simp only [joinSub] at hs
    split at hs <;> cases hs <;> exact lo rfl rfl rfl
  | joinTake f =>
    rw [hp] at hs; simp only [joinTake] at hs
    split at hs
    · exact pj hs rfl rfl rfl
    · cases hs
  | finPop p c =>
    rw [hp] at hs; simp only [finPop] at hs
    split at hs
    · split at hs
      · cases hs
        exact ⟨fun v hv => ⟨by simp [upd_ne _ _ hv], by simp [upd_ne _ _ hv]⟩, fun v hv => .inl hv⟩
      · cases hs
    · split at hs <;> cases hs
      exact lo rfl rfl rfl
  | finDec p c same =>
    rw [hp] at hs; simp only [finDec] at hs
    split at hs
    · split at hs <;> cases hs <;> exact lo rfl rfl rfl
    · cases hs
  | finWin p same =>
    rw [hp] at hs; simp only [finWin] at hs
    split at hs
    · cases same with
      | true => exact pj hs rfl rfl rfl
      | false =>
        simp only [Bool.false_eq_true, if_false] at hs
        split at hs
        · exact pj hs rfl rfl rfl
        · cases hs
    · cases hs
  | finLose same =>
    rw [hp] at hs; simp only [finLose] at hs
    by_cases hc : (if same = true then release s w else s).wkEmpty w = true ∧ (if same = true then release s w else s).q w = []
    · rw [if_pos hc] at hs; cases hs; cases same <;> exact lo rfl rfl rfl
    · rw [if_neg hc] at hs; cases hs
  | selfSteal =>
    rw [hp] at hs; simp only [selfSteal] at hs
    split at hs
    · cases hs
      exact ⟨fun v hv => ⟨by simp [upd_ne _ _ hv], by simp [upd_ne _ _ hv]⟩, fun v hv => .inl hv⟩
    · split at hs <;> cases hs; exact lo rfl rfl rfl
  | stole p =>
    rw [hp] at hs; simp only [stole] at hs
    split at hs <;> cases hs; exact lo rfl rfl rfl
  | switchRel z =>
    rw [hp] at hs; simp only [switchRel] at hs
    by_cases hc : (if z = true then release s w else s).wkEmpty w = true
    · rw [if_pos hc] at hs; cases hs; cases z <;> exact lo rfl rfl rfl
    · rw [if_neg hc] at hs; cases hs

theorem bnd_step {body : σ → Act σ V} {N w : Nat} {ch : Choice} {s s' : State σ V} (h : Bnd N s) (hw : w < N)
    (hs : step body w ch s = .ok s') : Bnd N s' := by
  have := (step_other hs).1
  exact ⟨fun v hv => by rw [(this v (by omega)).1]; exact h.pc v hv, fun v hv => (this v (by omega)).2 (h.q v hv)⟩

theorem tinv_submit {body : σ → Act σ V} {pend : σ → Nat} {N : Nat} {s : State σ V} {rest : Nat → Nat} {c : σ} {v : V} {n : Nat} (w : Nat)
    (h : Inv body pend s) (ht : TInv body s rest) (hc : SerC body c [] v n) :
    TInv body (submit s c w) (upd rest s.nf n) ∧ meas N (submit s c w) (upd rest s.nf n) ≤ meas N s rest + 10 * n + 5 := by
  refine ⟨tinv_of ht fun g => ?_, ?_⟩
  · by_cases e : g = s.nf
    · subst e
      refine Or.inr (Or.inl ⟨by simp [submit, upd_same, Alive], [], v, ?_, ?_⟩)
      · simpa [submit, newFrame, upd_same] using .nil
      · simpa [calls, submit, newFrame, upd_same] using hc
    · refine Or.inl ⟨?_, ?_, ?_, fun hga => ?_, ?_⟩
      · simp [submit, upd_ne _ _ e]
      · simp [submit, newFrame, upd_ne _ _ e]
      · simp [submit, newFrame, upd_ne _ _ e]
      · simp only [calls, submit, newFrame, upd_ne _ _ e]
        split
        · rename_i x hx
          have := h.st.cb g x hx
          rw [upd_ne _ _ (by omega)]
        · rfl
      · rw [upd_ne _ _ e]
  · have m4 : sumTo (upd rest s.nf n) (submit s c w).nf = sumTo rest s.nf + n := by
      show sumTo _ (s.nf + 1) = _
      rw [sumTo, sumTo_out (Nat.le_refl _), upd_same]
    have m5 := inb_upd (N := N) (s := s) (s' := submit s c w) (d := w) (l := s.inbox w ++ [s.nf]) rfl (by simp)
    rw [List.length_append, List.length_cons, List.length_nil] at m5
    unfold meas
    unfold inb at m5
    rw [m4]
    show _ + sumTo (fun w => pw (s.pc w)) N + 6 * sumTo (fun w => (s.q w).length) N + _ ≤ _
    omega

theorem sumTo_zero (n : Nat) : sumTo (fun _ => 0) n = 0 := by
  induction n with
  | zero => rfl
  | succ n ih => simp only [sumTo, ih]

section
variable {body : σ → Act σ V} {pend : σ → Nat} (hd : Disc body pend) (hp : ∀ x, pend x ≤ 65534)
include hd hp

theorem exec_meas {N k : Nat} {cs : List σ} {s : State σ V} {cost : σ → Nat} (h : ExecN body pend N cs k s)
    (hc : ∀ c ∈ cs, ∃ v, SerC body c [] v (cost c)) :
    Bnd N s ∧ ∃ rest, TInv body s rest ∧ k + meas N s rest ≤ (cs.map fun c => 10 * cost c + 5).sum := by
  induction h with
  | start x =>
    refine ⟨⟨fun _ _ => rfl, fun _ _ => rfl⟩, fun _ => 0, ⟨fun f hf => hf.elim, fun _ _ => rfl⟩, ?_⟩
    simp [meas, State.start, sumTo, pw, sumTo_zero]
  | submit hx hw hpc ih =>
    obtain ⟨B, rest, h1, h2⟩ := ih fun c hm => hc c (List.mem_cons_of_mem _ hm)
    obtain ⟨v, hv⟩ := hc _ (List.mem_cons_self ..)
    rename_i s _ w
    have hi := reach_inv hd (reach_of_bounded hd hp hx.any).1
    obtain ⟨h3, h4⟩ := tinv_submit (N := N) w hi h1 hv
    refine ⟨⟨B.pc, B.q⟩, _, h3, ?_⟩
    simp only [List.map_cons, List.sum_cons]
    omega
  | step hx hw hs ih =>
    obtain ⟨B, rest, h1, h2⟩ := ih hc
    obtain ⟨hr, hf⟩ := reach_of_bounded hd hp hx.any
    have B' := bnd_step B hw hs
    obtain ⟨rest', h3, h4⟩ := cost_step (reach_inv hd hr) hf h1 B B' (step_rel hs)
    exact ⟨B', rest', h3, by omega⟩

/-- C45: if the serial elision of every submitted task `c` terminates, after `cost c` actions, no schedule of any number of workers is longer
than ten times these numbers plus five for each submission. -/
theorem schedule_bounded {N k : Nat} {cs : List σ} {s : State σ V} {cost : σ → Nat} (h : ExecN body pend N cs k s)
    (hc : ∀ c ∈ cs, ∃ v, SerC body c [] v (cost c)) : k ≤ (cs.map fun c => 10 * cost c + 5).sum := by
  obtain ⟨_, _, _, h⟩ := exec_meas hd hp h hc
  omega

theorem rest_done {N k : Nat} {cs : List σ} {s : State σ V} (h : ExecN body pend N cs k s) (hsw : ∀ x d k, body x = .switch d k → d < N)
    (hrest : ∀ w, w < N → s.pc w = .idle ∧ s.inbox w = []) : ∀ f, f < s.nf → ∃ v, Ev.done f v ∈ s.log := by
  obtain ⟨hr, hf⟩ := reach_of_bounded hd hp h.any
  have hB : (∀ w, N ≤ w → s.pc w = .idle) ∧ ∀ w, N ≤ w → s.inbox w = [] := by
    clear hrest hr hf
    induction h with
    | start x => exact ⟨fun _ _ => rfl, fun _ _ => rfl⟩
    | submit _ hw _ ih =>
      refine ⟨ih.1, fun v hv => ?_⟩
      simp only [submit]
      rw [upd_ne _ _ (by omega)]; exact ih.2 v hv
    | step _ hw hs ih =>
      obtain ⟨a, b⟩ := step_other hs
      refine ⟨fun v hv => by rw [(a v (by omega)).1]; exact ih.1 v hv, fun v hv => ?_⟩
      rcases b v (ih.2 v hv) with e | ⟨f, k, e⟩
      · exact e
      · have := hsw _ _ _ e; omega
  refine nothing_lost hd hr (fun w => ?_) fun w => ?_ <;> by_cases hw : w < N
  · exact (hrest w hw).1
  · exact hB.1 w (by omega)
  · exact (hrest w hw).2
  · exact hB.2 w (by omega)

/-- C45: a schedule ends only when everything is done: when no worker can take a step all tasks have returned. (Tasks switch to existing
workers.) -/
theorem stuck_done {N k : Nat} {cs : List σ} {s : State σ V} (h : ExecN body pend N cs k s) (hsw : ∀ x d k, body x = .switch d k → d < N)
    (hstuck : ∀ w, w < N → ∀ ch s', step body w ch s ≠ .ok s') : ∀ f, f < s.nf → ∃ v, Ev.done f v ∈ s.log := by
  obtain ⟨hr, hf⟩ := reach_of_bounded hd hp h.any
  refine rest_done hd hp h hsw fun w hw => ?_
  have hidle : s.pc w = .idle := by
    by_cases e : s.pc w = .idle
    · exact e
    · obtain ⟨s', hs⟩ := busy_proceeds hd hr hf w .take e
      exact absurd hs (hstuck w hw _ _)
  refine ⟨hidle, ?_⟩
  cases hi : s.inbox w with
  | nil => rfl
  | cons f r =>
    exfalso
    have hu := no_ub hd hr hf w .take
    cases hs : step body w .take s with
    | ok s' => exact hstuck w hw _ _ hs
    | ub => exact hu hs
    | no =>
      simp only [step, hidle, take, hi] at hs
      split at hs <;> cases hs

end

/-- The runtime after the submissions: workers `0 … N-1` take steps; a worker inside a task or with a submission waiting must not be ignored
for ever (an idle worker need not try to steal). -/
def system (body : σ → Act σ V) (pend : σ → Nat) (N : Nat) (cs : List σ) : Fair.Sys (State σ V) Nat where
  init s := ∃ k, ExecN body pend N cs k s
  step w s s' := w < N ∧ ∃ ch, step body w ch s = .ok s'
  ready s w := w < N ∧ (s.pc w ≠ .idle ∨ s.inbox w ≠ [])

/-- C45: in every fair schedule there is a moment from which on every task has returned; a submitted task has then returned the result of its
serial elision, once. -/
theorem eventually_done {body : σ → Act σ V} {pend : σ → Nat} (hd : Disc body pend) (hp : ∀ x, pend x ≤ 65534) {N : Nat}
    (hsw : ∀ x d k, body x = .switch d k → d < N) {cs : List σ} (hc : ∀ c ∈ cs, ∃ v, Ser body c [] v)
    (r : Fair.Run (system body pend N cs)) (hfair : r.Fair) :
    ∃ t, ∀ u, t ≤ u → (∀ f, f < (r.st u).nf → ∃ v, Ev.done f v ∈ (r.st u).log) ∧
      ∀ f c w, Ev.submit f c w ∈ (r.st u).log → ∃ v, Ev.done f v ∈ (r.st u).log ∧ Ser body c [] v := by
  classical
  -- a cost for every submitted task
  have hcost : ∃ cost : σ → Nat, ∀ c ∈ cs, ∃ v, SerC body c [] v (cost c) := by
    refine ⟨fun c => if h : ∃ n v, SerC body c [] v n then h.choose else 0, fun c hm => ?_⟩
    obtain ⟨v, hv⟩ := hc c hm
    obtain ⟨n, hn⟩ := hv.cost
    have h : ∃ n v, SerC body c [] v n := ⟨n, v, hn⟩
    simp only [dif_pos h]
    exact h.choose_spec
  obtain ⟨cost, hcost⟩ := hcost
  have hex : ∀ t, ∃ k, ExecN body pend N cs k (r.st t) := by
    intro t
    induction t with
    | zero => exact r.start
    | succ t ih =>
      rcases r.next t with ⟨_, e⟩ | ⟨w, _, hw, ch, hs⟩
      · rw [e]; exact ih
      · obtain ⟨k, ih⟩ := ih; exact ⟨_, ih.step hw hs⟩
  -- the last step
  have hlast : ∀ (n k : Nat) t, ExecN body pend N cs k (r.st t) → (cs.map fun c => 10 * cost c + 5).sum ≤ n + k →
      ∃ t', ∀ u, t' ≤ u → r.who u = none := by
    intro n
    induction n with
    | zero =>
      intro k t he hb
      refine ⟨t, ?_⟩
      intro u
      induction u with
      | zero =>
        intro hu
        have : t = 0 := by omega
        subst this
        rcases r.next 0 with ⟨e, _⟩ | ⟨w, _, hw, ch, hs⟩
        · exact e
        · have := schedule_bounded hd hp (he.step hw hs) hcost; omega
      | succ u ih2 =>
        intro hu
        have hst : ExecN body pend N cs k (r.st (u + 1)) := by
          by_cases e : t = u + 1
          · rw [← e]; exact he
          · have hall : ∀ x, t ≤ x → x ≤ u + 1 → ExecN body pend N cs k (r.st x) := by
              intro x
              induction x with
              | zero => intro h1 _; have : t = 0 := by omega
                        subst this; exact he
              | succ x ih3 =>
                intro h1 h2
                by_cases e : t = x + 1
                · rw [← e]; exact he
                · have h3 := ih3 (by omega) (by omega)
                  rcases r.next x with ⟨_, e⟩ | ⟨w, _, hw, ch, hs⟩
                  · rw [e]; exact h3
                  · have := schedule_bounded hd hp (h3.step hw hs) hcost; omega
            exact hall (u + 1) hu (Nat.le_refl _)
        rcases r.next (u + 1) with ⟨e, _⟩ | ⟨w, _, hw, ch, hs⟩
        · exact e
        · have := schedule_bounded hd hp (hst.step hw hs) hcost; omega
    | succ n ih =>
      intro k t he hb
      by_cases hx : ∃ x, t ≤ x ∧ r.who x ≠ none
      · obtain ⟨x, hx⟩ := hx
        -- the first such moment
        have hfirst : ∀ d x, x = t + d → r.who x ≠ none → ∃ y, t ≤ y ∧ r.who y ≠ none ∧ ExecN body pend N cs k (r.st y) := by
          intro d
          induction d using Nat.strongRecOn with
          | _ d ihd =>
            intro x hxd hxn
            by_cases hb : ∃ y, t ≤ y ∧ y < x ∧ r.who y ≠ none
            · obtain ⟨y, y1, y2, y3⟩ := hb
              exact ihd (y - t) (by omega) y (by omega) y3
            · refine ⟨x, by omega, hxn, ?_⟩
              have hall : ∀ z, t ≤ z → z ≤ x → ExecN body pend N cs k (r.st z) := by
                intro z
                induction z with
                | zero => intro h1 _; have : t = 0 := by omega
                          subst this; exact he
                | succ z ih3 =>
                  intro h1 h2
                  by_cases e : t = z + 1
                  · rw [← e]; exact he
                  · have h3 := ih3 (by omega) (by omega)
                    rcases r.next z with ⟨_, e⟩ | ⟨w, e, _⟩
                    · rw [e]; exact h3
                    · exact absurd ⟨z, by omega, by omega, by rw [e]; simp⟩ hb
              exact hall x (by omega) (Nat.le_refl _)
        obtain ⟨y, y1, y2, y3⟩ := hfirst (x - t) x (by omega) hx.2
        rcases r.next y with ⟨e, _⟩ | ⟨w, _, hw, ch, hs⟩
        · exact absurd e y2
        · exact ih (k + 1) (y + 1) (y3.step hw hs) (by omega)
      · exact ⟨t, fun u hu => Classical.not_not.1 fun e => hx ⟨u, hu, e⟩⟩
  obtain ⟨k0, h0⟩ := hex 0
  obtain ⟨T, hT⟩ := hlast _ k0 0 h0 (Nat.le_add_right _ _)
  have hconst : ∀ u, T ≤ u → r.st u = r.st T := by
    intro u hu
    induction u with
    | zero => have : T = 0 := by omega
              rw [this]
    | succ u ih =>
      by_cases e : T = u + 1
      · rw [e]
      · rw [← ih (by omega)]
        rcases r.next u with ⟨_, e⟩ | ⟨w, e, _⟩
        · exact e
        · rw [hT u (by omega)] at e; cases e
  have hrest : ∀ w, w < N → (r.st T).pc w = .idle ∧ (r.st T).inbox w = [] := by
    intro w hw
    obtain ⟨t', h1, h2⟩ := hfair w T
    rcases h2 with h2 | h2
    · rw [hconst t' h1] at h2
      simp only [system, not_and, not_or, Classical.not_not] at h2
      exact h2 hw
    · rw [hT t' h1] at h2; cases h2
  obtain ⟨k, hk⟩ := hex T
  obtain ⟨hr, hf⟩ := reach_of_bounded hd hp hk.any
  refine ⟨T, fun u hu => ?_⟩
  rw [hconst u hu]
  have hall := rest_done hd hp hk hsw hrest
  refine ⟨hall, fun f c w hsub => ?_⟩
  obtain ⟨v, hv⟩ := hall f ((reach_inv hd hr).res.sb f c w hsub).2
  exact ⟨v, hv, (result_serial hd hr hsub hv).1⟩

end Verif.Runtime
