import Verif.Runtime.Inv

/-! No step of a reachable state is undefined, and only an idle worker can be unable to take one. -/
namespace Verif.Runtime
variable {σ V : Type}

theorem passJoin_some {body : σ → Act σ V} {s : State σ V} {w f : Nat} (h1 : (s.fr f).steal = 0) (h2 : (s.fr f).join = maxU16)
    (h3 : s.wk w = s.stk f) (h4 : s.isTop f = true) (h5 : AtJoin body (s.fr f).st) (h6 : ∃ vs, results (s.fr f).slots = some vs) :
    ∃ s', passJoin body s w f = .ok s' := by
  obtain ⟨k, h5⟩ := h5
  obtain ⟨vs, h6⟩ := h6
  unfold passJoin
  simp only [h1, h2, h3, h4, true_and, and_self, if_true, h5, h6]
  exact ⟨_, rfl⟩

theorem live_of {s : State σ V} (hk : InvStk s) {f : Nat} (h : Alive (s.loc f)) : s.live f = true := by
  simp only [State.live, decide_eq_true_eq]; exact (hk.mem f _).2 ⟨h, rfl⟩

theorem isTop_of {s : State σ V} {f : Nat} (h : (s.al (s.stk f)).head? = some f) : s.isTop f = true := by
  simp [State.isTop, h]

theorem destroy_some {s : State σ V} {w f : Nat} (h1 : s.wk w = s.stk f) (h2 : s.isTop f = true) :
    destroy s w f = .ok (destroyed s w) := by
  simp [destroy, h1, h2, destroyed]

theorem tail_empty {s : State σ V} (hk : InvStk s) {f : Nat} (ht : (s.al (s.stk f)).head? = some f) (hr : s.link f = .root) :
    s.al (s.stk f) = [f] := by
  obtain ⟨t, e⟩ := top_cons (s := s) (k := s.stk f) (f := f) ⟨rfl, ht⟩
  have := hk.adj (s.stk f)
  rw [e] at this ⊢
  cases t with
  | nil => rfl
  | cons y t => have := this.1 y rfl; rw [hr] at this; cases this

theorem busy_step {body : σ → Act σ V} {pend : σ → Nat} (hd : Disc body pend) {s : State σ V} (h : Inv body pend s) (hf : Few s)
    (w : Nat) (ch : Choice) (hb : s.pc w ≠ .idle) : ∃ s', step body w ch s = .ok s' := by
  have hi := h.loc
  have hl := h.link
  have hc := h.count
  have hk := h.stk
  have hq := h.q
  have kz : ∀ f, Alive (s.loc f) → tok (s.loc f) = 0 → (s.fr f).steal = 0 → (s.fr f).kids = [] ∧ (s.fr f).joined = 0 := by
    intro f h1 h2 h3
    have := hc.cnt f h1
    have := hc.steal f h1
    rw [← List.length_eq_zero_iff]; omega
  unfold step
  cases hp : s.pc w with
  | idle => exact absurd hp hb
  | run f =>
    have e1 : s.loc f = .running w := (hi.run w f).2 (Or.inl hp)
    have ha : Alive (s.loc f) := by simp [e1, Alive]
    have hst := hc.steal f ha
    have hjo := hc.join f ha
    simp only [e1, JoinOk] at hjo
    simp only
    cases hbd : body (s.fr f).st with
    | ret v =>
      have hk0 := hk_of hd hi hc h.st w f v hp hbd
      have hz : (s.fr f).steal = 0 := by
        have h1 := h.st.pd f ha
        have h2 := hc.slot f ha
        rw [hd.ret _ _ hbd] at h1
        omega
      have hjn : (s.fr f).join = maxU16 := by have := (kz f ha (by simp [e1, tok]) hz).2; omega
      obtain ⟨o1, o2⟩ := hk.ro w f hp (by omega)
      have ds := destroy_some o1 (isTop_of o2)
      simp only [doRet, hz, hjn, true_and, if_true]
      cases hlk : s.link f with
      | root =>
        simp only [ds]
        have t1 := tail_empty hk o2 hlk
        have c1 : (destroyed s w).wkEmpty w = true := by
          rw [wkEmpty_iff]; simp only [destroyed, o1, upd_same, t1, List.tail_cons]
        have c2 : (destroyed s w).q w = [] := by
          show s.q w = []
          cases hqw : s.q w with
          | nil => rfl
          | cons y r =>
            have h1 := hq.run w f hp y (by rw [hqw]; rfl)
            have hb : s.base f = f := hq.br f (by have := hi.fresh f; rw [e1] at this; simpa using this) hlk
            have h2 := hl.qlink w y.1 y.2 (by rw [hqw]; exact List.mem_cons_self ..)
            rw [h1, hb, hlk] at h2; cases h2
        rw [if_pos ⟨c1, c2⟩]
        exact ⟨_, rfl⟩
      | call p =>
        have e3 : s.loc p = .callwait f := (hl.callw p f).2 ⟨hlk, ha⟩
        obtain ⟨k, e4⟩ := h.st.cw p f e3
        simp only [live_of hk (f := p) (by simp [e3, Alive]), if_true, e4, ds]
        exact ⟨_, rfl⟩
      | fork p i =>
        have e3 : Alive (s.loc p) := hl.kid f p (by rw [hlk]; rfl) (by simp [e1]) (by simp [e1])
        simp only [live_of hk e3, if_true, ds]
        exact ⟨_, rfl⟩
    | fork c k => exact ⟨_, rfl⟩
    | call c k => exact ⟨_, rfl⟩
    | join k =>
      simp only [doJoin]
      by_cases hz : (s.fr f).steal = 0
      · rw [if_pos hz]
        obtain ⟨z1, z2⟩ := kz f ha (by simp [e1, tok]) hz
        obtain ⟨o1, o2⟩ := hk.ro w f hp (by omega)
        exact passJoin_some hz (by show (s.fr f).join = maxU16; omega) o1 (isTop_of o2) ⟨k, hbd⟩
          (results_some hl h.val ha z1)
      · rw [if_neg hz]; exact ⟨_, rfl⟩
    | switch d k =>
      simp only [doSwitch]
      by_cases hz : (s.fr f).steal = 0
      · obtain ⟨o1, o2⟩ := hk.ro w f hp (by omega)
        simp [hz, o1, isTop_of o2]
      · have : s.wk w ≠ s.stk f := by
          intro e
          have h1 := hk.re w f hp (by omega)
          have h2 := (hk.mem f (s.stk f)).2 ⟨ha, rfl⟩
          rw [← e, h1] at h2; cases h2
        simp [hz, this]
  | joinLoad f =>
    simp only [joinLoad]
    split <;> exact ⟨_, rfl⟩
  | joinSub f =>
    simp only [joinSub]
    split <;> exact ⟨_, rfl⟩
  | joinTake f =>
    have e1 : s.loc f = .winning w := (hi.win w f).2 (Or.inl hp)
    have ha : Alive (s.loc f) := by simp [e1, Alive]
    have hjo := hc.join f ha
    simp only [e1, JoinOk] at hjo
    have t1 := top_of hl hk ha hjo (by simp [e1])
    simp only [joinTake]
    rw [if_pos ⟨hc.jt w f hp, wkEmpty_iff.2 (hk.jt w f hp), isTop_of t1⟩]
    refine passJoin_some ?_ ?_ ?_ ?_ ?_ ?_
    · simp [upd_same, reset]
    · simp [upd_same, reset]
    · simp [upd_same]
    · exact isTop_of t1
    · simp only [upd_same, reset]; exact h.st.wi w f e1
    · simp only [upd_same, reset]; exact results_some hl h.val ha hjo
  | finPop p c =>
    have e1 : s.loc c = .finishing w := (hi.fin w c).2 ⟨p, Or.inl hp⟩
    have e2 := hl.flink w p c hp
    have e3 : Alive (s.loc p) := hl.kid c p e2 (by simp [e1]) (by simp [e1])
    simp only [finPop]
    cases hqw : s.q w with
    | nil =>
      simp only
      rw [if_pos]
      · exact ⟨_, rfl⟩
      · refine ⟨live_of hk e3, fun e => ?_⟩
        by_cases hsc : s.stk c = s.stk p
        · exact isTop_of (hk.po w p c hp hsc).2
        · have h1 := hk.pe w p c hp hsc
          have h2 := (hk.mem p (s.stk p)).2 ⟨e3, rfl⟩
          rw [e, h1] at h2; cases h2
    | cons y r =>
      have h1 := hq.fp w p c hp y (by rw [hqw]; rfl)
      have h2 := hl.qlink w y.1 y.2 (by rw [hqw]; exact List.mem_cons_self ..)
      rw [h1, e2] at h2
      simp only
      rw [if_pos ⟨(Option.some.inj h2).symm, live_of hk e3⟩]
      exact ⟨_, rfl⟩
  | finDec p c same =>
    have e1 : s.loc c = .finishing w := (hi.fin w c).2 ⟨p, Or.inr ⟨_, hp⟩⟩
    have e2 := hl.flink' w p c _ hp
    have e3 : Alive (s.loc p) := hl.kid c p e2 (by simp [e1]) (by simp [e1])
    simp only [finDec]
    rw [if_pos (live_of hk e3)]
    split <;> exact ⟨_, rfl⟩
  | finWin p same =>
    have e1 : s.loc p = .winning w := (hi.win w p).2 (Or.inr ⟨_, hp⟩)
    have ha : Alive (s.loc p) := by simp [e1, Alive]
    have hjo := hc.join p ha
    simp only [e1, JoinOk] at hjo
    have t1 := top_of hl hk ha hjo (by simp [e1])
    simp only [finWin]
    rw [if_pos (live_of hk ha)]
    cases same with
    | true =>
      simp only [if_true]
      refine passJoin_some ?_ ?_ ?_ ?_ ?_ ?_
      · simp [upd_same, reset]
      · simp [upd_same, reset]
      · exact (hk.wo w p hp).1
      · exact isTop_of t1
      · simp only [upd_same, reset]; exact h.st.wi w p e1
      · simp only [upd_same, reset]; exact results_some hl h.val ha hjo
    | false =>
      simp only [Bool.false_eq_true, if_false]
      rw [if_pos ⟨wkEmpty_iff.2 (hk.we w p hp), isTop_of t1⟩]
      refine passJoin_some ?_ ?_ ?_ ?_ ?_ ?_
      · simp [upd_same, reset]
      · simp [upd_same, reset]
      · simp [upd_same]
      · exact isTop_of t1
      · simp only [upd_same, reset]; exact h.st.wi w p e1
      · simp only [upd_same, reset]; exact results_some hl h.val ha hjo
  | finLose same =>
    have h1 := hq.fl w same hp
    simp only [finLose]
    cases same with
    | true =>
      have c1 : (release s w).wkEmpty w = true := by
        rw [wkEmpty_iff]; simp only [release, upd_same]; exact hk.fr1 _ (Nat.le_refl _)
      exact ⟨_, if_pos ⟨c1, h1⟩⟩
    | false =>
      exact ⟨_, if_pos ⟨wkEmpty_iff.2 (hk.le w hp), h1⟩⟩
  | selfSteal =>
    simp only [selfSteal]
    cases hqw : s.q w with
    | nil => simp only; rw [if_pos (wkEmpty_iff.2 (hk.ss w hp))]; exact ⟨_, rfl⟩
    | cons y r => exact ⟨_, rfl⟩
  | stole p =>
    have e1 : s.loc p = .stolenBy w := (hi.sto w p).2 hp
    simp only [stole]
    rw [if_pos (live_of hk (by simp [e1, Alive]))]
    exact ⟨_, rfl⟩
  | switchRel z =>
    simp only [switchRel]
    cases z with
    | true =>
      rw [if_pos]
      · exact ⟨_, rfl⟩
      · rw [wkEmpty_iff]; simp only [if_true, release, upd_same]; exact hk.fr1 _ (Nat.le_refl _)
    | false =>
      rw [if_pos]
      · exact ⟨_, rfl⟩
      · rw [wkEmpty_iff]; exact hk.se w hp

theorem idle_step {body : σ → Act σ V} {pend : σ → Nat} {s : State σ V} (h : Inv body pend s) (w : Nat) (ch : Choice)
    (hp : s.pc w = .idle) : step body w ch s ≠ .ub := by
  have hi := h.loc
  have hc := h.count
  have hk := h.stk
  have hq := h.q.idl w hp
  have he := wkEmpty_iff.2 (hk.id w hp)
  unfold step
  rw [hp]
  cases ch with
  | take =>
    simp only [take]
    cases hb : s.inbox w with
    | nil => simp
    | cons f r =>
      have e1 : s.loc f = .inbox w := (hi.inb w f).2 (by simp [hb])
      have ha : Alive (s.loc f) := by simp [e1, Alive]
      simp only
      rw [if_pos]
      · simp
      · refine ⟨live_of hk ha, hq, he, fun hz => ?_⟩
        have h1 := hc.cnt f ha
        have h2 := hc.steal f ha
        simp only [e1, tok] at h1
        have h3 : (s.fr f).kids = [] := by rw [← List.length_eq_zero_iff]; omega
        exact isTop_of (top_of h.link hk ha h3 (by simp [e1]))
  | steal v =>
    simp only [steal]
    cases hb : (s.q v).getLast? with
    | none => simp
    | some e =>
      simp only
      by_cases hwv : w = v
      · simp [hwv]
      · simp [hwv, hq, he]

end Verif.Runtime
