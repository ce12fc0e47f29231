import Verif.Whole.Live

/-! When the runtime rests every worker is back in its loop, and the pool is on its own. -/
namespace Verif.LazyPool
open Verif.EventCount

theorem busy_rank {c : Cfg} {s s' : St} {w : Nat} (hidx : ∀ w, s.pc w = .sc2 ∨ s.pc w = .sc3 → s.idx w < c.D) (st : Step c (.worker w) s s')
    (hp : s.pc w ≠ .work) (hb : busy (s.pc w) = true) : rank c w s' < rank c w s := by
  have h7 := hidx w
  cases st <;> simp only [doWake, doPop, doPrep, doCancel, St.bump, doUnthief, doSleep, doAct, doNext, St.go, upd_apply, LazyPool.rouse, rank] at * <;>
    grind [busy, twsRank]

end Verif.LazyPool

namespace Verif.Whole
open Verif.Runtime (State Res Ev ExecN Disc SerC Ser)
open Verif.LazyPool (Cfg St busy)
open Verif.EventCount (upd upd_same upd_ne upd_apply)
variable {σ V : Type} {c : Cfg} {body : σ → Runtime.Act σ V} {pend : σ → Nat} {K : Nat} {root : Nat → σ} {s s' : W σ V}

/-- What is left of a worker's submission. -/
def callRank (s : W σ V) (w : Nat) : Nat :=
  match s.out w with
  | none => 0
  | some j =>
    match s.l.call j with
    | .pushed _ => 3
    | .waking _ => 2
    | _ => 1

theorem lab_worker {a : Actor} {w : Nat} (h : lab body s a = some (.worker w)) : a = .worker w := by
  cases a with
  | worker v =>
    simp only [lab] at h
    split at h
    · cases h
    · split at h
      · split at h <;> cases h
      · cases h; rfl
  | caller i => simp only [lab] at h; split at h <;> cases h
  | dtor => cases h

/-- Only its driver moves a submission on. -/
theorem lab_submit (hs : Sync c K root s) {a : Actor} {j : Nat} (h : lab body s a = some (.submit j)) (hp : Pending s.l j) :
    (∃ w, a = .worker w ∧ s.out w = some j) ∨ ∃ i f, a = .caller i ∧ s.caller i = .calling j f := by
  have hnew : j ≠ s.nj := fun e => hp.ne.1 (hs.fresh j (by omega))
  cases a with
  | worker v =>
    simp only [lab] at h
    split at h
    · cases h; exact .inl ⟨v, rfl, ‹_›⟩
    · split at h
      · split at h
        · cases h; exact absurd rfl hnew
        · cases h
      · cases h
  | caller i =>
    simp only [lab] at h
    split at h
    · cases h; exact absurd rfl hnew
    · cases h; exact .inr ⟨i, _, rfl, ‹_›⟩
    · cases h
  | dtor => cases h

theorem out_other {a : Actor} {w : Nat} (st : Step c body K root a s (.ok s')) (h : a ≠ .worker w) : s'.out w = s.out w := by
  generalize hr : Res.ok s' = res at st
  cases st with
  | pool _ v l h1 h2 st => cases hr; rfl
  | noSteal _ v h1 h2 => cases hr; rfl
  | stole _ v u h1 h2 h3 h4 => obtain ⟨r, e, rfl⟩ := map_ok hr.symm; rfl
  | work _ v h1 h2 h3 h4 h5 => obtain ⟨r, e, rfl⟩ := map_ok hr.symm; rfl
  | switch _ v f d k h1 h2 h3 h4 =>
    split at hr
    · obtain ⟨r, e, rfl⟩ := map_ok hr.symm
      exact upd_ne _ _ fun e => h (by rw [e])
    · cases hr
  | notify _ v j l h1 h2 st =>
    cases hr
    show (if l.call j = .returned then upd s.out v none else s.out) w = _
    split
    · exact upd_ne _ _ fun e => h (by rw [e])
    · rfl
  | take _ v j js h1 h2 h3 h4 => obtain ⟨r, e, rfl⟩ := map_ok hr.symm; rfl
  | worked _ v h1 h2 h3 h4 => cases hr; rfl
  | begin _ i h1 h2 h3 => cases hr; rfl
  | race => cases hr
  | submit _ i d h1 h2 h3 => cases hr; rfl
  | call _ i j f l h1 h2 st => cases hr; rfl
  | get _ i f v h1 h2 h3 => cases hr; rfl
  | dtor _ l h1 st => cases hr; rfl

theorem caller_other {a : Actor} {i : Nat} (st : Step c body K root a s (.ok s')) (h : a ≠ .caller i) : s'.caller i = s.caller i := by
  generalize hr : Res.ok s' = res at st
  cases st with
  | pool _ v l h1 h2 st => cases hr; rfl
  | noSteal _ v h1 h2 => cases hr; rfl
  | stole _ v u h1 h2 h3 h4 => obtain ⟨r, e, rfl⟩ := map_ok hr.symm; rfl
  | work _ v h1 h2 h3 h4 h5 => obtain ⟨r, e, rfl⟩ := map_ok hr.symm; rfl
  | switch _ v f d k h1 h2 h3 h4 =>
    split at hr
    · obtain ⟨r, e, rfl⟩ := map_ok hr.symm; rfl
    · cases hr
  | notify _ v j l h1 h2 st => cases hr; rfl
  | take _ v j js h1 h2 h3 h4 => obtain ⟨r, e, rfl⟩ := map_ok hr.symm; rfl
  | worked _ v h1 h2 h3 h4 => cases hr; rfl
  | begin _ k h1 h2 h3 => cases hr; exact upd_ne _ _ fun e => h (by rw [e])
  | race => cases hr
  | submit _ k d h1 h2 h3 => cases hr; exact upd_ne _ _ fun e => h (by rw [e])
  | call _ k j f l h1 h2 st =>
    cases hr
    show (if l.call j = .returned then upd s.caller k (.waiting f) else s.caller) i = _
    split
    · exact upd_ne _ _ fun e => h (by rw [e])
    · rfl
  | get _ k f v h1 h2 h3 => cases hr; exact upd_ne _ _ fun e => h (by rw [e])
  | dtor _ l h1 st => cases hr; rfl

theorem callRank_other (hs : Sync c K root s) {a : Actor} {w : Nat} (st : Step c body K root a s (.ok s')) (h : a ≠ .worker w) :
    callRank s' w = callRank s w := by
  have ho := out_other st h
  unfold callRank
  rw [ho]
  cases e : s.out w with
  | none => rfl
  | some j =>
    have hp := (hs.out w j e).2.2
    have : s'.l.call j = s.l.call j := by
      have hl := lab_step hs st
      cases hb : lab body s a with
      | none => rw [hb] at hl; have hl : s'.l = s.l := hl; rw [hl]
      | some b =>
        rw [hb] at hl
        refine LazyPool.call_other hl fun e' => ?_
        subst e'
        rcases lab_submit hs hb hp with ⟨v, rfl, hv⟩ | ⟨i, f, rfl, hi⟩
        · exact h (by rw [hs.uniqO v w j hv e])
        · exact hs.uniqX w i j f e hi
    simp only [this]

/-- A worker inside a task that has finished its submission takes a step of the runtime. -/
theorem own_busy (hs : Sync c K root s) (hu : LazyPool.Sub c s.l) {w : Nat} (st : Step c body K root (.worker w) s (.ok s')) (hw : s.l.pc w = .work)
    (hi : s.r.pc w ≠ .idle) (ho : s.out w = none) : Busy c body K root s s' := by
  generalize hr : Res.ok s' = res at st
  cases st with
  | pool _ _ l h1 h2 st => exact absurd hw h2
  | noSteal _ _ h1 h2 => rw [hw] at h2; cases h2
  | stole _ _ v h1 h2 h3 h4 => rw [hw] at h3; cases h3
  | work _ _ h1 h2 h3 h4 h5 =>
    obtain ⟨r, e, rfl⟩ := map_ok hr.symm
    have := (Runtime.inbox_step e).2.2.1 h3 fun f d k hf hb => h5 f d k ⟨hf, hb⟩
    refine .inr ⟨w, _, h1, by rw [e, rt_eq (r := r) rfl]; intro u; rw [this]; rfl, rfl⟩
  | switch _ _ f d k h1 h2 h3 h4 =>
    split at hr
    · obtain ⟨r, e, rfl⟩ := map_ok hr.symm
      have := ((Runtime.inbox_step e).2.2.2 f d k h4.1 h4.2).1
      refine .inr ⟨w, .take, h1, ?_, rfl⟩
      rw [e, rt_eq (r := r) rfl]
      intro u
      rw [this]
      exact push_lists hs hu d f u
    · cases hr
  | notify _ _ j l h1 h2 st => rw [ho] at h2; cases h2
  | take _ _ j js h1 h2 h3 h4 => exact absurd h3 hi
  | worked _ _ h1 h2 h3 h4 => exact absurd h3 hi

/-- A worker that is not back from its submission goes on with it. -/
theorem own_call (hs : Sync c K root s) {w j : Nat} (st : Step c body K root (.worker w) s (.ok s')) (ho : s.out w = some j) :
    callRank s' w < callRank s w := by
  have ⟨h1, ⟨z, h2⟩, h3⟩ := hs.out w j ho
  have hi : s.r.pc w ≠ .idle := by rw [h2]; simp
  generalize hr : Res.ok s' = res at st
  cases st with
  | pool _ _ l q1 q2 st => exact absurd h1 q2
  | noSteal _ _ q1 q2 => rw [h1] at q2; cases q2
  | stole _ _ v q1 q2 q3 q4 => rw [h1] at q3; cases q3
  | work _ _ q1 q2 q3 q4 q5 => rw [ho] at q4; cases q4
  | switch _ _ f d k q1 q2 q3 q4 => rw [ho] at q3; cases q3
  | notify _ _ j' l q1 q2 st =>
    rw [ho] at q2; cases q2
    cases hr
    obtain ⟨hc, _⟩ := LazyPool.call_self st h3.ne.1
    unfold callRank
    simp only [ho]
    rcases hc with e | ⟨d, e1, e2⟩
    · rw [if_pos e, upd_same]
      obtain ⟨d, e' | e'⟩ := h3 <;> rw [e'] <;> simp
    · rw [if_neg (by rw [e2]; simp), ho]
      simp only [e1, e2]; omega
  | take _ _ j js q1 q2 q3 q4 => exact absurd q3 hi
  | worked _ _ q1 q2 q3 q4 => exact absurd q3 hi

section
variable (hc : c.Ok) (hroot : ∀ i, i < K → pend (root i) = 0)
include hc hroot

theorem still_after (r : Fair.Run (system c body K root)) (few : ∀ t, LazyPool.Few c (r.st t).l) {T : Nat}
    (hT : ∀ t, T ≤ t → ¬ Busy c body K root (r.st t) (r.st (t + 1))) {t : Nat} (ht : T ≤ t) : Still (r.st t) (r.st (t + 1)) :=
  still_of (run_evo hc hroot r few t) (hT t ht)

theorem rt_after (r : Fair.Run (system c body K root)) (few : ∀ t, LazyPool.Few c (r.st t).l) {T : Nat}
    (hT : ∀ t, T ≤ t → ¬ Busy c body K root (r.st t) (r.st (t + 1))) {t : Nat} (ht : T ≤ t) : (r.st t).rt = (r.st T).rt := by
  induction t with
  | zero => have : T = 0 := by omega
            rw [this]
  | succ t ih =>
    by_cases e : T = t + 1
    · rw [e]
    · rw [(still_after hc hroot r few hT (t := t) (by omega)).rt]; exact ih (by omega)

theorem pc_after (r : Fair.Run (system c body K root)) (few : ∀ t, LazyPool.Few c (r.st t).l) {T : Nat}
    (hT : ∀ t, T ≤ t → ¬ Busy c body K root (r.st t) (r.st (t + 1))) {t : Nat} (ht : T ≤ t) (w : Nat) : (r.st t).r.pc w = (r.st T).r.pc w := by
  have := congrArg (fun x => State.pc x w) (rt_after hc hroot r few hT ht)
  exact this

theorem idle_after (r : Fair.Run (system c body K root)) (hf : r.Fair) (few : ∀ t, LazyPool.Few c (r.st t).l) {T : Nat}
    (hT : ∀ t, T ≤ t → ¬ Busy c body K root (r.st t) (r.st (t + 1))) {t : Nat} (ht : T ≤ t) (w : Nat) : (r.st t).r.pc w = .idle := by
  rw [pc_after hc hroot r few hT ht w]
  apply Classical.byContradiction
  intro hn
  have hi := fun t => run_inv hc hroot r few t
  have hne : ∀ t, T ≤ t → (r.st t).r.pc w ≠ .idle := fun t ht => by rw [pc_after hc hroot r few hT ht w]; exact hn
  have hb : ∀ t, T ≤ t → busy ((r.st t).l.pc w) = true := fun t ht => (hi t).sync.busy w (hne t ht)
  have hw : w < c.N := by
    by_cases h : w < c.N
    · exact h
    · exact absurd ((hi T).sync.idle w (by omega)) hn
  have hrd : ∀ t, T ≤ t → ready c (r.st t) (.worker w) := by
    intro t ht
    have := hb t ht
    refine ⟨hw, ?_, ?_, ?_⟩ <;> intro e <;> rw [e] at this <;> cases this
  -- it comes to `resume`
  have hA : ∃ t', T ≤ t' ∧ (r.st t').l.pc w = .work := by
    by_cases h0 : (r.st T).l.pc w = .work
    · exact ⟨T, Nat.le_refl _, h0⟩
    refine (fun ⟨t', _, h⟩ => ⟨t', h⟩ : (∃ t', T ≤ t' ∧ (T ≤ t' ∧ (r.st t').l.pc w = .work)) → _) (Fair.Run.leads hf (.worker w)
      (fun t => T ≤ t ∧ (r.st t).l.pc w ≠ .work) (fun t => T ≤ t ∧ (r.st t).l.pc w = .work)
      (fun t => LazyPool.rank c w (r.st t).l) (fun t h => hrd t h.1) (fun t ⟨h1, h2⟩ => ?_) T ⟨Nat.le_refl _, h0⟩)
    by_cases hq : (r.st (t + 1)).l.pc w = .work
    · exact .inl ⟨by omega, hq⟩
    refine .inr ⟨⟨by omega, hq⟩, ?_⟩
    rcases r.next t with ⟨e1, e2⟩ | ⟨a, e1, st⟩
    · rw [e2, e1]; exact ⟨Nat.le_refl _, fun h => by cases h⟩
    · have hl := lab_step (hi t).sync st
      rw [e1]
      by_cases ha : a = .worker w
      · subst ha
        have : lab body (r.st t) (.worker w) = some (.worker w) := by
          have ho : (r.st t).out w = none := by
            cases ho : (r.st t).out w with
            | none => rfl
            | some j => exact absurd ((hi t).sync.out w j ho).1 h2
          simp only [lab, ho]
          rw [if_neg fun h => h2 h.1]
        rw [this] at hl
        have := LazyPool.busy_rank (LazyPool.reach_idx (hi t).pool) hl h2 (hb t h1)
        exact ⟨by omega, fun _ => this⟩
      · refine ⟨?_, fun h => absurd (Option.some.inj h) ha⟩
        cases hlb : lab body (r.st t) a with
        | none => rw [hlb] at hl; have hl : (r.st (t + 1)).l = (r.st t).l := hl; rw [hl]; exact Nat.le_refl _
        | some b =>
          rw [hlb] at hl
          have hbw : b ≠ .worker w := fun e => ha (lab_worker (by rw [hlb, e]))
          exact Nat.le_of_eq (LazyPool.rank_frame hl hbw fun e => by have := hb t h1; rw [e] at this; cases this)
  obtain ⟨t0, ht0, hwk⟩ := hA
  -- and does not stay there
  refine (fun ⟨_, _, h⟩ => h : (∃ t', t0 ≤ t' ∧ False) → False) (Fair.Run.leads hf (.worker w) (fun t => T ≤ t ∧ (r.st t).l.pc w = .work) (fun _ => False) (fun t => callRank (r.st t) w)
    (fun t h => hrd t h.1) (fun t ⟨h1, h2⟩ => ?_) t0 ⟨ht0, hwk⟩)
  refine .inr ?_
  rcases r.next t with ⟨e1, e2⟩ | ⟨a, e1, st⟩
  · rw [e2, e1]; exact ⟨⟨by omega, h2⟩, Nat.le_refl _, fun h => by cases h⟩
  · rw [e1]
    have hl := lab_step (hi t).sync st
    by_cases ha : a = .worker w
    · subst ha
      cases ho : (r.st t).out w with
      | none => exact absurd (own_busy (hi t).sync (LazyPool.reach_sub hc (hi t).pool) st h2 (hne t h1) ho) (hT t h1)
      | some j =>
        have := own_call (hi t).sync st ho
        refine ⟨⟨by omega, ?_⟩, by omega, fun _ => this⟩
        have hlb : lab body (r.st t) (.worker w) = some (.submit j) := by simp only [lab, ho]
        rw [hlb] at hl
        rw [LazyPool.busy_other hl (by simp) (hb t h1)]; exact h2
    · refine ⟨⟨by omega, ?_⟩, by rw [callRank_other (hi t).sync st ha]; exact Nat.le_refl _, fun h => absurd (Option.some.inj h) ha⟩
      cases hlb : lab body (r.st t) a with
      | none => rw [hlb] at hl; have hl : (r.st (t + 1)).l = (r.st t).l := hl; rw [hl]; exact h2
      | some b =>
        rw [hlb] at hl
        have hbw : b ≠ .worker w := fun e => ha (lab_worker (by rw [hlb, e]))
        rw [LazyPool.busy_other hl hbw (hb t h1)]; exact h2

/-- The run of the pool. -/
noncomputable def proj (hc : c.Ok) (hroot : ∀ i, i < K → pend (root i) = 0) (r : Fair.Run (system c body K root))
    (few : ∀ t, LazyPool.Few c (r.st t).l) : LazyPool.Run c where
  st t := (r.st t).l
  who t := (r.who t).bind (lab body (r.st t))
  start := by obtain ⟨x, e⟩ := r.start; rw [e]; rfl
  few := few
  next t := by
    rcases r.next t with ⟨e1, e2⟩ | ⟨a, e1, st⟩
    · exact .inl ⟨by rw [e1]; rfl, by rw [e2]⟩
    · have hl := lab_step (run_inv hc hroot r few t).sync st
      rw [e1]
      cases hb : lab body (r.st t) a with
      | none => rw [hb] at hl; exact .inl ⟨hb, hl⟩
      | some b => rw [hb] at hl; exact .inr ⟨b, hb, hl⟩

/-- It is fair. -/
theorem proj_fair (r : Fair.Run (system c body K root)) (hf : r.Fair) (few : ∀ t, LazyPool.Few c (r.st t).l) {T : Nat}
    (hT : ∀ t, T ≤ t → ¬ Busy c body K root (r.st t) (r.st (t + 1))) : (proj hc hroot r few).Fair := by
  have hi := fun t => run_inv hc hroot r few t
  have hidle := fun t (ht : T ≤ t) w => idle_after hc hroot r hf few hT ht w
  have hout : ∀ t, T ≤ t → ∀ w, (r.st t).out w = none := by
    intro t ht w
    cases ho : (r.st t).out w with
    | none => rfl
    | some j => obtain ⟨_, ⟨z, e⟩, _⟩ := (hi t).sync.out w j ho; rw [hidle t ht w] at e; cases e
  intro a t
  cases a with
  | worker w =>
    obtain ⟨t', h1, h2⟩ := hf (.worker w) (max t T)
    refine ⟨t', by omega, ?_⟩
    rcases h2 with h2 | h2
    · exact .inl h2
    · refine .inr ?_
      show (r.who t').bind _ = _
      rw [h2]
      show lab body (r.st t') (.worker w) = _
      simp only [lab, hout t' (by omega) w]
      rw [if_neg fun h => h.2 (hidle t' (by omega) w)]
  | dtor =>
    obtain ⟨t', h1, h2⟩ := hf .dtor (max t T)
    refine ⟨t', by omega, ?_⟩
    rcases h2 with h2 | h2
    · exact .inl h2
    · refine .inr ?_
      show (r.who t').bind _ = _
      rw [h2]; rfl
  | submit j =>
    by_cases hr : LazyPool.Ready c (r.st (max t T)).l (.submit j)
    · rcases (hi _).sync.driver j (pending_of hr.1 hr.2) with ⟨w, hw⟩ | ⟨i, f, hik, hcal⟩
      · rw [hout _ (by omega) w] at hw; cases hw
      · have key : ∀ u, max t T ≤ u → (r.st u).caller i = .calling j f ∨ ∃ v, max t T ≤ v ∧ r.who v = some (.caller i) ∧ (r.st v).caller i = .calling j f := by
          intro u hu
          induction u with
          | zero => have : max t T = 0 := by omega
                    rw [this] at hcal; exact .inl hcal
          | succ u ih =>
            by_cases e : max t T = u + 1
            · rw [← e]; exact .inl hcal
            · rcases ih (by omega) with h | h
              · rcases r.next u with ⟨_, e2⟩ | ⟨a, e1, st⟩
                · rw [e2]; exact .inl h
                · by_cases ha : a = .caller i
                  · subst ha; exact .inr ⟨u, by omega, e1, h⟩
                  · exact .inl (by rw [caller_other st ha]; exact h)
              · exact .inr h
        obtain ⟨t', h1, h2⟩ := hf (.caller i) (max t T)
        rcases key t' h1 with h | ⟨v, v1, v2, v3⟩
        · rcases h2 with h2 | h2
          · exact absurd (show ready c (r.st t') (.caller i) by simp only [ready, h]) h2
          · refine ⟨t', by omega, .inr ?_⟩
            show (r.who t').bind _ = _
            rw [h2]
            show lab body (r.st t') (.caller i) = _
            simp only [lab, h]
        · refine ⟨v, by omega, .inr ?_⟩
          show (r.who v).bind _ = _
          rw [v2]
          show lab body (r.st v) (.caller i) = _
          simp only [lab, v3]
    · exact ⟨max t T, by omega, .inl hr⟩

end

end Verif.Whole
