import Verif.Whole.Rest

/-! Every call of `sync_wait` returns, and so does the destructor. -/
namespace Verif.LazyPool
open Verif.EventCount

theorem dpc_keeps {c : Cfg} {a : Actor} {s s' : St} (st : Step c a s s') (h : s.dpc ≠ .alive) : s'.dpc ≠ .alive := by
  cases st <;> simp_all [doWake, doPop, doPrep, doCancel, St.bump, doUnthief, doSleep, doAct, doNext, St.go]
  all_goals (try split) <;> simp_all

end Verif.LazyPool

namespace Verif.Whole
open Verif.Runtime (State Res Ev ExecN Disc SerC Ser)
open Verif.LazyPool (Cfg St busy)
open Verif.EventCount (upd upd_same upd_ne upd_apply)
variable {σ V : Type} {c : Cfg} {body : σ → Runtime.Act σ V} {pend : σ → Nat} {K : Nat} {root : Nat → σ} {s s' : W σ V}

/-- What a caller has still to do. -/
def toDo (s : W σ V) (i : Nat) : Nat :=
  match s.caller i with
  | .picking => 10
  | .calling j _ =>
    match s.l.call j with
    | .pushed _ => 5
    | .waking _ => 4
    | _ => 3
  | .waiting _ => 2
  | _ => 0

theorem toDo_other (hs : Sync c K root s) {a : Actor} {i : Nat} (st : Step c body K root a s (.ok s')) (h : a ≠ .caller i) : toDo s' i = toDo s i := by
  have ho := caller_other st h
  unfold toDo
  rw [ho]
  cases e : s.caller i with
  | calling j f =>
    have hp := hs.calling i j f e
    have : s'.l.call j = s.l.call j := by
      have hl := lab_step hs st
      cases hb : lab body s a with
      | none => rw [hb] at hl; have hl : s'.l = s.l := hl; rw [hl]
      | some b =>
        rw [hb] at hl
        refine LazyPool.call_other hl fun e' => ?_
        subst e'
        rcases lab_submit hs hb hp with ⟨v, rfl, hv⟩ | ⟨k, g, rfl, hk⟩
        · exact hs.uniqX v i j f hv e
        · exact h (by rw [hs.uniqC k i j g f hk e])
    simp only [this]
  | _ => rfl

theorem toDo_own (hs : Sync c K root s) {i : Nat} (st : Step c body K root (.caller i) s (.ok s')) (hb : s.caller i ≠ .before) :
    toDo s' i < toDo s i := by
  generalize hr : Res.ok s' = res at st
  cases st with
  | begin _ _ h1 h2 h3 => exact absurd h2 hb
  | race => cases hr
  | submit _ _ d h1 h2 h3 =>
    cases hr
    simp only [toDo, upd_same, h2, push]
    omega
  | call _ _ j f l h1 h2 st =>
    cases hr
    have h3 := hs.calling i j f h2
    obtain ⟨hc, _⟩ := LazyPool.call_self st h3.ne.1
    unfold toDo
    simp only [h2]
    rcases hc with e | ⟨d, e1, e2⟩
    · rw [if_pos e, upd_same]
      obtain ⟨d, e' | e'⟩ := h3 <;> rw [e'] <;> simp
    · rw [if_neg (by rw [e2]; simp), h2]
      simp only [e1, e2]; omega
  | get _ _ f v h1 h2 h3 =>
    cases hr
    simp only [toDo, upd_same, h2]; omega

theorem run_reach (r : Fair.Run (system c body K root)) (few : ∀ t, LazyPool.Few c (r.st t).l) (t : Nat) : Reach c body K root (r.st t) := by
  induction t with
  | zero => obtain ⟨x, e⟩ := r.start; rw [e]; exact .start x
  | succ t ih =>
    rcases r.next t with ⟨_, e⟩ | ⟨a, _, st⟩
    · rw [e]; exact ih
    · exact ih.step (few t) st

/-- A call that has returned has returned. -/
theorem back_keeps (r : Fair.Run (system c body K root)) {i : Nat} {v : V} {t : Nat} (h : (r.st t).caller i = .back v) :
    ∀ u, t ≤ u → (r.st u).caller i = .back v := by
  refine Fair.Run.keep r (fun s => s.caller i = .back v) h fun u a _ h st => ?_
  have := caller_moves st i
  rw [h] at this
  generalize (r.st (u + 1)).caller i = y at this
  cases this; rfl

section
variable (hc : c.Ok) (hd : Disc body pend) (hp : ∀ x, pend x ≤ 65534) (hsw : ∀ x d k, body x = .switch d k → d < c.N)
  (hroot : ∀ i, i < K → pend (root i) = 0)
include hc hd hp hroot

include hsw in
/-- If the pool is not destroyed all tasks return. -/
theorem all_done {r : Fair.Run (system c body K root)} (hf : r.Fair)
    (few : ∀ t, LazyPool.Few c (r.st t).l) (hal : ∀ t, (r.st t).l.dpc = .alive) {T : Nat}
    (hT : ∀ t, T ≤ t → ¬ Busy c body K root (r.st t) (r.st (t + 1))) : ∀ t, T ≤ t → ∀ f, f < (r.st t).r.nf → ∃ v, Ev.done f v ∈ (r.st t).r.log := by
  have hi := fun t => run_inv (pend := pend) hc hroot r few t
  intro t ht
  have hpf := proj_fair hc hroot r hf few hT
  have hstart : ∀ u, t ≤ u → (r.st u).l.started = (r.st t).l.started := by
    intro u hu
    induction u with
    | zero => have : t = 0 := by omega
              rw [this]
    | succ u ih =>
      by_cases e : t = u + 1
      · rw [e]
      · rw [(still_after hc hroot r few hT (t := u) (by omega)).started]; exact ih (by omega)
  have hsub := LazyPool.reach_sub hc (hi t).pool
  have hempty : ∀ j, (r.st t).l.loc j ≠ .unsent → (r.st t).l.loc j = .started := by
    intro j hj
    obtain ⟨u, hu, hm⟩ := LazyPool.C23_started hc hpf (fun u => LazyPool.reach_alive hc (hi u).pool (hal u)) (t := t) (j := j)
      fun e => hj ((hsub.unsent j).1 e)
    have hm : j ∈ (r.st u).l.started := hm
    rw [hstart u hu] at hm
    exact (hsub.started j).1 hm
  obtain ⟨k, cs, e⟩ := (hi t).exec
  obtain ⟨m, e, _⟩ := e.run
  refine Runtime.rest_done hd hp (s := (r.st t).rt) e hsw fun w hw => ⟨idle_after hc hroot r hf few hT ht w, ?_⟩
  have h1 : (r.st t).l.hand w = [] := by
    cases h : (r.st t).l.hand w with
    | nil => rfl
    | cons j js =>
      have h := (hsub.hand j w).1 (by rw [h]; exact List.mem_cons_self ..)
      have := hempty j (by rw [h]; simp)
      rw [h] at this; cases this
  have h2 : (r.st t).l.inbox w = [] := by
    cases h : (r.st t).l.inbox w with
    | nil => rfl
    | cons j js =>
      have h := (hsub.inbox j w).1 (by rw [h]; exact List.mem_cons_self ..)
      have := hempty j (by rw [h]; simp)
      rw [h] at this; cases this
  show List.map _ ((r.st t).l.hand w ++ (r.st t).l.inbox w) = []
  rw [h1, h2]; rfl

include hsw in
theorem caller_returns (hser : ∀ i, i < K → ∃ v, Ser body (root i) [] v) {r : Fair.Run (system c body K root)} (hf : r.Fair)
    (few : ∀ t, LazyPool.Few c (r.st t).l) {t i : Nat} (hcall : (r.st t).caller i ≠ .before) :
    ∃ t' v, t ≤ t' ∧ (r.st t').caller i = .back v := by
  have hi := fun t => run_inv (pend := pend) hc hroot r few t
  have hlt := (hi t).sync.lt i hcall
  by_cases hdt : ∃ u, (r.st u).l.dpc ≠ .alive
  · obtain ⟨u, hu⟩ := hdt
    obtain ⟨v, hv⟩ := (hi u).sync.dtor hu i hlt
    exact ⟨max t u, v, by omega, back_keeps r hv _ (by omega)⟩
  have hal : ∀ u, (r.st u).l.dpc = .alive := fun u => Classical.byContradiction fun h => hdt ⟨u, h⟩
  obtain ⟨T, hT⟩ := rests hc hd hp hroot hser r few
  have hdone := all_done hc hd hp hsw hroot hf few hal hT
  have hnb : ∀ u, t ≤ u → (r.st u).caller i ≠ .before := by
    refine Fair.Run.keep r (fun s => s.caller i ≠ .before) hcall fun u a _ h st => ?_
    have := caller_moves st i
    generalize (r.st (u + 1)).caller i = y at this ⊢
    generalize (r.st u).caller i = x at this h
    cases this <;> simp_all
  have hres : ∀ u f, (r.st u).caller i = .waiting f → f < (r.st u).r.nf := by
    intro u f hw
    obtain ⟨d, hm⟩ := (hi u).sync.sub i f (.inr hw)
    obtain ⟨k, cs, e⟩ := (hi u).exec
    obtain ⟨m, e, _⟩ := e.run
    exact ((Runtime.reach_inv hd (Runtime.reach_of_bounded hd hp e.any).1).res.sb f _ d hm).2
  by_cases h0 : ∃ v, (r.st (max t T)).caller i = .back v
  · obtain ⟨v, hv⟩ := h0
    exact ⟨_, v, by omega, hv⟩
  refine (fun ⟨t', h1, v, h2⟩ => ⟨t', v, by omega, h2⟩ : (∃ t', max t T ≤ t' ∧ ∃ v, (r.st t').caller i = .back v) → _)
    (Fair.Run.leads hf (.caller i) (fun u => max t T ≤ u ∧ ¬ ∃ v, (r.st u).caller i = .back v) (fun u => ∃ v, (r.st u).caller i = .back v)
      (fun u => toDo (r.st u) i) (fun u ⟨h1, h2⟩ => ?_) (fun u ⟨h1, h2⟩ => ?_) (max t T) ⟨Nat.le_refl _, h0⟩)
  · show ready c (r.st u) (.caller i)
    cases hx : (r.st u).caller i with
    | before => exact absurd hx (hnb u (by omega))
    | picking => simp only [ready, hx]
    | calling j f => simp only [ready, hx]
    | waiting f => simp only [ready, hx]; exact hdone u (by omega) _ (hres u _ hx)
    | back v => exact absurd ⟨v, hx⟩ h2
  · by_cases hq : ∃ v, (r.st (u + 1)).caller i = .back v
    · exact .inl hq
    refine .inr ⟨⟨by omega, hq⟩, ?_⟩
    rcases r.next u with ⟨e1, e2⟩ | ⟨a, e1, st⟩
    · rw [e2, e1]; exact ⟨Nat.le_refl _, fun h => by cases h⟩
    · rw [e1]
      by_cases ha : a = .caller i
      · subst ha
        have := toDo_own (hi u).sync st (hnb u (by omega))
        exact ⟨by omega, fun _ => this⟩
      · exact ⟨Nat.le_of_eq (toDo_other (hi u).sync st ha), fun h => absurd (Option.some.inj h) ha⟩

theorem dtor_returns (hser : ∀ i, i < K → ∃ v, Ser body (root i) [] v) {r : Fair.Run (system c body K root)} (hf : r.Fair)
    (few : ∀ t, LazyPool.Few c (r.st t).l) {t : Nat} (hdt : (r.st t).l.dpc ≠ .alive) : ∃ t', t ≤ t' ∧ (r.st t').l.dpc = .gone := by
  obtain ⟨T, hT⟩ := rests hc hd hp hroot hser r few
  have hpf := proj_fair hc hroot r hf few hT
  have hk : ∀ u, t ≤ u → (r.st u).l.dpc ≠ .alive := by
    refine Fair.Run.keep r (fun s => s.l.dpc ≠ .alive) hdt fun u a _ h st => ?_
    have hl := lab_step (run_inv (pend := pend) hc hroot r few u).sync st
    cases hb : lab body (r.st u) a with
    | none => rw [hb] at hl; have hl : (r.st (u + 1)).l = (r.st u).l := hl; rw [hl]; exact h
    | some b => rw [hb] at hl; exact LazyPool.dpc_keeps hl h
  have hq : LazyPool.Quiet (proj hc hroot r few) (max t T) :=
    ⟨fun u j hu => (still_after hc hroot r few hT (t := u) (by omega)).unsent j, fun u w hu => (still_after hc hroot r few hT (t := u) (by omega)).steal w⟩
  obtain ⟨t', h1, h2⟩ := LazyPool.C25_destructor_returns hc hpf hq (hk _ (by omega))
  exact ⟨t', by omega, h2⟩

end

end Verif.Whole
