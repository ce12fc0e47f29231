import Verif.Mem.Runs

/-! C61: the bound on steals. C62: programs without races that throw nothing have one outcome. -/
namespace Verif.Mem
open Verif.Runtime (Res Ev Few status)
open Verif.Exn (Choice errs oks)

variable {σ V E L : Type} [DecidableEq L]
variable {body : σ → Act σ V E L} {may : E → Prop} {ok : (σ → Prop) → σ → Prop} {m : L → E} {pend : σ → Nat} {dirty : σ → Prop}

section
variable [Inhabited E]

/-- Every state reached by any schedule, whatever the number of steals. -/
inductive ReachAny (body : σ → Act σ V E L) (pend : σ → Nat) (may : E → Prop) (ok : (σ → Prop) → σ → Prop) (m : L → E) : MS σ V E L → Prop
  | start (y : σ) : ReachAny body pend may ok m (MS.start y m)
  | submit {s : MS σ V E L} {c : σ} (w : Nat) : ReachAny body pend may ok m s → pend c = 0 → ok s.open c → ReachAny body pend may ok m (submit s c w)
  | step {s s' : MS σ V E L} {w : Nat} {ch : Choice E} : ReachAny body pend may ok m s → Allowed may ch → step body w ch s = .ok s' →
      ReachAny body pend may ok m s'

theorem reachAny_x {s : MS σ V E L} (h : ReachAny body pend may ok m s) : Exn.ReachAny (ctl body) pend (fun _ => True) s.x := by
  induction h with
  | start y => exact .start y
  | submit w _ hp _ ih => exact .submit w ih hp
  | step _ _ hs ih =>
    obtain ⟨ch', h1⟩ := step_x hs
    exact .step ih (allowed_any ch') h1

/-- C61: a program whose scopes fork at most 65534 children meets the bound of `Reach` in every schedule. -/
theorem C61_bounded (hd : Disc body pend dirty) (hp : ∀ y, pend y ≤ 65534) {s : MS σ V E L} (h : ReachAny body pend may ok m s) :
    Reach body pend may ok m s ∧ Few s.x.c := by
  have few : ∀ {s : MS σ V E L}, ReachAny body pend may ok m s → Few s.x.c := fun h => (Exn.reach_of_bounded (disc_ctl hd) hp (reachAny_x h)).2
  refine ⟨?_, few h⟩
  induction h with
  | start y => exact .start y
  | submit w h1 h2 h3 ih => exact .submit w ih (few h1) h2 h3
  | step h1 h2 h3 ih => exact .step ih (few h1) h2 h3
end

theorem errs_snoc {rs : List (Except E V)} {v : V} (h : errs rs = []) : errs (rs ++ [.ok v]) = [] := by
  induction rs with
  | nil => rfl
  | cons r rs ih =>
    cases r with
    | ok u => exact ih h
    | error e => cases h

/-- The task throws nothing, and does not look at the answers of sync forks. -/
structure Plain (body : σ → Act σ V E L) : Prop where
  throw : ∀ y e, body y ≠ .throw e
  fork : ∀ y c k x, body y = .fork c k x → k true = k false

theorem no_error (hb : Plain body) (hn : ∀ e, ¬ may e) {y : σ} {rs : List (Except E V)} {es : List E} {m m' : L → E} {r : Except E V}
    (h : SerM body may y rs es m r m') : errs rs = [] → es = [] → ∃ v, r = .ok v := by
  induction h with
  | ret h => intro _ _; exact ⟨_, rfl⟩
  | throw h => exact absurd h (hb.throw _ _)
  | fork b h _ _ ih1 ih2 =>
    intro h1 h2
    obtain ⟨v, rfl⟩ := ih1 rfl rfl
    exact ih2 (errs_snoc h1) h2
  | call h _ _ _ ih2 => exact ih2
  | callThrew h _ _ ih1 ih2 => obtain ⟨v, hv⟩ := ih1 rfl rfl; cases hv
  | join h h1 _ ih => intro _ _; exact ih rfl rfl
  | rethrow h he _ ih => intro h1 h2; rw [h1, h2] at he; cases he
  | switch h _ ih => exact ih
  | forkFails e he => exact absurd he (hn e)
  | callFails e he => exact absurd he (hn e)
  | switchFails e he => exact absurd he (hn e)
  | load h _ ih => exact ih
  | store h _ ih => exact ih

/-- Run by one thread, the program has one outcome. -/
theorem serM_fun (hb : Plain body) (hn : ∀ e, ¬ may e) {y : σ} {rs : List (Except E V)} {es : List E} {m m' : L → E} {r : Except E V}
    (h : SerM body may y rs es m r m') : errs rs = [] → es = [] → ∀ {r2 m2}, SerM body may y rs es m r2 m2 → r = r2 ∧ m' = m2 := by
  induction h with
  | ret h =>
    intro _ _ r2 m2 h'
    cases h' with
    | ret h2 => rw [h] at h2; cases h2; exact ⟨rfl, rfl⟩
    | _ => simp_all
  | throw h => exact absurd h (hb.throw _ _)
  | fork b h hs1 hs2 ih1 ih2 =>
    intro h1 h2 r2 m2 h'
    cases h' with
    | fork b' h3 h4 h5 =>
      rw [h] at h3; cases h3
      obtain ⟨e1, e2⟩ := ih1 rfl rfl h4
      subst e1; subst e2
      obtain ⟨v, rfl⟩ := no_error hb hn hs1 rfl rfl
      refine ih2 (errs_snoc h1) h2 ?_
      have e := hb.fork _ _ _ _ h
      cases b <;> cases b' <;> first | exact h5 | (rw [e]; exact h5) | (rw [← e]; exact h5)
    | forkFails e he => exact absurd he (hn e)
    | _ => simp_all
  | call h hs1 hs2 ih1 ih2 =>
    intro h1 h2 r2 m2 h'
    cases h' with
    | call h3 h4 h5 =>
      rw [h] at h3; cases h3
      obtain ⟨e1, e2⟩ := ih1 rfl rfl h4
      cases e1; subst e2
      exact ih2 h1 h2 h5
    | callThrew h3 h4 h5 =>
      rw [h] at h3; cases h3
      obtain ⟨e1, e2⟩ := ih1 rfl rfl h4
      cases e1
    | callFails e he => exact absurd he (hn e)
    | _ => simp_all
  | callThrew h hs1 _ ih1 ih2 => obtain ⟨v, hv⟩ := no_error hb hn hs1 rfl rfl; cases hv
  | join h h0 _ ih =>
    intro h1 h2 r2 m2 h'
    cases h' with
    | join h3 h4 h5 => rw [h] at h3; cases h3; exact ih rfl rfl h5
    | rethrow h3 h4 h5 => simp [h0] at h4
    | _ => simp_all
  | rethrow h he _ ih => intro h1 h2; rw [h1, h2] at he; cases he
  | switch h _ ih =>
    intro h1 h2 r2 m2 h'
    cases h' with
    | switch h3 h4 => rw [h] at h3; cases h3; exact ih h1 h2 h4
    | switchFails e he => exact absurd he (hn e)
    | _ => simp_all
  | forkFails e he => exact absurd he (hn e)
  | callFails e he => exact absurd he (hn e)
  | switchFails e he => exact absurd he (hn e)
  | load h _ ih =>
    intro h1 h2 r2 m2 h'
    cases h' with
    | load h3 h4 => rw [h] at h3; cases h3; exact ih h1 h2 h4
    | _ => simp_all
  | store h _ ih =>
    intro h1 h2 r2 m2 h'
    cases h' with
    | store h3 h4 => rw [h] at h3; cases h3; exact ih h1 h2 h4
    | _ => simp_all

theorem runs_fun (hb : Plain body) (hn : ∀ e, ¬ may e) {m m1 m2 : L → E} {l l' : List (σ × Except E V)} (h : Runs body may m l m1)
    (h' : Runs body may m l' m2) (he : l.map Prod.fst = l'.map Prod.fst) : l = l' ∧ m1 = m2 := by
  induction h generalizing l' m2 with
  | nil =>
    cases h' with
    | nil => exact ⟨rfl, rfl⟩
    | cons _ _ => cases he
  | cons h1 h2 ih =>
    cases h' with
    | nil => cases he
    | cons h3 h4 =>
      simp only [List.map_cons, List.cons.injEq] at he
      obtain ⟨e1, e2⟩ := he
      subst e1
      obtain ⟨e3, e4⟩ := serM_fun hb hn h1 rfl rfl h3
      subst e3; subst e4
      obtain ⟨e5, e6⟩ := ih h4 e2
      subst e5; exact ⟨rfl, e6⟩

/-- C62: a program without races that throws nothing and does not look at the answers of sync forks has one outcome: if in two schedules the same
tasks are submitted in the same order, then, once they have all ended, memory is the same and the i-th task has the same result in both. -/
theorem C62_deterministic [Inhabited E] (hd : Disc body pend dirty) (hp : ∀ O c, ok O c → pend c = 0) (hmono : Mono ok)
    (hrf : RaceFree body (fun _ => False) ok m) (hb : Plain body) {s s' : MS σ V E L} (h : Reach body pend (fun _ => False) ok m s)
    (h' : Reach body pend (fun _ => False) ok m s') (hz : ∀ f c w, Ev.submit f c w ∈ s.x.c.log → ∃ r, Ev.done f r ∈ s.x.c.log)
    (hz' : ∀ f c w, Ev.submit f c w ∈ s'.x.c.log → ∃ r, Ev.done f r ∈ s'.x.c.log)
    (hsame : (subs s.x.c.log).map Prod.snd = (subs s'.x.c.log).map Prod.snd) :
    s.m = s'.m ∧ ∃ rs : List (Except E V), rs.length = (subs s.x.c.log).length ∧
      ∀ (i : Nat) (p p' : Nat × σ) (r : Except E V), (subs s.x.c.log).reverse[i]? = some p → (subs s'.x.c.log).reverse[i]? = some p' → rs[i]? = some r →
        Ev.done p.1 r ∈ s.x.c.log ∧ Ev.done p'.1 r ∈ s'.x.c.log := by
  obtain ⟨l, g1, g2, g3⟩ := C62_runtime hd hp hmono hrf h hz
  obtain ⟨l', k1, k2, k3⟩ := C62_runtime hd hp hmono hrf h' hz'
  have e : (l.map Prod.snd).map Prod.fst = (l'.map Prod.snd).map Prod.fst := by
    have e1 : (l.map Prod.snd).map Prod.fst = ((subs s.x.c.log).reverse).map Prod.snd := by rw [← g1]; simp
    have e2 : (l'.map Prod.snd).map Prod.fst = ((subs s'.x.c.log).reverse).map Prod.snd := by rw [← k1]; simp
    rw [e1, e2, List.map_reverse, List.map_reverse, hsame]
  obtain ⟨e1, e2⟩ := runs_fun hb (fun _ h => h) g3 k3 e
  refine ⟨e2, (l.map Prod.snd).map Prod.snd, ?_, ?_⟩
  · have := congrArg List.length g1
    simpa using this
  · intro i p p' r h1 h2 h3
    have q : ∃ x, l[i]? = some x ∧ x.2.2 = r := by
      simp only [List.map_map, List.getElem?_map, Option.map_eq_some_iff] at h3; exact h3
    obtain ⟨x, q1, q2⟩ := q
    have q' : ∃ x, l'[i]? = some x ∧ x.2.2 = r := by
      rw [e1] at h3
      simp only [List.map_map, List.getElem?_map, Option.map_eq_some_iff] at h3; exact h3
    obtain ⟨x', q3, q4⟩ := q'
    rw [← g1, List.getElem?_map, q1] at h1
    rw [← k1, List.getElem?_map, q3] at h2
    cases h1; cases h2
    subst q2
    exact ⟨g2 x (List.mem_of_getElem? q1), by rw [← q4]; exact k2 x' (List.mem_of_getElem? q3)⟩

end Verif.Mem
