import Verif.Whole.Inv

/-! What a step of the whole is for each of the two machines, and the invariants in all reached states. -/
namespace Verif.Whole
open Verif.Runtime (State Res Ev ExecN Disc)
open Verif.LazyPool (Cfg St busy)
open Verif.EventCount (upd upd_same upd_ne upd_apply)
variable {σ V : Type}

/-- Has not submitted its root task. -/
def early : Caller V → Bool
  | .before | .picking => true
  | _ => false

/-- What a step is for the runtime: nothing, a submission or a step of a worker. -/
inductive Evo (c : Cfg) (body : σ → Runtime.Act σ V) (K : Nat) (root : Nat → σ) (s s' : W σ V) : Prop
  | same : s'.rt = s.rt → (∀ i, early (s'.caller i) = early (s.caller i)) → s'.l.started = s.l.started →
      (∀ j, s.l.call j = .unsent → s'.l.call j = .unsent) → (∀ w, s.l.pc w = .steal → s'.l.pc w ≠ .tws1) → Evo c body K root s s'
  | submit (i d j : Nat) : i < K → d < c.N → s.caller i = .picking → s'.caller = upd s.caller i (.calling j s.r.nf) →
      s'.rt = Runtime.submit s.rt (root i) d → Evo c body K root s s'
  | step (w : Nat) (ch : Runtime.Choice) : w < c.N → Runtime.step body w ch s.rt = .ok s'.rt → s'.caller = s.caller →
      Evo c body K root s s'

theorem rt_eq {s' : W σ V} {r : State σ V} (h1 : s'.r = r) (h2 : ∀ w, (s'.l.hand w ++ s'.l.inbox w).map s'.task = r.inbox w) : s'.rt = r := by
  unfold W.rt
  rw [h1]
  have : (fun w => (s'.l.hand w ++ s'.l.inbox w).map s'.task) = r.inbox := funext h2
  rw [this]

theorem rt_congr {s s' : W σ V} (h1 : s'.r = s.r) (h2 : ∀ w, s'.l.hand w ++ s'.l.inbox w = s.l.hand w ++ s.l.inbox w) (h3 : s'.task = s.task) :
    s'.rt = s.rt := by
  unfold W.rt
  simp only [h1, h2, h3]

theorem map_ok {α β : Type} {f : α → β} {x : Res α} {b : β} (h : Res.map f x = .ok b) : ∃ a, x = .ok a ∧ f a = b := by
  cases x with
  | ok a => simp only [Res.map] at h; cases h; exact ⟨a, rfl, rfl⟩
  | ub => cases h
  | no => cases h

theorem map_ub {α β : Type} {f : α → β} {x : Res α} (h : Res.map f x = .ub) : x = .ub := by
  cases x with
  | ok a => cases h
  | ub => rfl
  | no => cases h

variable {c : Cfg} {body : σ → Runtime.Act σ V} {K : Nat} {root : Nat → σ} {s s' : W σ V}

/-- The submissions after one more. -/
theorem push_lists (hs : Sync c K root s) (hu : LazyPool.Sub c s.l) (d f w : Nat) :
    ((push s d f).l.hand w ++ (push s d f).l.inbox w).map (push s d f).task = Runtime.upd s.rt.inbox d (s.rt.inbox d ++ [f]) w := by
  have hnew : s.l.loc s.nj = .unsent := (hu.unsent _).1 (hs.fresh _ (Nat.le_refl _))
  have hj : ∀ w, ∀ j ∈ s.l.hand w ++ s.l.inbox w, upd s.task s.nj f j = s.task j := by
    intro w j hj
    refine upd_ne _ _ fun e => ?_
    subst e
    rcases List.mem_append.1 hj with h | h
    · rw [hu.hand, hnew] at h; cases h
    · rw [hu.inbox, hnew] at h; cases h
  have hm : ∀ w, (s.l.hand w ++ s.l.inbox w).map (upd s.task s.nj f) = (s.l.hand w ++ s.l.inbox w).map s.task :=
    fun w => List.map_congr_left (hj w)
  simp only [push, upd_apply, Runtime.upd, W.rt]
  by_cases e : w = d
  · subst e
    simp only [if_true, ← List.append_assoc]
    rw [List.map_append, hm]
    simp [upd_same]
  · simp only [if_neg e]
    exact hm w

/-- Steps of the pool keep the unsent unsent, unless they submit. -/
theorem unsent_keep {a : LazyPool.Actor} {l : St} (st : LazyPool.Step c a s.l l) {k : Nat} (h : ∀ j, a = .submit j → s.l.call j ≠ .unsent)
    (hk : s.l.call k = .unsent) : l.call k = .unsent := by
  rw [LazyPool.call_other st fun e => h k e hk]; exact hk

theorem steal_other {a : LazyPool.Actor} {l : St} (st : LazyPool.Step c a s.l l) {w : Nat} (h : a ≠ .worker w) (hk : s.l.pc w = .steal) : l.pc w ≠ .tws1 := by
  rcases LazyPool.others st w h with e | ⟨e, _⟩
  · rw [e, hk]; simp
  · rw [hk] at e; cases e

theorem evo_step (hs : Sync c K root s) (hu : LazyPool.Sub c s.l) {a : Actor} (st : Step c body K root a s (.ok s')) :
    Evo c body K root s s' := by
  generalize hr : Res.ok s' = res at st
  cases st with
  | pool _ w l h1 h2 st =>
    cases hr
    obtain ⟨e1, e2, _, e4⟩ := LazyPool.worker_lists hu (LazyPool.worker_lt st) st h2
    refine .same (rt_congr rfl e1 rfl) (fun _ => rfl) e4 (fun j h => by show l.call j = _; rw [e2]; exact h) fun v hv => ?_
    exact steal_other st (fun e => by cases e; exact h1 hv) hv
  | noSteal _ w h1 h2 =>
    cases hr
    refine .same (rt_congr rfl (fun _ => rfl) rfl) (fun _ => rfl) rfl (fun j h => h) fun v hv => ?_
    show upd s.l.pc w .prep v ≠ _
    rw [upd_apply]; split
    · simp
    · rw [hv]; simp
  | stole _ w v h1 h2 h3 h4 =>
    obtain ⟨r, e, rfl⟩ := map_ok hr.symm
    have hi := hs.stole w (by rw [h3]; simp)
    have hidle : s.r.pc w = .idle := by
      rcases hi with e' | ⟨p, e'⟩
      · exact e'
      · have := hs.busy w (by rw [e']; simp)
        rw [h3] at this; cases this
    have := (Runtime.inbox_step e).2.1 v hidle rfl
    refine .step w _ h1 (by rw [e, rt_eq (r := r) rfl]; intro u; rw [this.1]; rfl) rfl
  | work _ w h1 h2 h3 h4 h5 =>
    obtain ⟨r, e, rfl⟩ := map_ok hr.symm
    have := (Runtime.inbox_step e).2.2.1 h3 fun f d k hf hb => h5 f d k ⟨hf, hb⟩
    refine .step w _ h1 (by rw [e, rt_eq (r := r) rfl]; intro u; rw [this]; rfl) rfl
  | switch _ w f d k h1 h2 h3 h4 =>
    split at hr
    · obtain ⟨r, e, rfl⟩ := map_ok hr.symm
      have := ((Runtime.inbox_step e).2.2.2 f d k h4.1 h4.2).1
      refine .step w .take h1 ?_ rfl
      rw [e, rt_eq (r := r) rfl]
      intro u
      rw [this]
      exact push_lists hs hu d f u
    · cases hr
  | notify _ w j l h1 h2 st =>
    cases hr
    obtain ⟨_, e1, e2, _, _, e3⟩ := LazyPool.call_self st (hs.out w j h2).2.2.ne.1
    refine .same (rt_congr rfl (fun u => by simp only; rw [e1, e2]) rfl) (fun _ => rfl) e3
      (fun k hk => unsent_keep st (fun j' h => by cases h; exact (hs.out w j h2).2.2.ne.1) hk) fun v hv => steal_other st (by simp) hv
  | take _ w j js h1 h2 h3 h4 =>
    obtain ⟨r, e, rfl⟩ := map_ok hr.symm
    obtain ⟨f, t, q1, q2⟩ := (Runtime.inbox_step e).1 h3 rfl
    refine .step w .take h1 ?_ rfl
    rw [e, rt_eq (r := r) rfl]
    intro u
    have q1' : (s.l.hand w ++ s.l.inbox w).map s.task = f :: t := q1
    rw [h4] at q1'
    rw [q2]
    simp only [started, upd_apply, Runtime.upd]
    by_cases e : u = w
    · subst e
      simp only [if_true]
      simp only [List.cons_append, List.map_cons] at q1'
      exact (List.cons.inj q1').2
    · simp only [if_neg e]; rfl
  | worked _ w h1 h2 h3 h4 =>
    cases hr
    refine .same (rt_congr rfl (fun _ => rfl) rfl) (fun _ => rfl) rfl (fun j h => h) fun v hv => ?_
    show upd s.l.pc w .deact v ≠ _
    rw [upd_apply]; split
    · simp
    · rw [hv]; simp
  | begin _ i h1 h2 h3 =>
    cases hr
    refine .same (rt_congr rfl (fun _ => rfl) rfl) (fun k => ?_) rfl (fun j h => h) fun v hv => by show s.l.pc v ≠ _; rw [hv]; simp
    show early (upd s.caller i .picking k) = _
    rw [upd_apply]; split
    · subst_vars; rw [h2]; rfl
    · rfl
  | race => cases hr
  | submit _ i d h1 h2 h3 =>
    cases hr
    refine .submit i d _ h1 h3 h2 rfl ?_
    refine rt_eq rfl fun u => ?_
    exact push_lists hs hu d s.r.nf u
  | call _ i j f l h1 h2 st =>
    cases hr
    have hne := (hs.calling i j f h2).ne.1
    obtain ⟨_, e1, e2, _, _, e3⟩ := LazyPool.call_self st hne
    refine .same (rt_congr rfl (fun u => by simp only; rw [e1, e2]) rfl) (fun k => ?_) e3
      (fun k hk => unsent_keep st (fun j' h => by cases h; exact hne) hk) fun v hv => steal_other st (by simp) hv
    show early ((if l.call j = .returned then upd s.caller i (.waiting f) else s.caller) k) = _
    split
    · rw [upd_apply]; split
      · subst_vars; rw [h2]; rfl
      · rfl
    · rfl
  | get _ i f v h1 h2 h3 =>
    cases hr
    refine .same (rt_congr rfl (fun _ => rfl) rfl) (fun k => ?_) rfl (fun j h => h) fun v hv => by show s.l.pc v ≠ _; rw [hv]; simp
    show early (upd s.caller i _ k) = _
    rw [upd_apply]; split
    · subst_vars; rw [h2]; rfl
    · rfl
  | dtor _ l h1 st =>
    cases hr
    obtain ⟨e1, e2, e3, e4⟩ := LazyPool.dtor_lists st
    exact .same (rt_congr rfl (fun u => by simp only; rw [e1, e2]) rfl) (fun _ => rfl) e4 (fun j h => by show l.call j = _; rw [e3]; exact h)
      fun v hv => steal_other st (by simp) hv

/-- The step of the pool that a step of the whole is. -/
noncomputable def lab (body : σ → Runtime.Act σ V) (s : W σ V) : Actor → Option LazyPool.Actor
  | .worker w =>
    match s.out w with
    | some j => some (.submit j)
    | none =>
      open Classical in
      if s.l.pc w = .work ∧ s.r.pc w ≠ .idle then
        if ∃ f d k, AtSwitch body s w f d k then some (.submit s.nj) else none
      else some (.worker w)
  | .caller i =>
    match s.caller i with
    | .picking => some (.submit s.nj)
    | .calling j _ => some (.submit j)
    | _ => none
  | .dtor => some .dtor

/-- The pool takes the step `o`, or none. -/
def Proj (c : Cfg) (l l' : St) : Option LazyPool.Actor → Prop
  | none => l' = l
  | some b => LazyPool.Step c b l l'

theorem lab_step (hs : Sync c K root s) {a : Actor} (st : Step c body K root a s (.ok s')) : Proj c s.l s'.l (lab body s a) := by
  have hnew : s.l.call s.nj = .unsent := hs.fresh _ (Nat.le_refl _)
  have hout : ∀ w, s.l.pc w ≠ .work → s.out w = none := by
    intro w hw
    cases ho : s.out w with
    | none => rfl
    | some j => exact absurd (hs.out w j ho).1 hw
  have houti : ∀ w, s.r.pc w = .idle → s.out w = none := by
    intro w hw
    cases ho : s.out w with
    | none => rfl
    | some j => obtain ⟨_, ⟨z, e⟩, _⟩ := hs.out w j ho; rw [hw] at e; cases e
  generalize hr : Res.ok s' = res at st
  cases st with
  | pool _ w l h1 h2 st =>
    cases hr
    simp only [lab, hout w h2]
    rw [if_neg fun h => h2 h.1]; exact st
  | noSteal _ w h1 h2 =>
    cases hr
    simp only [lab, hout w (by rw [h2]; simp)]
    rw [if_neg fun h => by rw [h2] at h; cases h.1]
    exact .stealNone s.l w h1 h2
  | stole _ w v h1 h2 h3 h4 =>
    obtain ⟨r, e, rfl⟩ := map_ok hr.symm
    simp only [lab, hout w (by rw [h3]; simp)]
    rw [if_neg fun h => by rw [h3] at h; cases h.1]
    exact .stealSome s.l w h1 h3
  | work _ w h1 h2 h3 h4 h5 =>
    obtain ⟨r, e, rfl⟩ := map_ok hr.symm
    simp only [lab, h4]
    rw [if_pos ⟨h2, h3⟩, if_neg fun ⟨f, d, k, h⟩ => h5 f d k h]
    rfl
  | switch _ w f d k h1 h2 h3 h4 =>
    split at hr
    · obtain ⟨r, e, rfl⟩ := map_ok hr.symm
      simp only [lab, h3]
      rw [if_pos ⟨h2, by rw [h4.1]; simp⟩, if_pos ⟨f, d, k, h4⟩]
      exact .push s.l s.nj d hnew ‹_›
    · cases hr
  | notify _ w j l h1 h2 st =>
    cases hr
    simp only [lab, h2]
    exact st
  | take _ w j js h1 h2 h3 h4 =>
    obtain ⟨r, e, rfl⟩ := map_ok hr.symm
    simp only [lab, houti w h3]
    rw [if_neg fun h => h.2 h3]
    exact .run s.l w j js h1 h2 h4
  | worked _ w h1 h2 h3 h4 =>
    cases hr
    simp only [lab, houti w h3]
    rw [if_neg fun h => h.2 h3]
    exact .runEnd s.l w h1 h2 h4
  | begin _ i h1 h2 h3 => cases hr; simp only [lab, h2]; rfl
  | race => cases hr
  | submit _ i d h1 h2 h3 =>
    cases hr
    simp only [lab, h2]
    exact .push s.l s.nj d hnew h3
  | call _ i j f l h1 h2 st => cases hr; simp only [lab, h2]; exact st
  | get _ i f v h1 h2 h3 => cases hr; simp only [lab, h2]; rfl
  | dtor _ l h1 st => cases hr; exact st

theorem sync_step (hs : Sync c K root s) (hu : LazyPool.Sub c s.l) {a : Actor} (st : Step c body K root a s (.ok s')) : Sync c K root s' := by
  have st' := st
  have hro : ∀ {w ch r}, Runtime.step body w ch s.rt = .ok r → ∀ v, v ≠ w → r.pc v = s.r.pc v :=
    fun e v hv => ((Runtime.step_other e).1 v hv).1
  have hlg : ∀ {w ch r}, Runtime.step body w ch s.rt = .ok r → ∀ e ∈ s.r.log, e ∈ r.log := fun e => Runtime.log_step (s := s.rt) e
  generalize hr : Res.ok s' = res at st
  cases st with
  | pool _ w l h1 h2 st => cases hr; exact sync_pool hs hu h2 st
  | noSteal _ w h1 h2 => cases hr; exact sync_pool hs hu (by rw [h2]; simp) (.stealNone s.l w h1 h2)
  | stole _ w v h1 h2 h3 h4 =>
    obtain ⟨r, e, rfl⟩ := map_ok hr.symm
    have hi := hs.stole w (by rw [h3]; simp)
    have hidle : s.r.pc w = .idle := by
      rcases hi with e' | ⟨p, e'⟩
      · exact e'
      · have := hs.busy w (by rw [e']; simp)
        rw [h3] at this; cases this
    have := (Runtime.inbox_step e).2.1 v hidle rfl
    refine sync_rt hs h1 (by simp [St.go, upd_same, busy]) (fun _ => this.2) ?_ (fun v hv => upd_ne _ _ hv) rfl rfl (hro e) (hlg e)
    cases ho : s.out w with
    | none => rfl
    | some j => have := (hs.out w j ho).1; rw [h3] at this; cases this
  | work _ w h1 h2 h3 h4 h5 =>
    obtain ⟨r, e, rfl⟩ := map_ok hr.symm
    exact sync_rt hs h1 (by rw [h2]; rfl) (fun h => absurd h2 h) h4 (fun _ _ => rfl) rfl rfl (hro e) (hlg e)
  | switch _ w f d k h1 h2 h3 h4 =>
    split at hr
    · obtain ⟨r, e, rfl⟩ := map_ok hr.symm
      exact sync_switch hs h1 h2 h3 ((Runtime.inbox_step e).2.2.2 f d k h4.1 h4.2).2 (hro e) (hlg e)
    · cases hr
  | notify _ w j l h1 h2 st => cases hr; exact sync_notify hs h2 st
  | take _ w j js h1 h2 h3 h4 =>
    obtain ⟨r, e, rfl⟩ := map_ok hr.symm
    refine sync_rt hs h1 (by show busy (s.l.pc w) = _; rw [h2]; rfl) (fun h => absurd h2 h) ?_ (fun _ _ => rfl) rfl rfl (hro e) (hlg e)
    cases ho : s.out w with
    | none => rfl
    | some j => obtain ⟨_, ⟨z, e⟩, _⟩ := hs.out w j ho; rw [h3] at e; cases e
  | worked _ w h1 h2 h3 h4 =>
    cases hr
    have hidle : ∀ v, v ≠ w → (s.l.go w .deact).pc v = s.l.pc v := fun v hv => upd_ne _ _ hv
    have ho : s.out w = none := by
      cases ho : s.out w with
      | none => rfl
      | some j => obtain ⟨_, ⟨z, e⟩, _⟩ := hs.out w j ho; rw [h3] at e; cases e
    refine ⟨hs.fresh, hs.idle, fun v hv => ?_, fun v hv => ?_, fun v j hj => ?_, hs.calling, hs.driver, hs.uniqO, hs.uniqC, hs.uniqX, hs.sub, hs.back,
      hs.dtor, hs.pick, hs.lt⟩
    · have e : v ≠ w := fun e => hv (by rw [e]; exact h3)
      show busy ((s.l.go w .deact).pc v) = _
      rw [hidle v e]; exact hs.busy v hv
    · by_cases e : v = w
      · subst e; exact .inl h3
      · exact hs.stole v (by rw [← hidle v e]; exact hv)
    · have e : v ≠ w := fun e => by
        subst e
        have hj' : s.out v = some j := hj
        rw [ho] at hj'; cases hj'
      obtain ⟨q1, q2, q3⟩ := hs.out v j hj
      exact ⟨by rw [hidle v e]; exact q1, q2, q3⟩
  | begin _ i h1 h2 h3 =>
    cases hr
    refine sync_caller hs h1 (by rw [h2]; simp) (by simp) (by simp) (by simp) (fun h => ?_) fun _ => h3
    obtain ⟨v, hv⟩ := hs.dtor h i h1
    rw [h2] at hv; cases hv
  | race => cases hr
  | submit _ i d h1 h2 h3 => cases hr; exact sync_submit hs h2
  | call _ i j f l h1 h2 st => cases hr; exact sync_call hs h2 st
  | get _ i f v h1 h2 h3 =>
    cases hr
    obtain ⟨d, hd⟩ := hs.sub i f (.inr h2)
    refine sync_caller hs h1 (by rw [h2]; simp) (by simp) (by simp) (fun u hu => ?_) (fun _ => ⟨v, rfl⟩) (by simp)
    cases hu
    exact ⟨f, d, hd, h3⟩
  | dtor _ l h1 st => cases hr; exact sync_dtor hs h1 st

/-- What is left to be submitted and what has been: `g` is the cost of a root task. -/
def Bal (K : Nat) (root : Nat → σ) (g : σ → Nat) (cs : List σ) (s : W σ V) : Prop :=
  (cs.map g).sum + Runtime.sumTo (fun i => if early (s.caller i) then g (root i) else 0) K = Runtime.sumTo (fun i => g (root i)) K

theorem bal_start (g : σ → Nat) (x : σ) : Bal (V := V) K root g [] (W.start c x) := by
  simp [Bal, W.start, early]

theorem bal_same {g : σ → Nat} {cs : List σ} (h : Bal K root g cs s) (he : ∀ i, early (s'.caller i) = early (s.caller i)) : Bal K root g cs s' := by
  unfold Bal at *; simp only [he]; exact h

theorem bal_submit {g : σ → Nat} {cs : List σ} {i j f : Nat} (h : Bal K root g cs s) (hi : i < K) (hp : s.caller i = .picking)
    (he : s'.caller = upd s.caller i (.calling j f)) : Bal K root g (root i :: cs) s' := by
  unfold Bal at *
  have e : (fun k => if early (s'.caller k) = true then g (root k) else 0) = Runtime.upd (fun k => if early (s.caller k) = true then g (root k) else 0) i 0 := by
    funext k
    rw [he]
    simp only [upd_apply, Runtime.upd]
    by_cases e : k = i
    · subst e; simp [early]
    · simp [e]
  rw [e]
  have := Runtime.sumTo_upd (g := fun k => if early (s.caller k) = true then g (root k) else 0) 0 hi
  simp only [hp, early, if_true] at this
  simp only [List.map_cons, List.sum_cons]
  simp only [early] at this h ⊢
  omega

/-- The runtime's schedule so far: `k` steps of workers and submissions. -/
structure Exec (c : Cfg) (body : σ → Runtime.Act σ V) (pend : σ → Nat) (K : Nat) (root : Nat → σ) (k : Nat) (cs : List σ) (s : W σ V) : Prop where
  run : ∃ m, ExecN body pend c.N cs m s.rt ∧ k = m + cs.length
  bal : ∀ g, Bal K root g cs s
  mem : ∀ x ∈ cs, ∃ i, i < K ∧ x = root i

theorem exec_start {pend : σ → Nat} (x : σ) : Exec (V := V) c body pend K root 0 [] (W.start c x) := by
  refine ⟨⟨0, ?_, rfl⟩, fun g => bal_start g x, by simp⟩
  have : (W.start (V := V) c x).rt = State.start x := rt_eq rfl fun w => rfl
  rw [this]; exact .start x

theorem exec_step {pend : σ → Nat} (hroot : ∀ i, i < K → pend (root i) = 0) {k : Nat} {cs : List σ} (h : Exec c body pend K root k cs s)
    (e : Evo c body K root s s') : (Exec c body pend K root k cs s' ∧ s'.rt = s.rt) ∨ ∃ cs', Exec c body pend K root (k + 1) cs' s' := by
  obtain ⟨m, hm, rfl⟩ := h.run
  cases e with
  | same h1 h2 => exact .inl ⟨⟨⟨m, by rw [h1]; exact hm, rfl⟩, fun g => bal_same (h.bal g) h2, h.mem⟩, h1⟩
  | submit i d j hi hd hp hc hrt =>
    refine .inr ⟨root i :: cs, ⟨m, by rw [hrt]; exact hm.submit hd (hroot i hi), ?_⟩, fun g => bal_submit (h.bal g) hi hp hc, ?_⟩
    · simp only [List.length_cons]; omega
    · intro x hx
      rcases List.mem_cons.1 hx with rfl | hx
      · exact ⟨i, hi, rfl⟩
      · exact h.mem x hx
  | step w ch hw hst hc =>
    exact .inr ⟨cs, ⟨m + 1, hm.step hw hst, by omega⟩, fun g => bal_same (h.bal g) fun i => by rw [hc], h.mem⟩

/-- Everything that holds in the reached states. -/
structure Inv (c : Cfg) (body : σ → Runtime.Act σ V) (pend : σ → Nat) (K : Nat) (root : Nat → σ) (s : W σ V) : Prop where
  pool : LazyPool.Reach c s.l
  sync : Sync c K root s
  exec : ∃ k cs, Exec c body pend K root k cs s

theorem inv_start {pend : σ → Nat} (x : σ) : Inv (V := V) c body pend K root (W.start c x) :=
  ⟨.start, sync_start c K root x, 0, [], exec_start x⟩

theorem inv_step {pend : σ → Nat} (hc : c.Ok) (hroot : ∀ i, i < K → pend (root i) = 0) (h : Inv c body pend K root s) (few : LazyPool.Few c s.l)
    {a : Actor} (st : Step c body K root a s (.ok s')) : Inv c body pend K root s' := by
  have hu := LazyPool.reach_sub hc h.pool
  refine ⟨?_, sync_step h.sync hu st, ?_⟩
  · have := lab_step h.sync st
    cases hl : lab body s a with
    | none => rw [hl] at this; have this : s'.l = s.l := this; rw [this]; exact h.pool
    | some b => rw [hl] at this; exact h.pool.step few this
  · obtain ⟨k, cs, e⟩ := h.exec
    rcases exec_step hroot e (evo_step h.sync hu st) with ⟨e', _⟩ | ⟨cs', e'⟩
    · exact ⟨k, cs, e'⟩
    · exact ⟨_, cs', e'⟩

theorem reach_inv {pend : σ → Nat} (hc : c.Ok) (hroot : ∀ i, i < K → pend (root i) = 0) (h : Reach c body K root s) : Inv c body pend K root s := by
  induction h with
  | start x => exact inv_start x
  | step _ few st ih => exact inv_step hc hroot ih few st

end Verif.Whole
