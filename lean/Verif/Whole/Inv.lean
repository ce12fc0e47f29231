import Verif.Whole.Base

/-! Invariants that tie the two machines together. -/
namespace Verif.Whole
open Verif.Runtime (State Res Ev)
open Verif.LazyPool (Cfg St busy)
open Verif.EventCount (upd upd_same upd_ne upd_apply)
variable {σ V : Type}

/-- The call of `schedule` for job `j` is not finished. -/
def Pending (l : St) (j : Nat) : Prop := ∃ d, l.call j = .pushed d ∨ l.call j = .waking d

theorem pending_of {l : St} {j : Nat} (h1 : l.call j ≠ .unsent) (h2 : l.call j ≠ .returned) : Pending l j := by
  cases h : l.call j with
  | unsent => exact absurd h h1
  | returned => exact absurd h h2
  | pushed d => exact ⟨d, .inl h⟩
  | waking d => exact ⟨d, .inr h⟩

theorem Pending.ne {l : St} {j : Nat} (h : Pending l j) : l.call j ≠ .unsent ∧ l.call j ≠ .returned := by
  obtain ⟨d, h | h⟩ := h <;> rw [h] <;> exact ⟨by simp, by simp⟩

structure Sync (c : Cfg) (K : Nat) (root : Nat → σ) (s : W σ V) : Prop where
  fresh : ∀ j, s.nj ≤ j → s.l.call j = .unsent
  idle : ∀ w, c.N ≤ w → s.r.pc w = .idle
  busy : ∀ w, s.r.pc w ≠ .idle → busy (s.l.pc w) = true
  stole : ∀ w, s.l.pc w ≠ .work → s.r.pc w = .idle ∨ ∃ p, s.r.pc w = .stole p
  out : ∀ w j, s.out w = some j → s.l.pc w = .work ∧ (∃ z, s.r.pc w = .switchRel z) ∧ Pending s.l j
  calling : ∀ i j f, s.caller i = .calling j f → Pending s.l j
  driver : ∀ j, Pending s.l j → (∃ w, s.out w = some j) ∨ ∃ i f, i < K ∧ s.caller i = .calling j f
  uniqO : ∀ w v j, s.out w = some j → s.out v = some j → w = v
  uniqC : ∀ i k j f g, s.caller i = .calling j f → s.caller k = .calling j g → i = k
  uniqX : ∀ w i j f, s.out w = some j → s.caller i ≠ .calling j f
  sub : ∀ i f, ((∃ j, s.caller i = .calling j f) ∨ s.caller i = .waiting f) → ∃ d, Ev.submit f (root i) d ∈ s.r.log
  back : ∀ i v, s.caller i = .back v → ∃ f d, Ev.submit f (root i) d ∈ s.r.log ∧ Ev.done f v ∈ s.r.log
  dtor : s.l.dpc ≠ .alive → ∀ i, i < K → ∃ v, s.caller i = .back v
  pick : ∀ i k, s.caller i = .picking → s.caller k = .picking → i = k
  lt : ∀ i, s.caller i ≠ .before → i < K

theorem sync_start (c : Cfg) (K : Nat) (root : Nat → σ) (x : σ) : Sync (V := V) c K root (W.start c x) := by
  constructor <;> simp [W.start, St.start, State.start, Pending]

variable {c : Cfg} {body : σ → Runtime.Act σ V} {K : Nat} {root : Nat → σ} {s s' : W σ V}

/-- A step of the pool by someone other than worker `w` leaves it at work. -/
theorem work_other {a : LazyPool.Actor} {l : St} {w : Nat} (st : LazyPool.Step c a s.l l) (h : a ≠ .worker w) (hb : s.l.pc w = .work) :
    l.pc w = .work := by
  rw [LazyPool.busy_other st h (by rw [hb]; rfl)]; exact hb

/-- A step of a worker's loop. -/
theorem sync_pool (hs : Sync c K root s) (hu : LazyPool.Sub c s.l) {w : Nat} {l : St} (hp : s.l.pc w ≠ .work)
    (st : LazyPool.Step c (.worker w) s.l l) : Sync c K root { s with l := l } := by
  obtain ⟨_, e1, e2, _⟩ := LazyPool.worker_lists hu (LazyPool.worker_lt st) st hp
  have hpend : ∀ j, Pending l j ↔ Pending s.l j := fun j => by unfold Pending; rw [e1]
  have hoth : ∀ v, v ≠ w → (LazyPool.Actor.worker w) ≠ .worker v := fun v h e => by cases e; exact h rfl
  refine ⟨?_, hs.idle, ?_, ?_, ?_, ?_, ?_, hs.uniqO, hs.uniqC, hs.uniqX, hs.sub, hs.back, ?_, hs.pick, hs.lt⟩
  · intro j hj; show l.call j = _; rw [e1]; exact hs.fresh j hj
  · intro v hv
    have hb := hs.busy v hv
    by_cases e : v = w
    · subst e; exact LazyPool.busy_step st hp hb
    · show busy (l.pc v) = true
      rw [LazyPool.busy_other st (hoth v e) hb]; exact hb
  · intro v hv
    by_cases e : v = w
    · subst e; exact hs.stole v hp
    · by_cases hi : s.r.pc v = .idle
      · exact .inl hi
      · have := LazyPool.busy_other st (hoth v e) (hs.busy v hi)
        exact hs.stole v (by rw [← this]; exact hv)
  · intro v j hj
    obtain ⟨h1, h2, h3⟩ := hs.out v j hj
    have hv : v ≠ w := fun e => hp (by rw [← e]; exact h1)
    exact ⟨work_other st (hoth v hv) h1, h2, (hpend j).2 h3⟩
  · intro i j f h; exact (hpend j).2 (hs.calling i j f h)
  · intro j h; exact hs.driver j ((hpend j).1 h)
  · intro h; exact hs.dtor (by rw [← e2]; exact h)

/-- A step of the runtime by worker `w`, without a submission. -/
theorem sync_rt (hs : Sync c K root s) {w : Nat} {l : St} {r : State σ V} (hw : w < c.N) (hb : busy (l.pc w) = true)
    (hst : l.pc w ≠ .work → ∃ p, r.pc w = .stole p) (ho : s.out w = none)
    (hl : ∀ v, v ≠ w → l.pc v = s.l.pc v) (hc : l.call = s.l.call) (hd : l.dpc = s.l.dpc)
    (hr : ∀ v, v ≠ w → r.pc v = s.r.pc v) (hlog : ∀ e ∈ s.r.log, e ∈ r.log) : Sync c K root { s with l := l, r := r } := by
  have hpend : ∀ j, Pending l j ↔ Pending s.l j := fun j => by unfold Pending; rw [hc]
  refine ⟨?_, ?_, ?_, ?_, ?_, ?_, ?_, hs.uniqO, hs.uniqC, hs.uniqX, ?_, ?_, ?_, hs.pick, hs.lt⟩
  · intro j hj; show l.call j = _; rw [hc]; exact hs.fresh j hj
  · intro v hv
    show r.pc v = _
    rw [hr v (by omega)]; exact hs.idle v hv
  · intro v hv
    by_cases e : v = w
    · subst e; exact hb
    · show busy (l.pc v) = true
      rw [hl v e]; exact hs.busy v (by rw [← hr v e]; exact hv)
  · intro v hv
    by_cases e : v = w
    · subst e; exact .inr (hst hv)
    · show r.pc v = _ ∨ ∃ p, r.pc v = _
      rw [hr v e]; exact hs.stole v (by rw [← hl v e]; exact hv)
  · intro v j hj
    have e : v ≠ w := fun e => by
      subst e
      have hj' : s.out v = some j := hj
      rw [ho] at hj'; cases hj'
    obtain ⟨h1, h2, h3⟩ := hs.out v j hj
    exact ⟨by show l.pc v = _; rw [hl v e]; exact h1, by show ∃ z, r.pc v = _; rw [hr v e]; exact h2, (hpend j).2 h3⟩
  · intro i j f h; exact (hpend j).2 (hs.calling i j f h)
  · intro j h; exact hs.driver j ((hpend j).1 h)
  · intro i f h; obtain ⟨d, h⟩ := hs.sub i f h; exact ⟨d, hlog _ h⟩
  · intro i v h; obtain ⟨f, d, h1, h2⟩ := hs.back i v h; exact ⟨f, d, hlog _ h1, hlog _ h2⟩
  · intro h; exact hs.dtor (by rw [← hd]; exact h)

/-- A step of the pool by a submission or the destructor leaves workers that are not asleep where they are. -/
theorem sync_pcs (hs : Sync c K root s) {a : LazyPool.Actor} {l : St} (st : LazyPool.Step c a s.l l) (ha : ∀ w, a ≠ .worker w) :
    (∀ w, s.r.pc w ≠ .idle → busy (l.pc w) = true) ∧ (∀ w, l.pc w ≠ .work → s.r.pc w = .idle ∨ ∃ p, s.r.pc w = .stole p) ∧
      ∀ w j, s.out w = some j → l.pc w = .work := by
  refine ⟨fun w hw => ?_, fun w hw => ?_, fun w j hj => work_other st (ha w) (hs.out w j hj).1⟩
  · have hb := hs.busy w hw
    rw [LazyPool.busy_other st (ha w) hb]; exact hb
  · by_cases hi : s.r.pc w = .idle
    · exact .inl hi
    · have := LazyPool.busy_other st (ha w) (hs.busy w hi)
      exact hs.stole w (by rw [← this]; exact hw)

/-- The rest of a submission by a worker. -/
theorem sync_notify (hs : Sync c K root s) {w j : Nat} {l : St} (ho : s.out w = some j) (st : LazyPool.Step c (.submit j) s.l l) :
    Sync c K root { s with l := l, out := if l.call j = .returned then upd s.out w none else s.out } := by
  obtain ⟨o1, o2, o3⟩ := hs.out w j ho
  obtain ⟨hc, _, _, hd, _, _⟩ := LazyPool.call_self st o3.ne.1
  obtain ⟨p1, p2, p3⟩ := sync_pcs hs st (fun w => by simp)
  have hcall : ∀ k, k ≠ j → l.call k = s.l.call k := fun k hk => LazyPool.call_other st (by simp [Ne.symm hk])
  have hpj : l.call j ≠ .returned → Pending l j := fun h => by
    rcases hc with e | ⟨d, _, e⟩
    · exact absurd e h
    · exact ⟨d, .inr e⟩
  have hpend : ∀ k, k ≠ j → (Pending l k ↔ Pending s.l k) := fun k hk => by unfold Pending; rw [hcall k hk]
  have hout : ∀ v k, (if l.call j = .returned then upd s.out w none else s.out) v = some k →
      s.out v = some k ∧ (l.call j = .returned → k ≠ j) := by
    intro v k h
    split at h <;> rename_i hr
    · by_cases e : v = w
      · subst e; rw [upd_same] at h; cases h
      · rw [upd_ne _ _ e] at h
        exact ⟨h, fun _ e' => e (hs.uniqO _ _ j (by rw [← e']; exact h) ho)⟩
    · exact ⟨h, fun h' => absurd h' hr⟩
  refine ⟨?_, hs.idle, p1, p2, ?_, ?_, ?_, ?_, hs.uniqC, ?_, hs.sub, hs.back, ?_, hs.pick, hs.lt⟩
  · intro k hk
    show l.call k = _
    have : k ≠ j := fun e => o3.ne.1 (hs.fresh j (by rw [← e]; exact hk))
    rw [hcall k this]; exact hs.fresh k hk
  · intro v k hk
    obtain ⟨h1, h2⟩ := hout v k hk
    obtain ⟨q1, q2, q3⟩ := hs.out v k h1
    refine ⟨p3 v k h1, q2, ?_⟩
    by_cases e : k = j
    · subst e; exact hpj fun h => h2 h rfl
    · exact (hpend k e).2 q3
  · intro i k f h
    have e : k ≠ j := fun e => hs.uniqX w i j f ho (by rw [← e]; exact h)
    exact (hpend k e).2 (hs.calling i k f h)
  · intro k h
    by_cases e : k = j
    · subst e
      exact .inl ⟨w, by show (if l.call k = .returned then upd s.out w none else s.out) w = _; rw [if_neg (Pending.ne h).2]; exact ho⟩
    · rcases hs.driver k ((hpend k e).1 h) with ⟨v, hv⟩ | h'
      · refine .inl ⟨v, ?_⟩
        show (if _ then upd s.out w none else s.out) v = _
        split
        · rw [upd_ne _ _ fun e' => by rw [e', ho] at hv; cases hv; exact e rfl]; exact hv
        · exact hv
      · exact .inr h'
  · intro v u k h1 h2; exact hs.uniqO v u k (hout v k h1).1 (hout u k h2).1
  · intro v i k f h; exact hs.uniqX v i k f (hout v k h).1
  · intro h; exact hs.dtor (by rw [← hd]; exact h)

/-- The rest of a submission by a caller. -/
theorem sync_call (hs : Sync c K root s) {i j f : Nat} {l : St} (ho : s.caller i = .calling j f) (st : LazyPool.Step c (.submit j) s.l l) :
    Sync c K root { s with l := l, caller := if l.call j = .returned then upd s.caller i (.waiting f) else s.caller } := by
  have o3 := hs.calling i j f ho
  obtain ⟨hc, _, _, hd, _, _⟩ := LazyPool.call_self st o3.ne.1
  obtain ⟨p1, p2, p3⟩ := sync_pcs hs st (fun w => by simp)
  have hcall : ∀ k, k ≠ j → l.call k = s.l.call k := fun k hk => LazyPool.call_other st (by simp [Ne.symm hk])
  have hpj : l.call j ≠ .returned → Pending l j := fun h => by
    rcases hc with e | ⟨d, _, e⟩
    · exact absurd e h
    · exact ⟨d, .inr e⟩
  have hpend : ∀ k, k ≠ j → (Pending l k ↔ Pending s.l k) := fun k hk => by unfold Pending; rw [hcall k hk]
  generalize hcl : (if l.call j = .returned then upd s.caller i (.waiting f) else s.caller) = cl
  have hcl : cl = if l.call j = .returned then upd s.caller i (.waiting f) else s.caller := hcl.symm
  have key : ∀ k, k ≠ i → cl k = s.caller k := fun k hk => by
    rw [hcl]; split
    · exact upd_ne _ _ hk
    · rfl
  have keyi : cl i = if l.call j = .returned then .waiting f else .calling j f := by
    rw [hcl]; split
    · exact upd_same _ _ _
    · exact ho
  have hcg : ∀ k m g, cl k = .calling m g → s.caller k = .calling m g ∧ (l.call j = .returned → m ≠ j) := by
    intro k m g h
    by_cases e : k = i
    · subst e; rw [keyi] at h
      split at h
      · cases h
      · cases h; exact ⟨ho, fun h' => absurd h' ‹_›⟩
    · rw [key k e] at h
      exact ⟨h, fun _ e' => e (hs.uniqC _ _ j _ _ (by rw [← e']; exact h) ho)⟩
  refine ⟨?_, hs.idle, p1, p2, ?_, ?_, ?_, hs.uniqO, ?_, ?_, ?_, ?_, ?_, ?_, ?_⟩
  · intro k hk
    show l.call k = _
    have : k ≠ j := fun e => o3.ne.1 (hs.fresh j (by rw [← e]; exact hk))
    rw [hcall k this]; exact hs.fresh k hk
  · intro v k hk
    obtain ⟨q1, q2, q3⟩ := hs.out v k hk
    have e : k ≠ j := fun e => hs.uniqX v i j f (by rw [← e]; exact hk) ho
    exact ⟨p3 v k hk, q2, (hpend k e).2 q3⟩
  · intro k m g h
    obtain ⟨h1, h2⟩ := hcg k m g h
    by_cases e : m = j
    · subst e; exact hpj fun h => h2 h rfl
    · exact (hpend m e).2 (hs.calling k m g h1)
  · intro k h
    by_cases e : k = j
    · subst e
      exact .inr ⟨i, f, hs.lt i (by rw [ho]; simp), by show cl i = _; rw [keyi, if_neg (Pending.ne h).2]⟩
    · rcases hs.driver k ((hpend k e).1 h) with h' | ⟨m, g, hm, hv⟩
      · exact .inl h'
      · refine .inr ⟨m, g, hm, ?_⟩
        show cl m = _
        rw [key m fun e' => by rw [e', ho] at hv; cases hv; exact e rfl]; exact hv
  · intro a b m g g' h1 h2; exact hs.uniqC a b m g g' (hcg a m g h1).1 (hcg b m g' h2).1
  · intro v k m g h h'; exact hs.uniqX v k m g h (hcg k m g h').1
  · intro k g h
    by_cases e : k = i
    · subst e
      have : cl k = .calling j f ∨ cl k = .waiting f := by
        rw [keyi]; split
        · exact .inr rfl
        · exact .inl rfl
      have hg : g = f := by
        rcases h with ⟨m, h⟩ | h
        · have h : cl k = .calling m g := h
          rcases this with e | e <;> rw [e] at h <;> cases h; rfl
        · have h : cl k = .waiting g := h
          rcases this with e | e <;> rw [e] at h <;> cases h; rfl
      subst hg
      exact hs.sub k g (.inl ⟨j, ho⟩)
    · refine hs.sub k g ?_
      rw [← key k e]; exact h
  · intro k v h
    have e : k ≠ i := fun e => by
      subst e
      have h : cl k = .back v := h
      rw [keyi] at h; split at h <;> cases h
    exact hs.back k v (by rw [← key k e]; exact h)
  · intro h
    obtain ⟨v, hv⟩ := hs.dtor (by rw [← hd]; exact h) i (hs.lt i (by rw [ho]; simp))
    rw [ho] at hv; cases hv
  · intro a b h1 h2
    have ni : ∀ a, cl a = .picking → a ≠ i := fun a h e => by
      subst e; rw [keyi] at h; split at h <;> cases h
    exact hs.pick a b (by rw [← key a (ni a h1)]; exact h1) (by rw [← key b (ni b h2)]; exact h2)
  · intro k h
    by_cases e : k = i
    · subst e; exact hs.lt k (by rw [ho]; simp)
    · exact hs.lt k (by rw [← key k e]; exact h)

/-- A new submission by worker `w`. -/
theorem sync_switch (hs : Sync c K root s) {w f d : Nat} {r : State σ V} (hw : w < c.N) (hwk : s.l.pc w = .work) (ho : s.out w = none)
    (hz : ∃ z, r.pc w = .switchRel z) (hr : ∀ v, v ≠ w → r.pc v = s.r.pc v) (hlog : ∀ e ∈ s.r.log, e ∈ r.log) :
    Sync c K root { push { s with r := r } d f with out := upd s.out w (some s.nj) } := by
  have hnew : s.l.call s.nj = .unsent := hs.fresh _ (Nat.le_refl _)
  have hpend : ∀ k, k ≠ s.nj → (Pending (push { s with r := r } d f).l k ↔ Pending s.l k) := fun k hk => by
    simp only [Pending, push, upd_apply, if_neg hk]
  have hpn : Pending (push { s with r := r } d f).l s.nj := ⟨d, .inl (by simp [push, upd_apply])⟩
  have hnp : ∀ k, Pending s.l k → k ≠ s.nj := fun k h e => h.ne.1 (by rw [e]; exact hnew)
  have hout : ∀ v k, upd s.out w (some s.nj) v = some k → (v = w ∧ k = s.nj) ∨ (v ≠ w ∧ s.out v = some k ∧ k ≠ s.nj) := by
    intro v k h
    by_cases e : v = w
    · subst e; rw [upd_same] at h; cases h; exact .inl ⟨rfl, rfl⟩
    · rw [upd_ne _ _ e] at h; exact .inr ⟨e, h, hnp k (hs.out v k h).2.2⟩
  refine ⟨?_, ?_, ?_, ?_, ?_, ?_, ?_, ?_, hs.uniqC, ?_, ?_, ?_, hs.dtor, hs.pick, hs.lt⟩
  · intro j hj
    have hj : s.nj + 1 ≤ j := hj
    show upd s.l.call s.nj _ j = _
    rw [upd_ne _ _ (by omega)]; exact hs.fresh j (by omega)
  · intro v hv; show r.pc v = _; rw [hr v (by omega)]; exact hs.idle v hv
  · intro v hv
    show busy (s.l.pc v) = true
    by_cases e : v = w
    · subst e; rw [hwk]; rfl
    · exact hs.busy v (by rw [← hr v e]; exact hv)
  · intro v hv
    have hv : s.l.pc v ≠ .work := hv
    have e : v ≠ w := fun e => hv (by rw [e]; exact hwk)
    show r.pc v = _ ∨ ∃ p, r.pc v = _
    rw [hr v e]; exact hs.stole v hv
  · intro v k hk
    rcases hout v k hk with ⟨rfl, rfl⟩ | ⟨e, h, hk⟩
    · exact ⟨hwk, hz, hpn⟩
    · obtain ⟨q1, q2, q3⟩ := hs.out v k h
      exact ⟨q1, by show ∃ z, r.pc v = _; rw [hr v e]; exact q2, (hpend k hk).2 q3⟩
  · intro i j g h
    have := hs.calling i j g h
    exact (hpend j (hnp j this)).2 this
  · intro j h
    by_cases e : j = s.nj
    · subst e; exact .inl ⟨w, upd_same _ _ _⟩
    · rcases hs.driver j ((hpend j e).1 h) with ⟨v, hv⟩ | h'
      · refine .inl ⟨v, ?_⟩
        show upd s.out w _ v = _
        rw [upd_ne _ _ fun e' => by rw [e', ho] at hv; cases hv]; exact hv
      · exact .inr h'
  · intro v u k h1 h2
    rcases hout v k h1 with ⟨rfl, rfl⟩ | ⟨e, h, hk⟩
    · rcases hout u _ h2 with ⟨rfl, _⟩ | ⟨_, _, hk⟩
      · rfl
      · exact absurd rfl hk
    · rcases hout u k h2 with ⟨rfl, rfl⟩ | ⟨_, h', _⟩
      · exact absurd rfl hk
      · exact hs.uniqO v u k h h'
  · intro v i k g h h'
    rcases hout v k h with ⟨rfl, rfl⟩ | ⟨_, h, _⟩
    · exact hnp _ (hs.calling i _ g h') rfl
    · exact hs.uniqX v i k g h h'
  · intro i g h; obtain ⟨d, h⟩ := hs.sub i g h; exact ⟨d, hlog _ h⟩
  · intro i v h; obtain ⟨f, d, h1, h2⟩ := hs.back i v h; exact ⟨f, d, hlog _ h1, hlog _ h2⟩

/-- A new submission by caller `i`. -/
theorem sync_submit (hs : Sync c K root s) {i d : Nat} (hi : s.caller i = .picking) :
    Sync c K root { push { s with r := Runtime.submit s.rt (root i) d } d s.r.nf with
      caller := upd s.caller i (.calling s.nj s.r.nf) } := by
  have hnew : s.l.call s.nj = .unsent := hs.fresh _ (Nat.le_refl _)
  generalize hr : Runtime.submit s.rt (root i) d = r
  have hpc : r.pc = s.r.pc := by rw [← hr]; rfl
  have hlog : r.log = .submit s.r.nf (root i) d :: s.r.log := by rw [← hr]; rfl
  have hpend : ∀ k, k ≠ s.nj → (Pending (push { s with r := r } d s.r.nf).l k ↔ Pending s.l k) := fun k hk => by
    simp only [Pending, push, upd_apply, if_neg hk]
  have hpn : Pending (push { s with r := r } d s.r.nf).l s.nj := ⟨d, .inl (by simp [push, upd_apply])⟩
  have hnp : ∀ k, Pending s.l k → k ≠ s.nj := fun k h e => h.ne.1 (by rw [e]; exact hnew)
  have hcg : ∀ k m g, upd s.caller i (.calling s.nj s.r.nf) k = .calling m g → (k = i ∧ m = s.nj ∧ g = s.r.nf) ∨
      (k ≠ i ∧ s.caller k = .calling m g ∧ m ≠ s.nj) := by
    intro k m g h
    by_cases e : k = i
    · subst e; rw [upd_same] at h; cases h; exact .inl ⟨rfl, rfl, rfl⟩
    · rw [upd_ne _ _ e] at h; exact .inr ⟨e, h, hnp m (hs.calling k m g h)⟩
  refine ⟨?_, ?_, ?_, ?_, ?_, ?_, ?_, hs.uniqO, ?_, ?_, ?_, ?_, ?_, ?_, ?_⟩
  · intro j hj
    have hj : s.nj + 1 ≤ j := hj
    show upd s.l.call s.nj _ j = _
    rw [upd_ne _ _ (by omega)]; exact hs.fresh j (by omega)
  · intro v hv; show r.pc v = _; rw [hpc]; exact hs.idle v hv
  · intro v hv; exact hs.busy v (by rw [← hpc]; exact hv)
  · intro v hv; show r.pc v = _ ∨ ∃ p, r.pc v = _; rw [hpc]; exact hs.stole v hv
  · intro v k hk
    obtain ⟨q1, q2, q3⟩ := hs.out v k hk
    exact ⟨q1, by show ∃ z, r.pc v = _; rw [hpc]; exact q2, (hpend k (hnp k q3)).2 q3⟩
  · intro k m g h
    rcases hcg k m g h with ⟨rfl, rfl, rfl⟩ | ⟨e, h, hm⟩
    · exact hpn
    · exact (hpend m hm).2 (hs.calling k m g h)
  · intro j h
    by_cases e : j = s.nj
    · subst e; exact .inr ⟨i, s.r.nf, hs.lt i (by rw [hi]; simp), upd_same _ _ _⟩
    · rcases hs.driver j ((hpend j e).1 h) with h' | ⟨m, g, hm, hv⟩
      · exact .inl h'
      · refine .inr ⟨m, g, hm, ?_⟩
        show upd s.caller i _ m = _
        rw [upd_ne _ _ fun e' => by rw [e', hi] at hv; cases hv]; exact hv
  · intro a b m g g' h1 h2
    rcases hcg a m g h1 with ⟨rfl, rfl, rfl⟩ | ⟨e, h, hm⟩
    · rcases hcg b _ g' h2 with ⟨rfl, _, _⟩ | ⟨_, _, hm⟩
      · rfl
      · exact absurd rfl hm
    · rcases hcg b m g' h2 with ⟨rfl, rfl, rfl⟩ | ⟨_, h', _⟩
      · exact absurd rfl hm
      · exact hs.uniqC a b m g g' h h'
  · intro v k m g h h'
    rcases hcg k m g h' with ⟨rfl, rfl, rfl⟩ | ⟨_, h', _⟩
    · exact hnp _ (hs.out v _ h).2.2 rfl
    · exact hs.uniqX v k m g h h'
  · intro k g h
    show ∃ d, _ ∈ r.log
    rw [hlog]
    by_cases e : k = i
    · subst e
      rcases h with ⟨m, h⟩ | h
      · rcases hcg k m g h with ⟨_, rfl, rfl⟩ | ⟨e, _⟩
        · exact ⟨d, by simp⟩
        · exact absurd rfl e
      · have h : upd s.caller k _ k = .waiting g := h
        rw [upd_same] at h; cases h
    · have : ((∃ j, s.caller k = .calling j g) ∨ s.caller k = .waiting g) := by
        have hk : upd s.caller i (.calling s.nj s.r.nf) k = s.caller k := upd_ne _ _ e
        rw [← hk]; exact h
      obtain ⟨d', h'⟩ := hs.sub k g this
      exact ⟨d', by simp [h']⟩
  · intro k v h
    show ∃ f d, _ ∈ r.log ∧ _ ∈ r.log
    rw [hlog]
    have e : k ≠ i := fun e => by
      subst e
      have h : upd s.caller k _ k = .back v := h
      rw [upd_same] at h; cases h
    have h : upd s.caller i _ k = .back v := h
    rw [upd_ne _ _ e] at h
    obtain ⟨f, d', h1, h2⟩ := hs.back k v h
    exact ⟨f, d', by simp [h1], by simp [h2]⟩
  · intro h
    obtain ⟨v, hv⟩ := hs.dtor h i (hs.lt i (by rw [hi]; simp))
    rw [hi] at hv; cases hv
  · intro a b h1 h2
    have ni : ∀ a, upd s.caller i (.calling s.nj s.r.nf) a = .picking → s.caller a = .picking := fun a h => by
      by_cases e : a = i
      · subst e; exact hi
      · rw [upd_ne _ _ e] at h; exact h
    exact hs.pick a b (ni a h1) (ni b h2)
  · intro k h
    by_cases e : k = i
    · subst e; exact hs.lt k (by rw [hi]; simp)
    · have h : upd s.caller i _ k ≠ .before := h
      rw [upd_ne _ _ e] at h; exact hs.lt k h

/-- A caller that is neither before nor after `schedule` moves on. -/
theorem sync_caller (hs : Sync c K root s) {i : Nat} {x : Caller V} (hi : i < K) (h1 : ∀ j f, s.caller i ≠ .calling j f)
    (h2 : ∀ j f, x ≠ .calling j f) (h3 : ∀ f, x ≠ .waiting f) (h4 : ∀ v, x = .back v → ∃ f d, Ev.submit f (root i) d ∈ s.r.log ∧ Ev.done f v ∈ s.r.log)
    (h5 : s.l.dpc ≠ .alive → ∃ v, x = .back v) (h6 : x = .picking → ∀ k, k < K → s.caller k ≠ .picking) :
    Sync c K root { s with caller := upd s.caller i x } := by
  have hk : ∀ k, k ≠ i → upd s.caller i x k = s.caller k := fun k h => upd_ne _ _ h
  have hi' : upd s.caller i x i = x := upd_same _ _ _
  refine ⟨hs.fresh, hs.idle, hs.busy, hs.stole, hs.out, ?_, ?_, hs.uniqO, ?_, ?_, ?_, ?_, ?_, ?_, ?_⟩
  all_goals simp only
  · intro k j f h
    by_cases e : k = i
    · subst e; rw [hi'] at h; exact absurd h (h2 j f)
    · rw [hk k e] at h; exact hs.calling k j f h
  · intro j h
    rcases hs.driver j h with h' | ⟨m, g, hm, hv⟩
    · exact .inl h'
    · refine .inr ⟨m, g, hm, ?_⟩
      rw [hk m fun e => h1 j g (by rw [← e]; exact hv)]; exact hv
  · intro a b j f g ha hb
    by_cases e : a = i
    · subst e; rw [hi'] at ha; exact absurd ha (h2 j f)
    · by_cases e' : b = i
      · subst e'; rw [hi'] at hb; exact absurd hb (h2 j g)
      · rw [hk a e] at ha; rw [hk b e'] at hb; exact hs.uniqC a b j f g ha hb
  · intro v k j f h h'
    by_cases e : k = i
    · subst e; rw [hi'] at h'; exact absurd h' (h2 j f)
    · rw [hk k e] at h'; exact hs.uniqX v k j f h h'
  · intro k f h
    by_cases e : k = i
    · subst e; rw [hi'] at h
      rcases h with ⟨j, h⟩ | h
      · exact absurd h (h2 j f)
      · exact absurd h (h3 f)
    · rw [hk k e] at h; exact hs.sub k f h
  · intro k v h
    by_cases e : k = i
    · subst e; rw [hi'] at h; exact h4 v h
    · rw [hk k e] at h; exact hs.back k v h
  · intro h k hk'
    by_cases e : k = i
    · subst e; rw [hi']; exact h5 h
    · rw [hk k e]; exact hs.dtor h k hk'
  · intro a b ha hb
    by_cases e : a = i
    · subst e; rw [hi'] at ha
      by_cases e' : b = a
      · exact e'.symm
      · rw [hk b e'] at hb; exact absurd hb (h6 ha b (hs.lt b (by rw [hb]; simp)))
    · rw [hk a e] at ha
      by_cases e' : b = i
      · subst e'; rw [hi'] at hb; exact absurd ha (h6 hb a (hs.lt a (by rw [ha]; simp)))
      · rw [hk b e'] at hb; exact hs.pick a b ha hb
  · intro k h
    by_cases e : k = i
    · subst e; exact hi
    · rw [hk k e] at h; exact hs.lt k h

theorem sync_dtor (hs : Sync c K root s) {l : St} (hb : ∀ i, i < K → ∃ v, s.caller i = .back v) (st : LazyPool.Step c .dtor s.l l) :
    Sync c K root { s with l := l } := by
  obtain ⟨_, _, e1, _⟩ := LazyPool.dtor_lists st
  obtain ⟨p1, p2, p3⟩ := sync_pcs hs st (fun w => by simp)
  have hpend : ∀ j, Pending l j ↔ Pending s.l j := fun j => by unfold Pending; rw [e1]
  refine ⟨?_, hs.idle, p1, p2, ?_, ?_, ?_, hs.uniqO, hs.uniqC, hs.uniqX, hs.sub, hs.back, fun _ => hb, hs.pick, hs.lt⟩
  · intro j hj; show l.call j = _; rw [e1]; exact hs.fresh j hj
  · intro v j hj
    obtain ⟨h1, h2, h3⟩ := hs.out v j hj
    exact ⟨p3 v j hj, h2, (hpend j).2 h3⟩
  · intro i j f h; exact (hpend j).2 (hs.calling i j f h)
  · intro j h; exact hs.driver j ((hpend j).1 h)

end Verif.Whole
