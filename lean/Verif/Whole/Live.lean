import Verif.Whole.Roots

/-! Every call of `sync_wait` returns. -/
namespace Verif.Whole
open Verif.Runtime (State Res Ev ExecN Disc SerC Ser)
open Verif.LazyPool (Cfg St busy)
open Verif.EventCount (upd upd_same upd_ne upd_apply)
variable {σ V : Type}

/-- Who can take a step and is obliged to: a worker unless it is blocked in `wait`, waits for `latch_stop` or has returned; a caller that has
called `sync_wait` unless its future is not ready; the destructor once it has begun, except that it waits for the workers at the end. -/
def ready (c : Cfg) (s : W σ V) : Actor → Prop
  | .worker w => LazyPool.Ready c s.l (.worker w)
  | .caller i =>
    match s.caller i with
    | .before => False
    | .picking => True
    | .calling _ _ => True
    | .waiting f => ∃ v, Ev.done f v ∈ s.r.log
    | .back _ => False
  | .dtor => LazyPool.Ready c s.l .dtor

/-- The whole program. -/
def system (c : Cfg) (body : σ → Runtime.Act σ V) (K : Nat) (root : Nat → σ) : Fair.Sys (W σ V) Actor where
  init s := ∃ x, s = W.start c x
  step a s s' := Step c body K root a s (.ok s')
  ready s a := ready c s a

variable {c : Cfg} {body : σ → Runtime.Act σ V} {pend : σ → Nat} {K : Nat} {root : Nat → σ}

/-- Of what is counted only finitely much happens. -/
theorem finitely (P : Nat → Nat → Prop) (E : Nat → Prop) (B : Nat) (hB : ∀ t k, P k t → k ≤ B) (h0 : ∃ k, P k 0)
    (hs : ∀ t k, P k t → (E t ∧ P (k + 1) (t + 1)) ∨ (¬ E t ∧ P k (t + 1))) : ∃ T, ∀ t, T ≤ t → ¬ E t := by
  apply Classical.byContradiction
  intro hn
  have hinf : ∀ T, ∃ t, T ≤ t ∧ E t := by
    intro T
    apply Classical.byContradiction
    intro h
    exact hn ⟨T, fun t ht he => h ⟨t, ht, he⟩⟩
  have walk : ∀ t k, P k t → ∀ d, ∃ k', k ≤ k' ∧ P k' (t + d) := by
    intro t k h d
    induction d with
    | zero => exact ⟨k, Nat.le_refl _, h⟩
    | succ d ih =>
      obtain ⟨k', h1, h2⟩ := ih
      rcases hs _ _ h2 with ⟨_, h3⟩ | ⟨_, h3⟩
      · exact ⟨k' + 1, by omega, h3⟩
      · exact ⟨k', h1, h3⟩
  have grow : ∀ n, ∃ t k, P k t ∧ n ≤ k := by
    intro n
    induction n with
    | zero => obtain ⟨k, hk⟩ := h0; exact ⟨0, k, hk, Nat.zero_le _⟩
    | succ n ih =>
      obtain ⟨t, k, h1, h2⟩ := ih
      obtain ⟨t', h3, h4⟩ := hinf t
      obtain ⟨k', h5, h6⟩ := walk t k h1 (t' - t)
      rw [Nat.add_sub_cancel' h3] at h6
      rcases hs _ _ h6 with ⟨_, h7⟩ | ⟨h7, _⟩
      · exact ⟨_, _, h7, by omega⟩
      · exact absurd h4 h7
  obtain ⟨t, k, h1, h2⟩ := grow (B + 1)
  have := hB t k h1
  omega

section
variable (hc : c.Ok) (hd : Disc body pend) (hp : ∀ x, pend x ≤ 65534) (hsw : ∀ x d k, body x = .switch d k → d < c.N)
  (hroot : ∀ i, i < K → pend (root i) = 0)
include hc hroot

theorem run_inv (r : Fair.Run (system c body K root)) (few : ∀ t, LazyPool.Few c (r.st t).l) (t : Nat) : Inv c body pend K root (r.st t) := by
  induction t with
  | zero => obtain ⟨x, e⟩ := r.start; rw [e]; exact inv_start x
  | succ t ih =>
    rcases r.next t with ⟨_, e⟩ | ⟨a, _, st⟩
    · rw [e]; exact ih
    · exact inv_step hc hroot ih (few t) st

/-- What happens at time `t` for the runtime. -/
theorem run_evo (r : Fair.Run (system c body K root)) (few : ∀ t, LazyPool.Few c (r.st t).l) (t : Nat) :
    Evo c body K root (r.st t) (r.st (t + 1)) := by
  have hi := run_inv hc hroot r few t
  rcases r.next t with ⟨_, e⟩ | ⟨a, _, st⟩
  · rw [e]; exact .same rfl (fun _ => rfl) rfl (fun _ h => h) fun w h => by rw [h]; simp
  · exact evo_step hi.sync (LazyPool.reach_sub hc hi.pool) st

omit hc hroot in
/-- The runtime takes a step or gets a task. -/
def Busy (c : Cfg) (body : σ → Runtime.Act σ V) (K : Nat) (root : Nat → σ) (s s' : W σ V) : Prop :=
  (∃ i d j, i < K ∧ d < c.N ∧ s.caller i = .picking ∧ s'.caller = upd s.caller i (.calling j s.r.nf) ∧ s'.rt = Runtime.submit s.rt (root i) d) ∨
  ∃ w ch, w < c.N ∧ Runtime.step body w ch s.rt = .ok s'.rt ∧ s'.caller = s.caller

omit hc hroot in
/-- It does not. -/
structure Still (s s' : W σ V) : Prop where
  rt : s'.rt = s.rt
  early : ∀ i, early (s'.caller i) = early (s.caller i)
  started : s'.l.started = s.l.started
  unsent : ∀ j, s.l.call j = .unsent → s'.l.call j = .unsent
  steal : ∀ w, s.l.pc w = .steal → s'.l.pc w ≠ .tws1

omit hc hroot in
theorem still_of {s s' : W σ V} (e : Evo c body K root s s') (h : ¬ Busy c body K root s s') : Still s s' := by
  cases e with
  | same h1 h2 h3 h4 h5 => exact ⟨h1, h2, h3, h4, h5⟩
  | submit i d j h1 h2 h3 h4 h5 => exact absurd (.inl ⟨i, d, j, h1, h2, h3, h4, h5⟩) h
  | step w ch h1 h2 h3 => exact absurd (.inr ⟨w, ch, h1, h2, h3⟩) h

omit hc in
theorem exec_count {s s' : W σ V} {k : Nat} (h : ∃ cs, Exec c body pend K root k cs s) (e : Evo c body K root s s') :
    (Busy c body K root s s' ∧ ∃ cs, Exec c body pend K root (k + 1) cs s') ∨ (¬ Busy c body K root s s' ∧ ∃ cs, Exec c body pend K root k cs s') := by
  obtain ⟨cs, h⟩ := h
  by_cases hb : Busy c body K root s s'
  · refine .inl ⟨hb, ?_⟩
    obtain ⟨m, hm, rfl⟩ := h.run
    rcases hb with ⟨i, d, j, hi, hd, hp, hcl, hrt⟩ | ⟨w, ch, hw, hst, hcl⟩
    · refine ⟨root i :: cs, ⟨m, by rw [hrt]; exact hm.submit hd (hroot i hi), ?_⟩, fun g => bal_submit (h.bal g) hi hp hcl, ?_⟩
      · simp only [List.length_cons]; omega
      · intro x hx
        rcases List.mem_cons.1 hx with rfl | hx
        · exact ⟨i, hi, rfl⟩
        · exact h.mem x hx
    · exact ⟨cs, ⟨m + 1, hm.step hw hst, by omega⟩, fun g => bal_same (h.bal g) fun i => by rw [hcl], h.mem⟩
  · have hs := still_of e hb
    obtain ⟨m, hm, rfl⟩ := h.run
    exact .inr ⟨hb, cs, ⟨m, by rw [hs.rt]; exact hm, rfl⟩, fun g => bal_same (h.bal g) hs.early, h.mem⟩

include hd hp in
omit hc hroot in
/-- The workers' steps inside tasks and the submissions are bounded in number. -/
theorem exec_bound {cost : σ → Nat} (hcost : ∀ i, i < K → ∃ v, SerC body (root i) [] v (cost (root i))) {k : Nat} {cs : List σ} {s : W σ V}
    (h : Exec c body pend K root k cs s) : k ≤ Runtime.sumTo (fun i => 10 * cost (root i) + 5) K + Runtime.sumTo (fun _ => 1) K := by
  obtain ⟨m, hm, rfl⟩ := h.run
  have h1 := Runtime.schedule_bounded hd hp hm (cost := cost) fun x hx => by
    obtain ⟨i, hi, rfl⟩ := h.mem x hx
    exact hcost i hi
  have h2 := h.bal fun c => 10 * cost c + 5
  have h3 := h.bal fun _ => 1
  unfold Bal at h2 h3
  simp only at h2 h3
  have h4 : ∀ l : List σ, (l.map fun _ => 1).sum = l.length := by
    intro l
    induction l with
    | nil => rfl
    | cons x l ih => rw [List.map_cons, List.sum_cons, ih, List.length_cons]; omega
  have h4 := h4 cs
  omega

include hd hp in
/-- From some time on the runtime rests. -/
theorem rests (hser : ∀ i, i < K → ∃ v, Ser body (root i) [] v) (r : Fair.Run (system c body K root)) (few : ∀ t, LazyPool.Few c (r.st t).l) :
    ∃ T, ∀ t, T ≤ t → ¬ Busy c body K root (r.st t) (r.st (t + 1)) := by
  classical
  have hcost : ∃ cost : σ → Nat, ∀ i, i < K → ∃ v, SerC body (root i) [] v (cost (root i)) := by
    refine ⟨fun c => if h : ∃ n v, SerC body c [] v n then h.choose else 0, fun i hi => ?_⟩
    obtain ⟨v, hv⟩ := hser i hi
    obtain ⟨n, hn⟩ := hv.cost
    have h : ∃ n v, SerC body (root i) [] v n := ⟨n, v, hn⟩
    simp only [dif_pos h]
    exact h.choose_spec
  obtain ⟨cost, hcost⟩ := hcost
  refine finitely (fun k t => ∃ cs, Exec c body pend K root k cs (r.st t)) _
    (Runtime.sumTo (fun i => 10 * cost (root i) + 5) K + Runtime.sumTo (fun _ => 1) K) ?_ ?_ ?_
  · rintro t k ⟨cs, h⟩; exact exec_bound hd hp hcost h
  · obtain ⟨x, e⟩ := r.start; rw [e]; exact ⟨0, [], exec_start x⟩
  · intro t k h; exact exec_count hroot h (run_evo hc hroot r few t)

end

end Verif.Whole
