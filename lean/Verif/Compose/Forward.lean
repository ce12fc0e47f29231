import Verif.Compose.Agree

/-!
The runtime over the specification of the queue is simulated by the runtime of Verif.Runtime.Model, whose queue operations are
single steps: a `push` is performed when it is called, a `pop` when it returns and a `steal` when it takes effect.
-/
namespace Verif.Compose
open Verif.Runtime
open Verif.Deque (AState AStep AO AT OOp ORet SRet setT)
variable {σ V : Type}

abbrev SCS (σ V : Type) := CS σ V (AState Nat Nat)

/-- The runtime state with other queues, program counters and ghost places. -/
def put (c : State σ V) (Q : Nat → List (Nat × Nat)) (L : Nat → Loc) (P : Nat → Pc) : State σ V := { c with q := Q, loc := L, pc := P }

/-- The entry of a queue that only the simulating machine has: pushed and not yet there, or popped and not yet returned. -/
def front : AO Nat → List Nat
  | .pend (.push f) => [f]
  | .done (.threw f) => [f]
  | .done (.got v) => [v]
  | _ => []

/-- Where the simulating worker is: one whose `steal` has taken effect has already resumed the task. -/
def pcOf (x : SCS σ V) (w : Nat) : Pc :=
  match x.call w with
  | .steal v =>
    match (x.dq v).thief w with
    | .done (.got p) => .stole p
    | _ => .idle
  | _ => x.c.pc w

def OwnOk : Call → AState Nat Nat → Prop
  | .push, a => (∃ f, a.owner = .pend (.push f)) ∨ a.owner = .done .pushed ∨ ∃ f, a.owner = .done (.threw f)
  | .pop, a => a.owner = .pend .pop ∨ (∃ v, a.owner = .done (.got v)) ∨ (a.owner = .done .none ∧ a.q = [])
  | _, a => a.owner = .idle

structure Rel (x : SCS σ V) (Q : Nat → List (Nat × Nat)) (P : Nat → Pc) : Prop where
  pc : ∀ w, P w = pcOf x w
  q : ∀ w, (Q w).map Prod.fst = front (x.dq w).owner ++ (x.dq w).q.reverse
  own : ∀ w, OwnOk (x.call w) (x.dq w)
  thf : ∀ w v, (x.dq v).thief w ≠ .idle → x.call w = .steal v
  pops : ∀ w, x.call w = .pop → Pops x.c w
  stl : ∀ w v, x.call w = .steal v → x.c.pc w = .idle ∧ v ≠ w ∧ (x.dq w).q = []

variable {body : σ → Act σ V} {pend : σ → Nat}

/-- The owner is in no call: the queues agree. -/
theorem Rel.idleQ {x : SCS σ V} {Q : Nat → List (Nat × Nat)} {P : Nat → Pc} (h : Rel x Q P) {w : Nat} (hc : OwnOk .none (x.dq w)) :
    (Q w).map Prod.fst = (x.dq w).q.reverse := by
  have := h.q w
  rw [show (x.dq w).owner = .idle from hc] at this
  simpa [front] using this

theorem pcOf_none {x : SCS σ V} {w : Nat} (h : x.call w = .none) : pcOf x w = x.c.pc w := by simp [pcOf, h]
theorem pcOf_push {x : SCS σ V} {w : Nat} (h : x.call w = .push) : pcOf x w = x.c.pc w := by simp [pcOf, h]
theorem pcOf_pop {x : SCS σ V} {w : Nat} (h : x.call w = .pop) : pcOf x w = x.c.pc w := by simp [pcOf, h]

theorem pcOf_eq {x y : SCS σ V} {w : Nat} (h1 : y.call w = x.call w) (h2 : y.c.pc w = x.c.pc w)
    (h3 : ∀ v, x.call w = .steal v → ∀ p, (y.dq v).thief w = .done (.got p) ↔ (x.dq v).thief w = .done (.got p)) :
    pcOf y w = pcOf x w := by
  unfold pcOf
  rw [h1, h2]
  cases hc : x.call w with
  | steal v =>
    have h4 := h3 v hc
    dsimp only
    split
    · rename_i p e; rw [(h4 p).1 e]
    · rename_i e
      split
      · rename_i p e2; exact absurd ((h4 p).2 e2) (e p)
      · rfl
  | _ => rfl

theorem map_fst_nil {l : List (Nat × Nat)} (h : l.map Prod.fst = []) : l = [] := List.map_eq_nil_iff.1 h

/-- What a step inside a queue does to the simulation: nothing, or thief `i` gets the oldest item. -/
inductive TauRes (a a' : AState Nat Nat) : Prop where
  | same : front a'.owner ++ a'.q.reverse = front a.owner ++ a.q.reverse → (∀ c, OwnOk c a → OwnOk c a') →
      (∀ i, (a'.thief i ≠ .idle → a.thief i ≠ .idle) ∧ ∀ p, a'.thief i = .done (.got p) ↔ a.thief i = .done (.got p)) →
      (a.owner = .idle → a.q = [] → a'.q = []) → TauRes a a'
  | took (i v : Nat) : a.q = v :: a'.q → a'.owner = a.owner → a'.thief = setT a.thief i (.done (.got v)) →
      (∀ p, a.thief i ≠ .done (.got p)) → a.thief i ≠ .idle → TauRes a a'

theorem tau_res {a a' : AState Nat Nat} (h : Verif.Weak.WStep a none a') (hs : a.owner ≠ .pend .size) : TauRes a a' := by
  cases h with
  | spec h =>
    cases h with
    | linPush h =>
      refine .same (by simp [h, front]) (fun c hc => ?_) (fun i => ⟨id, fun p => Iff.rfl⟩) (fun e => by rw [h] at e; cases e)
      cases c <;> simp [OwnOk, h] at hc ⊢
    | linThrow h =>
      refine .same (by simp [h, front]) (fun c hc => ?_) (fun i => ⟨id, fun p => Iff.rfl⟩) (fun e => by rw [h] at e; cases e)
      cases c <;> simp [OwnOk, h] at hc ⊢
    | linPop h hq =>
      refine .same (by simp [h, front, hq]) (fun c hc => ?_) (fun i => ⟨id, fun p => Iff.rfl⟩) (fun e => by rw [h] at e; cases e)
      cases c <;> simp [OwnOk, h] at hc ⊢
    | linPopEmpty h hq =>
      refine .same (by simp [h, front]) (fun c hc => ?_) (fun i => ⟨id, fun p => Iff.rfl⟩) (fun e => by rw [h] at e; cases e)
      cases c <;> simp [OwnOk, h, hq] at hc ⊢
    | linSize h => exact absurd h hs
    | linSteal h hq =>
      rename_i q v i d
      exact .took i v (by simpa using hq) rfl rfl (fun p e => by rw [h] at e; cases e) (fun e => by rw [h] at e; cases e)
    | linStealEmpty h hq =>
      rename_i i d
      refine .same rfl (fun c hc => by cases c <;> exact hc) (fun j => ?_) (fun _ e => e)
      simp only [setT]; split
      · rename_i e; subst e; simp [h]
      · simp
    | linStealLost h =>
      rename_i i
      refine .same rfl (fun c hc => by cases c <;> exact hc) (fun j => ?_) (fun _ e => e)
      simp only [setT]; split
      · rename_i e; subst e; simp [h]
      · simp
    | noteO S h hS =>
      refine .same rfl (fun c hc => by cases c <;> exact hc) (fun j => ?_) (fun _ e => e)
      dsimp only; split
      · rename_i e; obtain ⟨d, hd⟩ := hS j e; simp [hd]
      · simp
    | noteT S w h hS =>
      refine .same rfl (fun c hc => by cases c <;> exact hc) (fun j => ?_) (fun _ e => e)
      dsimp only; split
      · rename_i e; obtain ⟨d, hd⟩ := hS j e; simp [hd]
      · simp
  | spurious h hr =>
    rename_i i d r
    refine .same rfl (fun c hc => by cases c <;> exact hc) (fun j => ?_) (fun _ e => e)
    simp only [setT]; split
    · rename_i e; subst e; rcases hr with rfl | rfl <;> simp [h]
    · simp

/-- What a step leads to: the simulation goes on, nothing goes wrong. -/
def Good (body : σ → Act σ V) (pend : σ → Nat) : Res (SCS σ V) → Prop
  | .ok x => ∃ Q L P, ReachAny body pend (put x.c Q L P) ∧ Rel x Q P
  | .ub => False
  | .no => True

theorem put_pc (c : State σ V) (Q : Nat → List (Nat × Nat)) (L : Nat → Loc) (P : Nat → Pc) : (put c Q L P).pc = P := rfl

theorem put_see (c : State σ V) (w : Nat) (l : List Nat) (Q : Nat → List (Nat × Nat)) (L : Nat → Loc) (P : Nat → Pc) :
    put (see c w l) Q L P = put c Q L P := rfl

theorem pops_pc {c c' : State σ V} {w : Nat} (h : c'.pc w = c.pc w) (hp : Pops c w) : Pops c' w := by
  unfold Pops at *; rw [h]; exact hp

/-- After a step of a worker in no call (or whose call returns with it). -/
theorem Rel.local {x : SCS σ V} {Q : Nat → List (Nat × Nat)} {P : Nat → Pc} (h : Rel x Q P) {w : Nat} {c' : State σ V} {p : Pc}
    (hc : x.call w = .none) (hpc : c'.pc = upd x.c.pc w p) : Rel { x with c := c' } Q (upd P w p) := by
  have ne : ∀ v, v ≠ w → c'.pc v = x.c.pc v := fun v hv => by rw [hpc, upd_ne _ _ hv]
  refine ⟨fun v => ?_, h.q, h.own, h.thf, fun v hv => ?_, fun v u hv => ?_⟩
  · by_cases e : v = w
    · subst e
      rw [upd_same, pcOf_none (by exact hc)]
      show p = c'.pc v
      rw [hpc, upd_same]
    · rw [upd_ne _ _ e, h.pc v]
      exact (pcOf_eq (x := x) (y := { x with c := c' }) rfl (ne v e) (fun _ _ _ => Iff.rfl)).symm
  · by_cases e : v = w
    · subst e; rw [show x.call v = .pop from hv] at hc; cases hc
    · exact pops_pc (ne v e) (h.pops v hv)
  · by_cases e : v = w
    · subst e; rw [show x.call v = .steal u from hv] at hc; cases hc
    · have := h.stl v u hv
      exact ⟨by rw [ne v e]; exact this.1, this.2⟩

/-- After a `pop` has returned. -/
theorem Rel.popped {x : SCS σ V} {Q : Nat → List (Nat × Nat)} {P : Nat → Pc} (h : Rel x Q P) {w : Nat} {c' : State σ V} {p : Pc}
    (hc : x.call w = .pop) (hpc : c'.pc = upd x.c.pc w p) {a' : AState Nat Nat} (ha : a'.owner = .idle) (hq : a'.q = (x.dq w).q)
    (ht : a'.thief = (x.dq w).thief) (hf : (Q w).tail.map Prod.fst = (x.dq w).q.reverse) :
    Rel ⟨c', upd x.dq w a', upd x.call w .none⟩ (upd Q w (Q w).tail) (upd P w p) := by
  have ne : ∀ v, v ≠ w → c'.pc v = x.c.pc v := fun v hv => by rw [hpc, upd_ne _ _ hv]
  have tht : ∀ v u, (upd x.dq w a' v).thief u = (x.dq v).thief u := by
    intro v u; unfold upd; split
    · rename_i e; rw [ht, e]
    · rfl
  refine ⟨fun v => ?_, fun v => ?_, fun v => ?_, fun v u => ?_, fun v hv => ?_, fun v u hv => ?_⟩
  · by_cases e : v = w
    · subst e
      rw [upd_same, pcOf_none (upd_same ..)]
      show p = c'.pc v
      rw [hpc, upd_same]
    · rw [upd_ne _ _ e, h.pc v]
      exact (pcOf_eq (upd_ne _ _ e) (ne v e) (fun u _ p => by dsimp only; rw [tht])).symm
  · by_cases e : v = w
    · subst e; simp only [upd_same, ha, front, hq, List.nil_append]; exact hf
    · simp only [upd_ne _ _ e]; exact h.q v
  · by_cases e : v = w
    · subst e; simp only [upd_same]; exact ha
    · simp only [upd_ne _ _ e]; exact h.own v
  · dsimp only
    rw [tht]
    intro hx
    have := h.thf v u hx
    by_cases e : v = w
    · subst e; rw [this] at hc; cases hc
    · rw [upd_ne _ _ e]; exact this
  · by_cases e : v = w
    · subst e; simp only [upd_same] at hv; cases hv
    · simp only [upd_ne _ _ e] at hv; exact pops_pc (ne v e) (h.pops v hv)
  · by_cases e : v = w
    · subst e; simp only [upd_same] at hv; cases hv
    · simp only [upd_ne _ _ e] at hv ⊢
      have := h.stl v u hv
      exact ⟨by rw [ne v e]; exact this.1, this.2⟩

/-- After the owner has begun or ended a call (other than the return of a `pop`). -/
theorem Rel.owner {x : SCS σ V} {Q : Nat → List (Nat × Nat)} {P : Nat → Pc} (h : Rel x Q P) {w : Nat} {k : Call} {a' : AState Nat Nat}
    (hc : x.call w = .none ∨ x.call w = .push) (hk : k = .none ∨ k = .pop ∧ Pops x.c w) (ha : OwnOk k a') (hq : a'.q = (x.dq w).q)
    (hf : front a'.owner = front (x.dq w).owner) (ht : a'.thief = (x.dq w).thief) :
    Rel ⟨x.c, upd x.dq w a', upd x.call w k⟩ Q P := by
  have tht : ∀ v u, (upd x.dq w a' v).thief u = (x.dq v).thief u := by
    intro v u; unfold upd; split
    · rename_i e; rw [ht, e]
    · rfl
  refine ⟨fun v => ?_, fun v => ?_, fun v => ?_, fun v u => ?_, fun v hv => ?_, fun v u hv => ?_⟩
  · by_cases e : v = w
    · subst e
      rw [h.pc v]
      have h1 : pcOf x v = x.c.pc v := by rcases hc with e | e <;> simp [pcOf, e]
      have h2 : pcOf (⟨x.c, upd x.dq v a', upd x.call v k⟩ : SCS σ V) v = x.c.pc v := by
        rcases hk with rfl | ⟨rfl, _⟩ <;> simp [pcOf, upd_same]
      rw [h1, h2]
    · rw [h.pc v]
      exact (pcOf_eq (x := x) (y := ⟨x.c, upd x.dq w a', upd x.call w k⟩) (upd_ne _ _ e) rfl (fun u _ p => by dsimp only; rw [tht])).symm
  · by_cases e : v = w
    · subst e; simp only [upd_same, hf, hq]; exact h.q v
    · simp only [upd_ne _ _ e]; exact h.q v
  · by_cases e : v = w
    · subst e; simp only [upd_same]; exact ha
    · simp only [upd_ne _ _ e]; exact h.own v
  · dsimp only
    rw [tht]
    intro hx
    have := h.thf v u hx
    by_cases e : v = w
    · subst e; rw [this] at hc; rcases hc with e | e <;> cases e
    · rw [upd_ne _ _ e]; exact this
  · by_cases e : v = w
    · subst e; simp only [upd_same] at hv; subst hv
      rcases hk with e | e
      · cases e
      · exact e.2
    · simp only [upd_ne _ _ e] at hv; exact h.pops v hv
  · by_cases e : v = w
    · subst e; simp only [upd_same] at hv; subst hv
      rcases hk with e | e
      · cases e
      · cases e.1
    · simp only [upd_ne _ _ e] at hv ⊢; exact h.stl v u hv

/-- After a thief has begun or ended a `steal` of the queue of `v`. -/
theorem Rel.thief {x : SCS σ V} {Q : Nat → List (Nat × Nat)} {P : Nat → Pc} (h : Rel x Q P) {w v : Nat} {k : Call} {t : AT Nat}
    {c' : State σ V} {a' : AState Nat Nat} (hq : a'.q = (x.dq v).q) (ho : a'.owner = (x.dq v).owner)
    (ht : a'.thief = setT (x.dq v).thief w t) (hc : x.call w = .none ∨ x.call w = .steal v) (hpc : ∀ u, u ≠ w → c'.pc u = x.c.pc u)
    (hP : P w = pcOf ⟨c', upd x.dq v a', upd x.call w k⟩ w)
    (hk : k = .none ∧ t = .idle ∨ k = .steal v ∧ c'.pc w = .idle ∧ v ≠ w ∧ (x.dq w).q = []) :
    Rel ⟨c', upd x.dq v a', upd x.call w k⟩ Q P := by
  have e1 : ∀ u, (upd x.dq v a' u).q = (x.dq u).q := by
    intro u; unfold upd; split
    · rename_i e; rw [e, hq]
    · rfl
  have e2 : ∀ u, (upd x.dq v a' u).owner = (x.dq u).owner := by
    intro u; unfold upd; split
    · rename_i e; rw [e, ho]
    · rfl
  have e3 : ∀ u i, i ≠ w → (upd x.dq v a' u).thief i = (x.dq u).thief i := by
    intro u i hi; unfold upd; split
    · rename_i e; rw [e, ht]; simp [setT, hi]
    · rfl
  have ow : ∀ k a a', OwnOk k a → a'.owner = a.owner → a'.q = a.q → OwnOk k a' := by
    intro k a a' h1 h2 h3; cases k <;> simp only [OwnOk] at * <;> simp only [h2, h3] <;> exact h1
  refine ⟨fun u => ?_, fun u => ?_, fun u => ?_, fun u i => ?_, fun u hv => ?_, fun u i hv => ?_⟩
  · by_cases e : u = w
    · rw [e]; exact hP
    · rw [h.pc u]
      exact (pcOf_eq (x := x) (y := ⟨c', upd x.dq v a', upd x.call w k⟩)
        (upd_ne _ _ e) (hpc u e) (fun i _ p => by rw [e3 i u e])).symm
  · dsimp only; rw [e1, e2]; exact h.q u
  · by_cases e : u = w
    · subst e
      have h1 : (x.dq u).owner = .idle := by
        have := h.own u
        rcases hc with e | e <;> rw [e] at this <;> exact this
      dsimp only
      rw [show upd x.call u k u = k from upd_same ..]
      rcases hk with ⟨rfl, _⟩ | ⟨rfl, _⟩
      · show _ = _; rw [e2]; exact h1
      · show _ = _; rw [e2]; exact h1
    · dsimp only
      rw [show upd x.call w k u = x.call u from upd_ne _ _ e]
      exact ow _ _ _ (h.own u) (e2 u) (e1 u)
  · intro hx
    dsimp only at hx ⊢
    by_cases e : u = w
    · subst e
      rw [show upd x.call u k u = k from upd_same ..]
      by_cases e' : i = v
      · subst e'
        rcases hk with ⟨rfl, rfl⟩ | ⟨rfl, _⟩
        · exfalso; simp [upd_same, setT, ht] at hx
        · rfl
      · have h2 : (x.dq i).thief u ≠ .idle := by simpa [upd_ne _ _ e'] using hx
        have := h.thf u i h2
        rcases hc with e | e
        · rw [this] at e; cases e
        · rw [this] at e; cases e; exact absurd rfl e'
    · rw [show upd x.call w k u = x.call u from upd_ne _ _ e]
      rw [e3 i u e] at hx
      exact h.thf u i hx
  · by_cases e : u = w
    · subst e; simp only [upd_same] at hv; subst hv
      rcases hk with e | e <;> cases e.1
    · simp only [upd_ne _ _ e] at hv; exact pops_pc (hpc u e) (h.pops u hv)
  · dsimp only at hv ⊢
    rw [e1]
    by_cases e : u = w
    · subst e; simp only [upd_same] at hv; subst hv
      rcases hk with e | e
      · cases e.1
      · obtain ⟨h1, h2⟩ := e; cases h1; exact h2
    · simp only [upd_ne _ _ e] at hv
      have := h.stl u i hv
      exact ⟨by rw [hpc u e]; exact this.1, this.2⟩

theorem good_of_agree (hd : Disc body pend) (hp : ∀ x, pend x ≤ 65534) {c c0 : State σ V} {Q Q' : Nat → List (Nat × Nat)} {L : Nat → Loc}
    {P : Nat → Pc} (hr : ReachAny body pend (put c Q L P)) {w : Nat} {ch : Choice} {f : State σ V → SCS σ V} {r : Res (State σ V)}
    (ha : Agree c0 Q' P w (step body w ch (put c Q L P)) r) (hf : ∀ c', (f c').c = c')
    (hg : ∀ c' p, c'.pc = upd c0.pc w p → Rel (f c') Q' (upd P w p)) : Good body pend (Res.map f r) := by
  have hu := (reach_of_bounded hd hp hr)
  have hub := no_ub hd hu.1 hu.2 w ch
  cases hs : step body w ch (put c Q L P) with
  | ub => exact absurd hs hub
  | no => rw [hs] at ha; cases ha; trivial
  | ok s' =>
    rw [hs] at ha
    cases ha with
    | ok c' L' p hpc => exact ⟨Q', L', upd P w p, by rw [hf]; exact hr.step hs, hg c' p hpc⟩

theorem own_nil {w : Nat} {Q : Nat → List (Nat × Nat)} {a : AState Nat Nat} (h : (Q w).map Prod.fst = a.q.reverse) (c : State σ V) :
    Q w = [] ↔ (see c w (specObj.own a)).q w = [] := by
  have h1 : (see c w (specObj.own a)).q w = (specObj.own a).map (·, 0) := by simp [see, upd]
  have h2 : specObj.own a = if a.q.isEmpty then [] else [0] := rfl
  rw [h1, h2]
  cases hq : a.q with
  | nil => rw [hq] at h; simp at h; simp [h]
  | cons v l => rw [hq] at h; simp; rintro e; rw [e] at h; simp at h

/-- After a `push` has been called. -/
theorem Rel.fork {x : SCS σ V} {Q : Nat → List (Nat × Nat)} {P : Nat → Pc} (h : Rel x Q P) {w f n : Nat} {c' : State σ V} {p : Pc}
    (hc : x.call w = .none) (ho : (x.dq w).owner = .idle) (hpc : c'.pc = upd x.c.pc w p) :
    Rel ⟨c', upd x.dq w ⟨(x.dq w).q, .pend (.push f), (x.dq w).thief⟩, upd x.call w .push⟩ (upd Q w ((f, n) :: Q w)) (upd P w p) := by
  have ne : ∀ v, v ≠ w → c'.pc v = x.c.pc v := fun v hv => by rw [hpc, upd_ne _ _ hv]
  have tht : ∀ v u, (upd x.dq w ⟨(x.dq w).q, .pend (.push f), (x.dq w).thief⟩ v).thief u = (x.dq v).thief u := by
    intro v u; unfold upd; split
    · rename_i e; rw [e]
    · rfl
  refine ⟨fun v => ?_, fun v => ?_, fun v => ?_, fun v u => ?_, fun v hv => ?_, fun v u hv => ?_⟩
  · by_cases e : v = w
    · subst e
      rw [upd_same, pcOf_push (upd_same ..)]
      show p = c'.pc v
      rw [hpc, upd_same]
    · rw [upd_ne _ _ e, h.pc v]
      exact (pcOf_eq (upd_ne _ _ e) (ne v e) (fun u _ p => by dsimp only; rw [tht])).symm
  · by_cases e : v = w
    · subst e
      have := h.idleQ (w := v) ho
      simp only [upd_same, front, List.map_cons, this, List.singleton_append]
    · simp only [upd_ne _ _ e]; exact h.q v
  · by_cases e : v = w
    · subst e; simp only [upd_same]; exact .inl ⟨f, rfl⟩
    · simp only [upd_ne _ _ e]; exact h.own v
  · dsimp only
    rw [tht]
    intro hx
    have := h.thf v u hx
    by_cases e : v = w
    · subst e; rw [this] at hc; cases hc
    · rw [upd_ne _ _ e]; exact this
  · by_cases e : v = w
    · subst e; simp only [upd_same] at hv; cases hv
    · simp only [upd_ne _ _ e] at hv; exact pops_pc (ne v e) (h.pops v hv)
  · by_cases e : v = w
    · subst e; simp only [upd_same] at hv; cases hv
    · simp only [upd_ne _ _ e] at hv ⊢
      have := h.stl v u hv
      exact ⟨by rw [ne v e]; exact this.1, this.2⟩

/-- A step inside a queue. -/
theorem sim_tau (hd : Disc body pend) (hp : ∀ x, pend x ≤ 65534) {x : SCS σ V} {Q : Nat → List (Nat × Nat)} {L : Nat → Loc} {P : Nat → Pc}
    (hr : ReachAny body pend (put x.c Q L P)) (h : Rel x Q P) {v : Nat} {a' : AState Nat Nat} (ht : Verif.Weak.WStep (x.dq v) none a') :
    Good body pend (.ok { x with dq := upd x.dq v a' }) := by
  have hu := reach_of_bounded hd hp hr
  have hi := reach_inv hd hu.1
  have hsz : (x.dq v).owner ≠ .pend .size := by
    intro e
    have := h.own v
    cases hc : x.call v <;> simp [hc, OwnOk, e] at this
  cases tau_res ht hsz with
  | same h1 h2 h3 h4 =>
    have tht : ∀ u i p, (upd x.dq v a' u).thief i = .done (.got p) ↔ (x.dq u).thief i = .done (.got p) := by
      intro u i p; unfold upd; split
      · rename_i e; rw [e]; exact (h3 i).2 p
      · exact Iff.rfl
    refine ⟨Q, L, P, hr, fun w => ?_, fun w => ?_, fun w => ?_, fun w u => ?_, h.pops, fun w u hw => ?_⟩
    · rw [h.pc w]
      exact (pcOf_eq (x := x) (y := { x with dq := upd x.dq v a' }) rfl rfl (fun u _ p => tht u w p)).symm
    · by_cases e : w = v
      · subst e; simp only [upd_same, h1]; exact h.q w
      · simp only [upd_ne _ _ e]; exact h.q w
    · by_cases e : w = v
      · subst e; simp only [upd_same]; exact h2 _ (h.own w)
      · simp only [upd_ne _ _ e]; exact h.own w
    · by_cases e : u = v
      · subst e; simp only [upd_same]; exact fun hx => h.thf w u ((h3 w).1 hx)
      · simp only [upd_ne _ _ e]; exact h.thf w u
    · have h5 := h.stl w u hw
      refine ⟨h5.1, h5.2.1, ?_⟩
      by_cases e : w = v
      · subst e
        have h6 : (x.dq w).owner = .idle := by have := h.own w; rw [show x.call w = .steal u from hw] at this; exact this
        simp only [upd_same]; exact h4 h6 h5.2.2
      · simp only [upd_ne _ _ e]; exact h5.2.2
  | took i p hq ho hth hng hni =>
    have hc : x.call i = .steal v := h.thf i v hni
    have hstl := h.stl i v hc
    have hP : P i = .idle := by
      rw [h.pc i]; unfold pcOf; rw [hc]; dsimp only
      split
      · rename_i p' e; exact absurd e (hng p')
      · rfl
    have hQv := h.q v
    rw [hq, List.reverse_cons, ← List.append_assoc] at hQv
    obtain ⟨Q0, n, hQ0, hfst⟩ : ∃ Q0 n, Q v = Q0 ++ [(p, n)] ∧ Q0.map Prod.fst = front (x.dq v).owner ++ a'.q.reverse := by
      rcases List.eq_nil_or_concat (Q v) with e | ⟨Q0, b, e⟩
      · rw [e] at hQv; simp at hQv
      · rw [List.concat_eq_append] at e
        rw [e, List.map_append, List.map_singleton] at hQv
        have := List.append_inj' hQv rfl
        obtain ⟨b1, b2⟩ := b
        simp only [List.cons.injEq, and_true] at this
        exact ⟨Q0, b2, by rw [e, this.2], this.1⟩
    have hie := idle_empty hd hu.1 (w := i) hP
    have e1 : step body i (.steal v) (put x.c Q L P) =
        .ok (put x.c (upd Q v Q0) (upd L p (.stolenBy i)) (upd P i (.stole p))) := by
      unfold step
      rw [show (put x.c Q L P).pc i = .idle from hP]
      dsimp only [Verif.Runtime.steal]
      have h1 : (put x.c Q L P).q v = Q0 ++ [(p, n)] := hQ0
      rw [h1, List.getLast?_concat, List.dropLast_concat]
      dsimp only
      have h2 : (put x.c Q L P).wkEmpty i = true := by
        show (List.isEmpty _) = true
        rw [hie.2]; rfl
      rw [if_pos ⟨Ne.symm hstl.2.1, hie.1, h2⟩]
      rfl
    have thn : ∀ u j, (u = v → j ≠ i) → (upd x.dq v a' u).thief j = (x.dq u).thief j := by
      intro u j hj; unfold upd; split
      · rename_i e; rw [e, hth]; simp [setT, hj e]
      · rfl
    refine ⟨_, _, _, hr.step e1, fun w => ?_, fun w => ?_, fun w => ?_, fun w u => ?_, h.pops, fun w u hw => ?_⟩
    · by_cases e : w = i
      · subst e; simp [upd_same, pcOf, hc, hth, setT]
      · rw [upd_ne _ _ e, h.pc w]
        exact (pcOf_eq (x := x) (y := { x with dq := upd x.dq v a' }) rfl rfl (fun u _ p => by rw [thn u w (fun _ => e)])).symm
    · by_cases e : w = v
      · subst e; simp only [upd_same, ho]; exact hfst
      · simp only [upd_ne _ _ e]; exact h.q w
    · by_cases e : w = v
      · subst e
        have h6 := h.own w
        simp only [upd_same]
        cases hcw : x.call w <;> rw [hcw] at h6 <;> simp only [OwnOk] at h6 ⊢ <;> rw [ho]
        · exact h6
        · exact h6
        · rcases h6 with e | e | ⟨_, e⟩
          · exact .inl e
          · exact .inr (.inl e)
          · rw [hq] at e; cases e
        · exact h6
      · simp only [upd_ne _ _ e]; exact h.own w
    · intro hx
      by_cases e : u = v ∧ w = i
      · rw [e.1, e.2]; exact hc
      · exact h.thf w u (by rw [← thn u w (fun e1 e2 => e ⟨e1, e2⟩)]; exact hx)
    · have h5 := h.stl w u hw
      refine ⟨h5.1, h5.2.1, ?_⟩
      by_cases e : w = v
      · subst e; rw [hq] at h5; cases h5.2.2
      · simp only [upd_ne _ _ e]; exact h5.2.2

theorem sim_step (hd : Disc body pend) (hp : ∀ x, pend x ≤ 65534) {x : CS σ V specObj.D} {Q : Nat → List (Nat × Nat)} {L : Nat → Loc} {P : Nat → Pc}
    (hr : ReachAny body pend (put x.c Q L P)) (h : Rel x Q P) {r : Res (CS σ V specObj.D)} (hs : Step body specObj x r) : Good body pend r := by
  have hu := reach_of_bounded hd hp hr
  have hi := reach_inv hd hu.1
  cases hs with
  | loc w ch hc hl =>
    have ho : OwnOk .none (x.dq w) := by have := h.own w; rwa [hc] at this
    have hP : P w = (see x.c w (specObj.own (x.dq w))).pc w := (h.pc w).trans (pcOf_none hc)
    have ha := agree_local (c := see x.c w (specObj.own (x.dq w))) (Q := Q) L hP (own_nil (h.idleQ ho) x.c) hl
    exact good_of_agree hd hp hr ha (fun _ => rfl) (fun c' p hpc => h.local hc hpc)
  | tau v ht => exact sim_tau hd hp hr h ht
  | fork w f a k hc hpc hb ht =>
    cases ht with | spec ht => ?_
    cases ht with | oinv ho => ?_
    have hP : P w = .run f := by rw [h.pc w, pcOf_none hc, hpc]
    have e1 : step body w .take (put x.c Q L P) = .ok (doFork (put x.c Q L P) w f a k) := by
      unfold step
      rw [show (put x.c Q L P).pc w = .run f from hP]
      dsimp only [put]
      rw [hb]
    exact ⟨_, _, _, hr.step e1, h.fork hc ho rfl⟩
  | pushed w hc ht =>
    cases ht with | spec ht => ?_
    cases ht with | ores ho => ?_
    refine ⟨Q, L, P, hr, ?_⟩
    exact h.owner (.inr hc) (.inl rfl) rfl rfl (by simp [front, ho]) rfl
  | pop w hc hpp ht =>
    cases ht with | spec ht => ?_
    cases ht with | oinv ho => ?_
    refine ⟨Q, L, P, hr, ?_⟩
    exact h.owner (.inl hc) (.inr ⟨rfl, hpp⟩) (.inl rfl) rfl (by simp [front, ho]) rfl
  | popped w ch rr l hc ht hl =>
    cases ht with | spec ht => ?_
    cases ht with | ores ho => ?_
    have hP : P w = (see x.c w l).pc w := (h.pc w).trans (pcOf_pop hc)
    have hpp : Pops (see x.c w l) w := h.pops w hc
    have hq := h.q w
    have e1 : (see x.c w l).q w = l.map (·, 0) := by simp [see, upd]
    rw [ho] at hq
    have hown := h.own w
    rw [hc] at hown
    have key : (Q w).head?.map Prod.fst = ((see x.c w l).q w).head?.map Prod.fst ∧ (Q w).tail.map Prod.fst = (x.dq w).q.reverse := by
      rw [e1]
      cases rr with
      | got v =>
        cases hl
        simp only [front] at hq
        cases hQ : Q w with
        | nil => rw [hQ] at hq; simp at hq
        | cons a t => rw [hQ] at hq; simp at hq; simp [hq.1, hq.2]
      | none =>
        cases hl
        have : (x.dq w).q = [] := by
          rcases hown with e | ⟨v, e⟩ | ⟨_, e⟩
          · rw [ho] at e; cases e
          · rw [ho] at e; cases e
          · exact e
        simp only [front, this] at hq
        have := map_fst_nil (by simpa using hq)
        simp [*]
      | _ => cases hl
    have ha := agree_pop (c := see x.c w l) (body := body) (ch := ch) L hP key.1 hpp
    exact good_of_agree hd hp hr ha (fun _ => rfl) (fun c' p hpc => h.popped hc hpc rfl rfl rfl key.2)
  | steal w v hc hpc hne ht =>
    cases ht with | spec ht => ?_
    cases ht with | sinv hti => ?_
    refine ⟨Q, L, P, hr, ?_⟩
    have ho : OwnOk .none (x.dq w) := by have := h.own w; rwa [hc] at this
    have hP : P w = .idle := by rw [h.pc w, pcOf_none hc, hpc]
    have hq : (x.dq w).q = [] := by
      have h1 := idle_empty hd hu.1 (w := w) hP
      have h2 : Q w = [] := h1.1
      have h3 := h.idleQ ho
      rw [h2] at h3
      simpa using h3.symm
    refine h.thief (t := .pend false) rfl rfl rfl (.inl hc) (fun _ _ => rfl) ?_ (.inr ⟨rfl, hpc, hne, hq⟩)
    simp [pcOf, upd_same, setT, hP]
  | stolen w v p hc ht =>
    cases ht with | spec ht => ?_
    cases ht with | sres hti => ?_
    have hstl := h.stl w v hc
    have ho : OwnOk .none (x.dq w) := by have := h.own w; rwa [hc] at this
    have hP : P w = .stole p := by rw [h.pc w]; simp [pcOf, hc, hti]
    have hQ : Q w = [] := by have := h.idleQ ho; rw [hstl.2.2] at this; exact map_fst_nil (by simpa using this)
    have hal : x.c.al (x.c.wk w) = [] := hi.stk.st w p hP
    have e0 : specObj.own (x.dq w) = [] := by
      show (if (x.dq w).q.isEmpty then [] else [0]) = []
      rw [hstl.2.2]; rfl
    have e1 : step body w (.steal v) (see2 x.c w (specObj.own (x.dq w)) v p) =
        .ok { see2 x.c w [] v p with
          q := upd (see2 x.c w [] v p).q v [], pc := upd x.c.pc w (.stole p), loc := upd x.c.loc p (.stolenBy w) } := by
      rw [e0]
      unfold step
      have h1 : (see2 x.c w [] v p).pc w = .idle := hstl.1
      have h2 : (see2 x.c w [] v p).q v = [(p, 0)] := upd_same ..
      have h3 : (see2 x.c w [] v p).q w = [] := by
        show upd _ v _ w = _
        rw [upd_ne _ _ (Ne.symm hstl.2.1)]; simp [see, upd]
      have h4 : (see2 x.c w [] v p).wkEmpty w = true := by
        show (x.c.al (x.c.wk w)).isEmpty = true
        rw [hal]; rfl
      rw [h1]
      dsimp only [Verif.Runtime.steal]
      rw [h2]
      dsimp only [List.getLast?]
      rw [if_pos ⟨Ne.symm hstl.2.1, h3, h4⟩]
      rfl
    rw [e1]
    refine ⟨Q, L, P, hr, ?_⟩
    refine h.thief (t := .idle) rfl rfl rfl (.inr hc) (fun u hu => upd_ne _ _ hu) ?_ (.inl ⟨rfl, rfl⟩)
    rw [pcOf_none (upd_same ..), hP]
    exact (upd_same ..).symm
  | missed w v rr hc hrr ht =>
    cases ht with | spec ht => ?_
    cases ht with | sres hti => ?_
    refine ⟨Q, L, P, hr, ?_⟩
    refine h.thief (t := .idle) rfl rfl rfl (.inr hc) (fun _ _ => rfl) ?_ (.inl ⟨rfl, rfl⟩)
    rw [pcOf_none (upd_same ..), h.pc w]
    have := (h.stl w v hc).1
    rcases hrr with rfl | rfl <;> simp [pcOf, hc, hti, this]

theorem rel_start (x : σ) (Q : Nat → List (Nat × Nat)) (hQ : ∀ w, Q w = []) :
    Rel (σ := σ) (V := V) ⟨State.start x, fun _ => .init, fun _ => .none⟩ Q (fun _ => .idle) :=
  ⟨fun _ => rfl, fun w => by simp [hQ, AState.init, front], fun _ => rfl, fun w v hx => absurd rfl hx, fun _ e => (nomatch e),
    fun _ _ e => (nomatch e)⟩

/-- The states of the runtime over the specification of the queue. -/
theorem forward (hd : Disc body pend) (hp : ∀ x, pend x ≤ 65534) {x : CS σ V specObj.D} (h : Reach body pend specObj x) :
    ∃ Q L P, ReachAny body pend (put x.c Q L P) ∧ Rel x Q P := by
  induction h with
  | start x d hi =>
    have : d = fun _ => .init := funext hi
    subst this
    exact ⟨fun _ => [], fun _ => .unborn, fun _ => .idle, .start x, rel_start x _ (fun _ => rfl)⟩
  | submit w _ hc ih =>
    obtain ⟨Q, L, P, hr, h⟩ := ih
    exact ⟨_, _, _, hr.submit w hc, h.pc, h.q, h.own, h.thf, h.pops, h.stl⟩
  | step _ hs ih =>
    obtain ⟨Q, L, P, hr, h⟩ := ih
    exact sim_step hd hp hr h hs

end Verif.Compose
