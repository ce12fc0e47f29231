import Verif.Runtime.Props
import Verif.Runtime.Cost

/-!
The measure that every step of a worker lowers: ten for every action the serial elision of the live tasks still has to do, and a few
more for what the workers are about to do and for what is waiting in queues and lists.
-/
namespace Verif.Runtime
variable {σ V : Type}

def sumTo (g : Nat → Nat) : Nat → Nat
  | 0 => 0
  | n + 1 => sumTo g n + g n

theorem sumTo_congr {g h : Nat → Nat} {n : Nat} (e : ∀ i, i < n → g i = h i) : sumTo g n = sumTo h n := by
  induction n with
  | zero => rfl
  | succ n ih => simp only [sumTo]; rw [ih fun i hi => e i (by omega), e n (by omega)]

theorem sumTo_out {g : Nat → Nat} {i n v : Nat} (h : n ≤ i) : sumTo (upd g i v) n = sumTo g n :=
  sumTo_congr fun j hj => upd_ne _ _ (by omega)

theorem sumTo_upd {g : Nat → Nat} {i n : Nat} (v : Nat) (h : i < n) : sumTo (upd g i v) n + g i = sumTo g n + v := by
  induction n with
  | zero => omega
  | succ n ih =>
    simp only [sumTo]
    by_cases e : i = n
    · subst e; rw [sumTo_out (Nat.le_refl _), upd_same]; omega
    · have := ih (by omega)
      rw [upd_ne g v (show n ≠ i by omega)]; omega

theorem comp_upd {α : Type} (g : α → Nat) (p : Nat → α) (i : Nat) (x : α) : (fun j => g (upd p i x j)) = upd (fun j => g (p j)) i (g x) := by
  funext j; simp only [upd]; split <;> rfl

/-- What a worker's next steps are worth. -/
def pw : Pc → Nat
  | .idle => 0
  | .run _ => 4
  | .joinLoad _ => 3
  | .joinSub _ => 2
  | .joinTake _ => 1
  | .finPop _ _ => 3
  | .finDec _ _ _ => 2
  | .finWin _ _ => 1
  | .finLose _ => 1
  | .selfSteal => 1
  | .stole _ => 5
  | .switchRel _ => 2

/-- The callee a task waits for: its initial state. -/
def calls (s : State σ V) (f : Nat) : Option σ :=
  match s.loc f with
  | .callwait c => some (s.init c)
  | _ => none

/-- The serial run of a live task has `n` actions left, not counting those of its live children. -/
def Need (body : σ → Act σ V) (g : Fr σ V) (o : Option σ) (n : Nat) : Prop :=
  ∃ vs v, SerAll body g.inits vs ∧
    match o with
    | none => SerC body g.st vs v n
    | some x => ∃ k y, body g.st = .call x k ∧ Ser body x [] y ∧ SerC body (k y) vs v n

structure TInv (body : σ → Act σ V) (s : State σ V) (rest : Nat → Nat) : Prop where
  need : ∀ f, Alive (s.loc f) → Need body (s.fr f) (calls s f) (rest f)
  zero : ∀ f, ¬ Alive (s.loc f) → rest f = 0

def meas (N : Nat) (s : State σ V) (rest : Nat → Nat) : Nat :=
  10 * sumTo rest s.nf + sumTo (fun w => pw (s.pc w)) N + 6 * sumTo (fun w => (s.q w).length) N +
    5 * sumTo (fun w => (s.inbox w).length) N

/-- Workers from `N` on do nothing. -/
structure Bnd (N : Nat) (s : State σ V) : Prop where
  pc : ∀ w, N ≤ w → s.pc w = .idle
  q : ∀ w, N ≤ w → s.q w = []

theorem Bnd.lt {N : Nat} {s : State σ V} (h : Bnd N s) {w : Nat} (hw : s.pc w ≠ .idle) : w < N := by
  by_cases e : w < N
  · exact e
  · exact absurd (h.pc w (by omega)) hw

theorem Bnd.ltq {N : Nat} {s : State σ V} (h : Bnd N s) {w : Nat} (hw : s.q w ≠ []) : w < N := by
  by_cases e : w < N
  · exact e
  · exact absurd (h.q w (by omega)) hw

/-- Tasks that are not touched. -/
theorem tinv_of {body : σ → Act σ V} {s s' : State σ V} {rest rest' : Nat → Nat} (h : TInv body s rest)
    (hs : ∀ f, ((Alive (s'.loc f) ↔ Alive (s.loc f)) ∧ (s'.fr f).inits = (s.fr f).inits ∧ (s'.fr f).st = (s.fr f).st ∧
        (Alive (s.loc f) → calls s' f = calls s f) ∧ rest' f = rest f) ∨
      (Alive (s'.loc f) ∧ Need body (s'.fr f) (calls s' f) (rest' f)) ∨ (¬ Alive (s'.loc f) ∧ rest' f = 0)) : TInv body s' rest' := by
  constructor
  · intro f ha
    rcases hs f with ⟨h1, h2, h3, h4, h5⟩ | h1 | h1
    · have := h.need f (h1.1 ha)
      rw [h4 (h1.1 ha), h5]
      obtain ⟨vs, v, a, b⟩ := this
      refine ⟨vs, v, by rw [h2]; exact a, ?_⟩
      rw [h3]; exact b
    · exact h1.2
    · exact absurd ha h1.1
  · intro f ha
    rcases hs f with ⟨h1, h2, h3, h4, h5⟩ | h1 | h1
    · rw [h5]; exact h.zero f fun x => ha (h1.2 x)
    · exact absurd h1.1 ha
    · exact h1.2

theorem upd_self {α : Type} (f : Nat → α) (i : Nat) : upd f i (f i) = f := by
  funext j; simp only [upd]; split
  · subst_vars; rfl
  · rfl

def inb (N : Nat) (s : State σ V) : Nat := sumTo (fun w => (s.inbox w).length) N

theorem meas_gen {N : Nat} {s s' : State σ V} {rest rest' : Nat → Nat} {w v : Nat} {p' : Pc} {r : List (Nat × Nat)} (hw : w < N)
    (hv : v < N) (h1 : s'.pc = upd s.pc w p') (h2 : s'.q = upd s.q v r) :
    meas N s' rest' + 10 * sumTo rest s.nf + pw (s.pc w) + 6 * (s.q v).length + 5 * inb N s =
      meas N s rest + 10 * sumTo rest' s'.nf + pw p' + 6 * r.length + 5 * inb N s' := by
  have e1 := sumTo_upd (g := fun w => pw (s.pc w)) (pw p') hw
  have e2 := sumTo_upd (g := fun w => (s.q w).length) r.length hv
  unfold meas inb
  rw [h1, h2, comp_upd pw, comp_upd List.length]
  omega

theorem inb_upd {N : Nat} {s s' : State σ V} {d : Nat} {l : List Nat} (h : s'.inbox = upd s.inbox d l) (hl : (s.inbox d).length ≤ l.length) :
    inb N s' + (s.inbox d).length ≤ inb N s + l.length := by
  unfold inb
  rw [h, comp_upd List.length]
  by_cases e : d < N
  · have := sumTo_upd (g := fun w => (s.inbox w).length) l.length e
    omega
  · rw [sumTo_out (by omega)]; omega

theorem inb_upd_eq {N : Nat} {s s' : State σ V} {d : Nat} {l : List Nat} (h : s'.inbox = upd s.inbox d l) (hd : d < N) :
    inb N s' + (s.inbox d).length = inb N s + l.length := by
  unfold inb
  rw [h, comp_upd List.length]
  have := sumTo_upd (g := fun w => (s.inbox w).length) l.length hd
  omega

/-- Steps that only move a worker on. -/
theorem move {body : σ → Act σ V} {N : Nat} {s s' : State σ V} {rest : Nat → Nat} {w v : Nat} {p' : Pc} {r : List (Nat × Nat)}
    (ht : TInv body s rest) (hw : w < N) (hv : v < N) (h1 : s'.pc = upd s.pc w p') (h2 : s'.q = upd s.q v r) (h3 : s'.nf = s.nf)
    (h4 : s'.inbox = s.inbox) (hlt : pw p' + 6 * r.length + 1 ≤ pw (s.pc w) + 6 * (s.q v).length)
    (hs : ∀ f, (Alive (s'.loc f) ↔ Alive (s.loc f)) ∧ (s'.fr f).inits = (s.fr f).inits ∧ (s'.fr f).st = (s.fr f).st ∧
        (Alive (s.loc f) → calls s' f = calls s f)) : ∃ rest', TInv body s' rest' ∧ meas N s' rest' + 1 ≤ meas N s rest := by
  refine ⟨rest, tinv_of ht fun f => Or.inl ⟨(hs f).1, (hs f).2.1, (hs f).2.2.1, (hs f).2.2.2, rfl⟩, ?_⟩
  have := meas_gen (rest := rest) (rest' := rest) hw hv h1 h2
  have e : inb N s' = inb N s := by unfold inb; rw [h4]
  rw [h3] at this; omega

theorem serAll_det {body : σ → Act σ V} {xs : List σ} {us vs : List V} (h : SerAll body xs us) (h' : SerAll body xs vs) : us = vs := by
  induction h generalizing vs with
  | nil => exact (serAll_nil h').symm
  | snoc _ hx ih =>
    obtain ⟨us', v', rfl, g1, g2⟩ := serAll_snoc h'
    rw [ih g1, hx.det g2]

/-- A join is passed. -/
theorem pass {body : σ → Act σ V} {N : Nat} {s s' : State σ V} {rest : Nat → Nat} {w f : Nat} {k : List V → σ} {vs : List V}
    (ht : TInv body s rest) (hv : InvVal body s) (hnf : f < s.nf) (ha : Alive (s.loc f)) (hc : calls s f = none)
    (hb : body (s.fr f).st = .join k) (hr : results (s.fr f).slots = some vs) (hw : w < N)
    (h1 : s'.pc = upd s.pc w (.run f)) (h2 : s'.q = s.q) (h3 : s'.nf = s.nf) (h4 : s'.inbox = s.inbox)
    (h5 : s'.loc = upd s.loc f (.running w)) (h6 : s'.init = s.init) (h7 : ∀ g, g ≠ f → s'.fr g = s.fr g)
    (h8 : (s'.fr f).st = k vs) (h9 : (s'.fr f).inits = []) :
    ∃ rest', TInv body s' rest' ∧ meas N s' rest' + 1 ≤ meas N s rest := by
  obtain ⟨us, v, n1, n2⟩ := ht.need f ha
  rw [hc] at n2
  have e : us = vs := serAll_det n1 (serAll_results hv ha hr)
  subst e
  obtain ⟨j, n3, n4⟩ := n2.join_inv hb
  refine ⟨upd rest f j, tinv_of ht fun g => ?_, ?_⟩
  · by_cases e : g = f
    · subst e
      refine Or.inr (Or.inl ⟨by rw [h5, upd_same]; trivial, [], v, by rw [h9]; exact .nil, ?_⟩)
      have : calls s' g = none := by simp [calls, h5, upd_same]
      rw [this, h8, upd_same]; exact n3
    · refine Or.inl ⟨by rw [h5, upd_ne _ _ e], by rw [h7 g e], by rw [h7 g e], fun _ => ?_, upd_ne _ _ e⟩
      simp only [calls, h5, upd_ne _ _ e, h6]
  · have := meas_gen (rest := rest) (rest' := upd rest f j) hw hw h1 (h2.trans (upd_self s.q w).symm)
    have e : inb N s' = inb N s := by unfold inb; rw [h4]
    have e2 := sumTo_upd (g := rest) j hnf
    rw [h3] at this
    simp only [pw] at this
    omega

theorem cost_step {body : σ → Act σ V} {pend : σ → Nat} {N : Nat} {s s' : State σ V} {rest : Nat → Nat}
    (h : Inv body pend s) (hf : Few s) (ht : TInv body s rest) (hB : Bnd N s) (hB' : Bnd N s') (st : Step body (fun _ => False) s s') :
    ∃ rest', TInv body s' rest' ∧ meas N s' rest' + 1 ≤ meas N s rest := by
  have hl := h.link
  have hv := h.val
  have hst := h.st
  have hw := hw_of h.loc hl h.count hf
  obtain ⟨fresh, run, sto, win, fin, queue, inb', qnd, ind⟩ := h.loc
  have e0 : s.loc s.nf = .unborn := (fresh _).2 (Nat.le_refl _)
  have old : ∀ f, s.loc f ≠ .unborn → f < s.nf := fun f hx => by
    have := (fresh f).2
    by_cases e : s.nf ≤ f
    · exact absurd (this e) hx
    · omega
  have kidA : ∀ w p c, (s.pc w = .finPop p c ∨ ∃ b, s.pc w = .finDec p c b) → Alive (s.loc p) ∧ s.loc c = .finishing w := by
    intro w p c hpc
    have e1 : s.loc c = .finishing w := (fin w c).2 ⟨p, hpc⟩
    rcases hpc with e | ⟨b, e⟩
    · exact ⟨hl.kid c p (hl.flink w p c e) (by simp [e1]) (by simp [e1]), e1⟩
    · exact ⟨hl.kid c p (hl.flink' w p c b e) (by simp [e1]) (by simp [e1]), e1⟩
  cases st with
  | fork w f c k h1 h2 =>
    have e1 : s.loc f = .running w := (run w f).2 (Or.inl h1)
    have hwN : w < N := hB.lt (by simp [h1])
    have hfn : f < s.nf := old f (by simp [e1])
    have hne : f ≠ s.nf := by omega
    obtain ⟨us, v, n1, n2⟩ := ht.need f (by simp [e1, Alive])
    have hc : calls s f = none := by simp [calls, e1]
    rw [hc] at n2
    obtain ⟨y, m, j, n3, n4, n5⟩ := n2.fork_inv h2
    refine ⟨upd (upd rest f j) s.nf m, tinv_of ht fun g => ?_, ?_⟩
    · by_cases e : g = s.nf
      · subst e
        refine Or.inr (Or.inl ⟨by simp [doFork, upd_same, Alive], [], y, ?_, ?_⟩)
        · simpa [doFork, newFrame, upd_same, upd_ne _ _ (Ne.symm hne)] using .nil
        · simpa [calls, doFork, newFrame, upd_same, upd_ne _ _ (Ne.symm hne)] using n3
      · by_cases e' : g = f
        · subst e'
          refine Or.inr (Or.inl ⟨by simp [doFork, upd_same, upd_ne _ _ hne, Alive], us ++ [y], v, ?_, ?_⟩)
          · simpa [doFork, upd_same] using .snoc n1 n3.ser
          · simpa [calls, doFork, upd_same, upd_ne _ _ hne] using n4
        · refine Or.inl ⟨?_, ?_, ?_, fun hga => ?_, ?_⟩
          · simp [doFork, upd_ne _ _ e, upd_ne _ _ e']
          · simp [doFork, newFrame, upd_ne _ _ e, upd_ne _ _ e']
          · simp [doFork, newFrame, upd_ne _ _ e, upd_ne _ _ e']
          · simp only [calls, doFork, newFrame, upd_ne _ _ e, upd_ne _ _ e']
            split
            · rename_i x hx
              have := hst.cb g x hx
              rw [upd_ne _ _ (by omega)]
            · rfl
          · rw [upd_ne _ _ e, upd_ne _ _ e']
    · have m1 := meas_gen (rest := rest) (rest' := upd (upd rest f j) s.nf m) (s := s) (s' := doFork s w f c k) (p' := .run s.nf) hwN hwN
        rfl rfl
      have m3 := sumTo_upd (g := rest) j hfn
      have m4 : sumTo (upd (upd rest f j) s.nf m) (doFork s w f c k).nf = sumTo (upd rest f j) s.nf + m := by
        show sumTo _ (s.nf + 1) = _
        rw [sumTo, sumTo_out (Nat.le_refl _), upd_same]
      have m5 : inb N (doFork s w f c k) = inb N s := rfl
      rw [h1] at m1
      simp only [pw, List.length_cons] at m1
      omega
  | call w f c k h1 h2 =>
    have e1 : s.loc f = .running w := (run w f).2 (Or.inl h1)
    have hwN : w < N := hB.lt (by simp [h1])
    have hfn : f < s.nf := old f (by simp [e1])
    have hne : f ≠ s.nf := by omega
    obtain ⟨us, v, n1, n2⟩ := ht.need f (by simp [e1, Alive])
    have hc : calls s f = none := by simp [calls, e1]
    rw [hc] at n2
    obtain ⟨y, m, j, n3, n4, n5⟩ := n2.call_inv h2
    refine ⟨upd (upd rest f j) s.nf m, tinv_of ht fun g => ?_, ?_⟩
    · by_cases e : g = s.nf
      · subst e
        refine Or.inr (Or.inl ⟨by simp [doCall, upd_same, Alive], [], y, ?_, ?_⟩)
        · simpa [doCall, newFrame, upd_same] using .nil
        · simpa [calls, doCall, newFrame, upd_same] using n3
      · by_cases e' : g = f
        · subst e'
          refine Or.inr (Or.inl ⟨by simp [doCall, upd_same, upd_ne _ _ hne, Alive], us, v, ?_, ?_⟩)
          · simpa [doCall, newFrame, upd_ne _ _ e] using n1
          · have : calls (doCall s w g c) g = some c := by simp [calls, doCall, newFrame, upd_same, upd_ne _ _ hne]
            rw [this, upd_ne _ _ hne, upd_same]
            refine ⟨k, y, ?_, n3.ser, n4⟩
            simpa [doCall, newFrame, upd_ne _ _ e] using h2
        · refine Or.inl ⟨?_, ?_, ?_, fun hga => ?_, ?_⟩
          · simp [doCall, upd_ne _ _ e, upd_ne _ _ e']
          · simp [doCall, newFrame, upd_ne _ _ e]
          · simp [doCall, newFrame, upd_ne _ _ e]
          · simp only [calls, doCall, newFrame, upd_ne _ _ e, upd_ne _ _ e']
            split
            · rename_i x hx
              have := hst.cb g x hx
              rw [upd_ne _ _ (by omega)]
            · rfl
          · rw [upd_ne _ _ e, upd_ne _ _ e']
    · have m1 := meas_gen (rest := rest) (rest' := upd (upd rest f j) s.nf m) (s := s) (s' := doCall s w f c) (p' := .run s.nf) hwN hwN
        rfl (upd_self s.q w).symm
      have m3 := sumTo_upd (g := rest) j hfn
      have m4 : sumTo (upd (upd rest f j) s.nf m) (doCall s w f c).nf = sumTo (upd rest f j) s.nf + m := by
        show sumTo _ (s.nf + 1) = _
        rw [sumTo, sumTo_out (Nat.le_refl _), upd_same]
      have m5 : inb N (doCall s w f c) = inb N s := rfl
      rw [h1] at m1
      simp only [pw] at m1
      omega
  | joinNow w f k vs h1 h2 h3 h4 h5 h6 =>
    have e1 : s.loc f = .running w := (run w f).2 (Or.inl h1)
    exact pass ht hv (old f (by simp [e1])) (by simp [e1, Alive]) (by simp [calls, e1]) h2 h6 (hB.lt (by simp [h1])) rfl rfl rfl rfl rfl rfl
      (fun g hg => upd_ne _ _ hg) (by simp [passed, upd_same]) (by simp [passed, upd_same])
  | joinWait w f k h1 h2 h3 =>
    refine move ht (hB.lt (by simp [h1])) (hB.lt (by simp [h1])) rfl (upd_self s.q w).symm rfl rfl (by rw [h1]; show (_ : Nat) + _ + _ ≤ _; simp only [pw]; omega) fun g => ⟨.rfl, rfl, rfl, fun _ => rfl⟩
  | loadWin w f h1 h2 =>
    have e1 : s.loc f = .running w := (run w f).2 (Or.inr (Or.inl h1))
    refine move ht (hB.lt (by simp [h1])) (hB.lt (by simp [h1])) rfl (upd_self s.q w).symm rfl rfl (by rw [h1]; show (_ : Nat) + _ + _ ≤ _; simp only [pw]; omega) fun g => ⟨?_, rfl, rfl, fun _ => ?_⟩ <;>
      simp only [calls, upd_apply] <;> grind [Alive]
  | loadLose w f h1 =>
    refine move ht (hB.lt (by simp [h1])) (hB.lt (by simp [h1])) rfl (upd_self s.q w).symm rfl rfl (by rw [h1]; show (_ : Nat) + _ + _ ≤ _; simp only [pw]; omega) fun g => ⟨.rfl, rfl, rfl, fun _ => rfl⟩
  | subWin w f h1 h2 =>
    have e1 : s.loc f = .running w := (run w f).2 (Or.inr (Or.inr h1))
    refine move ht (hB.lt (by simp [h1])) (hB.lt (by simp [h1])) rfl (upd_self s.q w).symm rfl rfl (by rw [h1]; show (_ : Nat) + _ + _ ≤ _; simp only [pw]; omega) fun g => ⟨?_, ?_, ?_, fun _ => ?_⟩ <;>
      simp only [calls, upd_apply] <;> grind [Alive]
  | subLose w f h1 h2 =>
    have e1 : s.loc f = .running w := (run w f).2 (Or.inr (Or.inr h1))
    refine move ht (hB.lt (by simp [h1])) (hB.lt (by simp [h1])) rfl (upd_self s.q w).symm rfl rfl (by rw [h1]; show (_ : Nat) + _ + _ ≤ _; simp only [pw]; omega) fun g => ⟨?_, ?_, ?_, fun _ => ?_⟩ <;>
      simp only [calls, upd_apply] <;> grind [Alive]
  | joinTake w f k vs h1 h2 h3 h4 h5 h6 =>
    have e1 : s.loc f = .winning w := (win w f).2 (Or.inl h1)
    exact pass ht hv (old f (by simp [e1])) (by simp [e1, Alive]) (by simp [calls, e1]) h2 h6 (hB.lt (by simp [h1])) rfl rfl rfl rfl rfl rfl
      (fun g hg => by simp [passed, upd_ne _ _ hg]) (by simp [passed, upd_same]) (by simp [passed, upd_same])
  | retRoot w f v h1 h2 h3 =>
    have e1 : s.loc f = .running w := (run w f).2 (Or.inl h1)
    have hwN : w < N := hB.lt (by simp [h1])
    obtain ⟨us, v', n1, n2⟩ := ht.need f (by simp [e1, Alive])
    have hc : calls s f = none := by simp [calls, e1]
    rw [hc] at n2
    obtain ⟨_, n4⟩ := n2.ret_inv h2
    refine ⟨upd rest f 0, tinv_of ht fun g => ?_, ?_⟩
    · by_cases e : g = f
      · subst e
        exact Or.inr (Or.inr ⟨by simp [upd_same, Alive], upd_same ..⟩)
      · refine Or.inl ⟨by simp [upd_ne _ _ e], by simp [destroyed], by simp [destroyed], fun _ => ?_, upd_ne _ _ e⟩
        simp only [calls, upd_ne _ _ e, destroyed]
    · have m1 := meas_gen (rest := rest) (rest' := upd rest f 0) (s := s) (p' := .idle)
        (s' := { destroyed s w with pc := upd s.pc w .idle, loc := upd s.loc f .gone, log := .done f v :: s.log }) hwN hwN rfl
          (upd_self s.q w).symm
      have m3 := sumTo_upd (g := rest) 0 (old f (by simp [e1]))
      simp only [destroyed, inb] at m1 ⊢
      rw [h1] at m1
      simp only [pw] at m1
      omega
  | retCall w f p v c k h1 h2 h3 h4 h5 h6 =>
    have e1 : s.loc f = .running w := (run w f).2 (Or.inl h1)
    have hwN : w < N := hB.lt (by simp [h1])
    have ha : Alive (s.loc f) := by simp [e1, Alive]
    have e2 : s.loc p = .callwait f := (hl.callw p f).2 ⟨h4, ha⟩
    have e3 : p < f := hl.olderC f p (old f (by simp [e1])) h4
    have e4 : p ≠ f := by omega
    obtain ⟨us, v', n1, n2⟩ := ht.need f ha
    have hc : calls s f = none := by simp [calls, e1]
    rw [hc] at n2
    obtain ⟨n5, n4⟩ := n2.ret_inv h2
    have hser : Ser body (s.init f) [] v := hv.val f us v ha n1 (.ret h2)
    obtain ⟨ws, u, p1, p2⟩ := ht.need p (by simp [e2, Alive])
    have hcp : calls s p = some (s.init f) := by simp [calls, e2]
    rw [hcp] at p2
    obtain ⟨k', y, p3, p4, p5⟩ := p2
    rw [h6] at p3
    cases p3
    rw [p4.det hser] at p5
    refine ⟨upd rest f 0, tinv_of ht fun g => ?_, ?_⟩
    · by_cases e : g = f
      · subst e
        exact Or.inr (Or.inr ⟨by simp [upd_same, upd_ne _ _ (Ne.symm e4), Alive], upd_same ..⟩)
      · by_cases e' : g = p
        · subst e'
          refine Or.inr (Or.inl ⟨by simp [upd_same, Alive], ws, u, by simpa [upd_same] using p1, ?_⟩)
          simpa [calls, upd_same, upd_ne _ _ e4] using p5
        · refine Or.inl ⟨by simp [upd_ne _ _ e, upd_ne _ _ e'], by simp [upd_ne _ _ e'], by simp [upd_ne _ _ e'], fun _ => ?_, upd_ne _ _ e⟩
          simp only [calls, upd_ne _ _ e, upd_ne _ _ e', destroyed]
    · have m1 := meas_gen (rest := rest) (rest' := upd rest f 0) (s := s) (p' := .run p)
        (s' := { destroyed s w with
            fr := upd s.fr p { s.fr p with st := k v }
            pc := upd s.pc w (.run p)
            loc := upd (upd s.loc f .gone) p (.running w)
            log := .resume p w :: .done f v :: s.log }) hwN hwN rfl (upd_self s.q w).symm
      have m3 := sumTo_upd (g := rest) 0 (old f (by simp [e1]))
      simp only [destroyed, inb] at m1 ⊢
      rw [h1] at m1
      simp only [pw] at m1
      omega
  | retFork w f p i v h1 h2 h3 h4 =>
    have e1 : s.loc f = .running w := (run w f).2 (Or.inl h1)
    have hwN : w < N := hB.lt (by simp [h1])
    have e2 : Alive (s.loc p) := hl.kid f p (by rw [h4]; rfl) (by simp [e1]) (by simp [e1])
    have e3 : p < f := hl.olderF f p (old f (by simp [e1])) (by rw [h4]; rfl)
    obtain ⟨us, v', n1, n2⟩ := ht.need f (by simp [e1, Alive])
    have hc : calls s f = none := by simp [calls, e1]
    rw [hc] at n2
    obtain ⟨_, n4⟩ := n2.ret_inv h2
    refine ⟨upd rest f 0, tinv_of ht fun g => ?_, ?_⟩
    · by_cases e : g = f
      · subst e
        exact Or.inr (Or.inr ⟨by simp [upd_same, Alive], upd_same ..⟩)
      · refine Or.inl ⟨by simp [upd_ne _ _ e], ?_, ?_, fun _ => ?_, upd_ne _ _ e⟩
        · simp only [upd_apply]; split <;> simp_all
        · simp only [upd_apply]; split <;> simp_all
        · simp only [calls, upd_ne _ _ e, destroyed]
    · have m1 := meas_gen (rest := rest) (rest' := upd rest f 0) (s := s) (p' := .finPop p f)
        (s' := { destroyed s w with
            fr := upd s.fr p { s.fr p with slots := (s.fr p).slots.set i (some v) }
            pc := upd s.pc w (.finPop p f)
            loc := upd s.loc f (.finishing w)
            log := .done f v :: s.log }) hwN hwN rfl (upd_self s.q w).symm
      have m3 := sumTo_upd (g := rest) 0 (old f (by simp [e1]))
      simp only [destroyed, inb] at m1 ⊢
      rw [h1] at m1
      simp only [pw] at m1
      omega
  | popHit w p c c' r h1 h2 =>
    have hk := kidA w p c (Or.inl h1)
    have e2 : s.loc p = .queued w c' := (queue w p c').2 (by rw [h2]; exact List.mem_cons_self ..)
    refine move ht (hB.lt (by simp [h1])) (hB.lt (by simp [h1])) rfl rfl rfl rfl (by rw [h1, h2]; simp only [pw, List.length_cons]; omega) fun g => ⟨?_, ?_, ?_, fun _ => ?_⟩ <;>
      simp only [calls, report, upd_apply] <;> grind [Alive]
  | popMiss w p c h1 h2 =>
    refine move ht (hB.lt (by simp [h1])) (hB.lt (by simp [h1])) rfl (upd_self s.q w).symm rfl rfl (by rw [h1]; show (_ : Nat) + _ + _ ≤ _; simp only [pw]; omega) fun g => ⟨.rfl, rfl, rfl, fun _ => rfl⟩
  | decWin w p c same h1 h2 =>
    have hk := kidA w p c (Or.inr ⟨_, h1⟩)
    have := hw w p c same h1 h2
    refine move ht (hB.lt (by simp [h1])) (hB.lt (by simp [h1])) rfl (upd_self s.q w).symm rfl rfl (by rw [h1]; show (_ : Nat) + _ + _ ≤ _; simp only [pw]; omega) fun g => ⟨?_, ?_, ?_, fun _ => ?_⟩ <;>
      simp only [calls, report, upd_apply] <;> grind [Alive]
  | decLose w p c same h1 h2 =>
    have hk := kidA w p c (Or.inr ⟨_, h1⟩)
    refine move ht (hB.lt (by simp [h1])) (hB.lt (by simp [h1])) rfl (upd_self s.q w).symm rfl rfl (by rw [h1]; show (_ : Nat) + _ + _ ≤ _; simp only [pw]; omega) fun g => ⟨?_, ?_, ?_, fun _ => ?_⟩ <;>
      simp only [calls, report, upd_apply] <;> grind [Alive]
  | finWin w p same k vs h1 h2 h3 =>
    have e1 : s.loc p = .winning w := (win w p).2 (Or.inr ⟨_, h1⟩)
    exact pass ht hv (old p (by simp [e1])) (by simp [e1, Alive]) (by simp [calls, e1]) h2 h3 (hB.lt (by simp [h1])) rfl rfl rfl rfl rfl rfl
      (fun g hg => by simp [passed, upd_ne _ _ hg]) (by simp [passed, upd_same]) (by simp [passed, upd_same])
  | finLose w same h1 =>
    cases same <;>
    exact move ht (hB.lt (by simp [h1])) (hB.lt (by simp [h1])) rfl (upd_self s.q w).symm rfl rfl (by rw [h1]; show (_ : Nat) + _ + _ ≤ _; simp only [pw]; omega) fun g => ⟨.rfl, rfl, rfl, fun _ => rfl⟩
  | selfSteal w p c r h1 h2 =>
    have e2 : s.loc p = .queued w c := (queue w p c).2 (by rw [h2]; exact List.mem_cons_self ..)
    refine move ht (hB.lt (by simp [h1])) (hB.lt (by simp [h1])) rfl rfl rfl rfl (by rw [h1, h2]; simp only [pw, List.length_cons]; omega) fun g => ⟨?_, rfl, rfl, fun _ => ?_⟩ <;>
      simp only [calls, upd_apply] <;> grind [Alive]
  | selfNone w h1 h2 =>
    exact move ht (hB.lt (by simp [h1])) (hB.lt (by simp [h1])) rfl (upd_self s.q w).symm rfl rfl (by rw [h1]; show (_ : Nat) + _ + _ ≤ _; simp only [pw]; omega) fun g => ⟨.rfl, rfl, rfl, fun _ => rfl⟩
  | stole w p h1 =>
    have e1 : s.loc p = .stolenBy w := (sto w p).2 h1
    refine move ht (hB.lt (by simp [h1])) (hB.lt (by simp [h1])) rfl (upd_self s.q w).symm rfl rfl (by rw [h1]; show (_ : Nat) + _ + _ ≤ _; simp only [pw]; omega) fun g => ⟨?_, ?_, ?_, fun _ => ?_⟩ <;>
      simp only [calls, upd_apply] <;> grind [Alive]
  | switch w f d k z h1 h2 h3 h4 h5 =>
    have e1 : s.loc f = .running w := (run w f).2 (Or.inl h1)
    have hwN : w < N := hB.lt (by simp [h1])
    obtain ⟨us, v, n1, n2⟩ := ht.need f (by simp [e1, Alive])
    have hc : calls s f = none := by simp [calls, e1]
    rw [hc] at n2
    obtain ⟨j, n3, n4⟩ := n2.switch_inv h2
    refine ⟨upd rest f j, tinv_of ht fun g => ?_, ?_⟩
    · by_cases e : g = f
      · subst e
        refine Or.inr (Or.inl ⟨by simp [upd_same, Alive], us, v, by simpa [upd_same] using n1, ?_⟩)
        simpa [calls, upd_same] using n3
      · refine Or.inl ⟨by simp [upd_ne _ _ e], by simp [upd_ne _ _ e], by simp [upd_ne _ _ e], fun _ => ?_, upd_ne _ _ e⟩
        simp only [calls, upd_ne _ _ e]
    · have m1 := meas_gen (rest := rest) (rest' := upd rest f j) (s := s) (p' := .switchRel z)
        (s' := { s with
          fr := upd s.fr f { s.fr f with st := k }
          pc := upd s.pc w (.switchRel z)
          inbox := upd s.inbox d (s.inbox d ++ [f])
          loc := upd s.loc f (.inbox d)
          log := .suspend f (.switch d) :: s.log }) hwN hwN rfl (upd_self s.q w).symm
      have m2 := inb_upd (N := N) (s := s) (l := s.inbox d ++ [f]) (d := d)
        (s' := { s with
          fr := upd s.fr f { s.fr f with st := k }
          pc := upd s.pc w (.switchRel z)
          inbox := upd s.inbox d (s.inbox d ++ [f])
          loc := upd s.loc f (.inbox d)
          log := .suspend f (.switch d) :: s.log }) rfl (by simp)
      have m3 := sumTo_upd (g := rest) j (old f (by simp [e1]))
      rw [List.length_append, List.length_cons, List.length_nil] at m2
      dsimp only at m1 m2 ⊢
      rw [h1] at m1
      simp only [pw] at m1
      omega
  | switchRel w z h1 =>
    cases z <;>
    exact move ht (hB.lt (by simp [h1])) (hB.lt (by simp [h1])) rfl (upd_self s.q w).symm rfl rfl (by rw [h1]; show (_ : Nat) + _ + _ ≤ _; simp only [pw]; omega) fun g => ⟨.rfl, rfl, rfl, fun _ => rfl⟩
  | steal w v p c r h1 h2 h3 =>
    have e2 : s.loc p = .queued v c := (queue v p c).2 (by rw [h3]; simp)
    have hwN : w < N := hB'.lt (by simp [upd_same])
    refine move ht hwN (hB.ltq (by rw [h3]; simp)) rfl rfl rfl rfl (by rw [h1, h3]; simp only [pw, List.length_append, List.length_cons, List.length_nil]; omega) fun g => ⟨?_, rfl, rfl, fun _ => ?_⟩ <;>
      simp only [calls, upd_apply] <;> grind [Alive]
  | take w f r h1 h2 =>
    have e1 : s.loc f = .inbox w := (inb' w f).2 (by rw [h2]; exact List.mem_cons_self ..)
    have hwN : w < N := hB'.lt (by simp [upd_same])
    refine ⟨rest, tinv_of ht fun g => Or.inl ⟨?_, rfl, rfl, fun _ => ?_, rfl⟩, ?_⟩
    · simp only [upd_apply]; grind [Alive]
    · simp only [calls, upd_apply]; grind [Alive]
    · have m1 := meas_gen (s := s) (rest := rest) (rest' := rest) (p' := .run f)
        (s' := { s with
          inbox := upd s.inbox w r
          wk := if (s.fr f).steal = 0 then upd s.wk w (s.stk f) else s.wk
          pc := upd s.pc w (.run f)
          loc := upd s.loc f (.running w)
          log := .resume f w :: s.log }) hwN hwN rfl (upd_self s.q w).symm
      have m2 := inb_upd_eq (N := N) (s := s) (l := r) (d := w)
        (s' := { s with
          inbox := upd s.inbox w r
          wk := if (s.fr f).steal = 0 then upd s.wk w (s.stk f) else s.wk
          pc := upd s.pc w (.run f)
          loc := upd s.loc f (.running w)
          log := .resume f w :: s.log }) rfl hwN
      rw [h2, List.length_cons] at m2
      rw [h1] at m1
      simp only [pw] at m1
      omega
  | submit c w hp => exact hp.elim

end Verif.Runtime
