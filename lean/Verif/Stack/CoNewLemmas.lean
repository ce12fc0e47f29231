import Verif.Stack.Props
import Verif.Stack.CoNewModel

/-! Lemmas for C52. -/
namespace Verif.Stack.CoNew

/-! ### Traces -/

theorem replay_append (a b : List Ev) (L : List (Nat × Nat)) : replay (a ++ b) L = (replay a L).bind (replay b) := by
  induction a generalizing L with
  | nil => rfl
  | cons e es ih => cases e <;> simp only [List.cons_append, replay] <;> split <;> simp [ih]

/-- The elements, last first. -/
def elems (p sz : Nat) : Nat → List (Nat × Nat)
  | 0 => []
  | k + 1 => (p + k * sz, sz) :: elems p sz k

theorem elems_mem {p sz k : Nat} {x : Nat × Nat} (h : x ∈ elems p sz k) : p ≤ x.1 ∧ x.1 + x.2 ≤ p + k * sz ∧ x.2 = sz := by
  induction k with
  | zero => simp [elems] at h
  | succ k ih =>
    have e : (k + 1) * sz = k * sz + sz := Nat.succ_mul k sz
    rcases List.mem_cons.1 h with rfl | h
    · refine ⟨by simp, ?_, rfl⟩
      show p + k * sz + sz ≤ _
      omega
    · have := ih h
      exact ⟨this.1, by omega, this.2.2⟩

theorem elems_get {p sz k j : Nat} (h : j < k) : (p + j * sz, sz) ∈ elems p sz k := by
  induction k with
  | zero => omega
  | succ k ih =>
    by_cases e : j = k
    · subst e; simp [elems]
    · simp only [elems, List.mem_cons]; exact Or.inr (ih (by omega))

theorem replay_ctors {p sz k : Nat} {L : List (Nat × Nat)} (hL : ∀ y ∈ L, apart (p, k * sz) y = true) :
    replay (ctors p sz k) L = some (elems p sz k ++ L) := by
  induction k with
  | zero => rfl
  | succ k ih =>
    have e : (k + 1) * sz = k * sz + sz := Nat.succ_mul k sz
    have h1 : ∀ y ∈ L, apart (p, k * sz) y = true := by
      intro y hy
      have := hL y hy
      simp only [apart, Bool.or_eq_true, decide_eq_true_eq] at this ⊢
      omega
    rw [ctors, replay_append, ih h1]
    simp only [Option.bind_some, replay, elems]
    rw [if_pos]
    · rfl
    · rw [List.all_eq_true]
      intro y hy
      simp only [apart, Bool.or_eq_true, decide_eq_true_eq]
      rcases List.mem_append.1 hy with hy | hy
      · have := elems_mem hy; omega
      · have := hL y hy
        simp only [apart, Bool.or_eq_true, decide_eq_true_eq] at this
        omega

theorem elems_nodup {p sz : Nat} (hs : 0 < sz) (k : Nat) : (elems p sz k).Nodup := by
  induction k with
  | zero => simp [elems]
  | succ k ih =>
    simp only [elems, List.nodup_cons]
    refine ⟨fun h => ?_, ih⟩
    have := (elems_mem h).2.1
    simp only at this
    omega

/-- What is left of the elements after the first `j` are destroyed. -/
theorem replay_dtors {p sz k : Nat} (hs : 0 < sz) (L : List (Nat × Nat)) {j : Nat} (hj : j ≤ k) :
    ∃ M, replay (dtors p sz j) (elems p sz k ++ L) = some (M ++ L) ∧ M.Nodup ∧ M.length = k - j ∧
      ∀ q, j ≤ q → q < k → (p + q * sz, sz) ∈ M := by
  induction j with
  | zero =>
    refine ⟨_, rfl, elems_nodup hs k, ?_, fun q _ hq => elems_get hq⟩
    have : ∀ k, (elems p sz k).length = k := by
      intro k; induction k with
      | zero => rfl
      | succ k ih => simp [elems, ih]
    rw [this]; rfl
  | succ j ih =>
    obtain ⟨M, h1, h2, h3, h4⟩ := ih (by omega)
    have hm := h4 j (Nat.le_refl j) (by omega)
    refine ⟨M.erase (p + j * sz, sz), ?_, h2.erase _, ?_, ?_⟩
    · rw [dtors, replay_append, h1]
      simp only [Option.bind_some, replay]
      rw [if_pos (List.mem_append_left _ hm), List.erase_append_left _ hm]
    · rw [List.length_erase_of_mem hm, h3]; omega
    · intro q h5 h6
      refine (List.mem_erase_of_ne ?_).2 (h4 q (by omega) h6)
      intro e
      have e' : q * sz = j * sz := by
        have := congrArg Prod.fst e
        simp only at this
        omega
      have := Nat.mul_right_cancel hs e'
      omega

theorem replay_dtors_all {p sz k : Nat} (hs : 0 < sz) (L : List (Nat × Nat)) :
    replay (dtors p sz k) (elems p sz k ++ L) = some L := by
  obtain ⟨M, h1, _, h3, _⟩ := replay_dtors (p := p) (k := k) hs L (Nat.le_refl k)
  have : M = [] := List.eq_nil_of_length_eq_zero (by omega)
  rw [h1, this]; rfl

theorem built_append (a b : List Ev) : built (a ++ b) = built a + built b := by
  induction a with
  | nil => simp [built]
  | cons e es ih => cases e <;> simp only [List.cons_append, built, ih] <;> omega

theorem built_ctors (p sz k : Nat) : built (ctors p sz k) = k := by
  induction k with
  | zero => rfl
  | succ k ih => rw [ctors, built_append, ih]; rfl

theorem built_dtors (p sz k : Nat) : built (dtors p sz k) = 0 := by
  induction k with
  | zero => rfl
  | succ k ih => rw [dtors, built_append, ih]; rfl

/-! ### The stack -/

theorem Lifo.trans {i : Nat} {base : List (Nat × Nat)} {w w' w'' : World} (a : Lifo i base w w') (b : Lifo i base w' w'') :
    Lifo i base w w'' := by
  induction b with
  | refl => exact a
  | step m op _ h1 h2 h3 h4 h5 h6 ih => exact ih.step m op h1 h2 h3 h4 h5 h6
  | fail m op _ h1 h2 h3 ih => exact ih.fail m op h1 h2 h3

theorem Lifo.weaken {i : Nat} {base base' : List (Nat × Nat)} {w w' : World} (hb : base' <:+ base) (a : Lifo i base w w') :
    Lifo i base' w w' := by
  induction a with
  | refl => exact .refl _
  | step m op _ h1 h2 h3 h4 h5 h6 ih => exact ih.step m op h1 h2 h3 h4 h5 (hb.trans h6)
  | fail m op _ h1 h2 h3 ih => exact ih.fail m op h1 h2 h3

theorem Foreign.leaves {i : Nat} {op : Op} (h : Foreign i op) : Leaves i op := ⟨h.2.2.1, h.2.2.2.1, h.2.2.2.2⟩

theorem exec_foreign {m : Malloc} {op : Op} {i : Nat} {w w' : World} {o : Obj} (hf : Foreign i op) (ho : w.obj i = some o)
    (how : o.owned = true) (he : exec m op w = .ok w') : w'.obj i = some o := by
  obtain ⟨f1, f2, f3, f4, f5⟩ := hf
  cases op with
  | new j =>
    simp only [exec] at he
    cases hj : w.obj j with
    | some o' => rw [hj] at he; cases he
    | none =>
      have : i ≠ j := fun e => by rw [e, hj] at ho; cases ho
      rw [hj] at he
      cases hr : new m w.heap <;> rw [hr] at he <;> simp only [finish] at he <;> cases he
      simp [setObj, this, ho]
  | destroy j =>
    have : i ≠ j := fun e => f3 (by rw [e])
    simp only [exec] at he
    split at he
    · rename_i f _
      cases hr : destroy f w.heap <;> rw [hr] at he <;> simp only [finish] at he <;> cases he
      simp [setObj, this, ho]
    · cases he
  | alloc j n =>
    have : i ≠ j := fun e => f1 n (by rw [e])
    simp only [exec] at he
    split at he
    · rename_i f l _
      cases hr : allocate m f n w.heap <;> rw [hr] at he <;> simp only [finish] at he <;> cases he
      simp [setObj, this, ho]
    · cases he
  | dealloc j =>
    have : i ≠ j := fun e => f2 (by rw [e])
    simp only [exec] at he
    split at he
    · rename_i f p _ l _
      cases hr : deallocate f p w.heap <;> rw [hr] at he <;> simp only [finish] at he <;> cases he
      simp [setObj, this, ho]
    · cases he
  | release j k =>
    have : i ≠ j := fun e => f4 k (by rw [e])
    simp only [exec] at he
    split at he
    · rename_i f l _ hk
      have hik : i ≠ k := fun e => by rw [e, hk] at ho; cases ho
      cases hr : release m f w.heap <;> rw [hr] at he <;> simp only [finish] at he <;> cases he
      simp [setObj, this, hik, ho]
    · cases he
  | adopt j =>
    simp only [exec] at he
    split at he
    · rename_i f l hj
      have : i ≠ j := fun e => by rw [e, hj] at ho; cases ho; cases how
      cases hr : adopt f w.heap <;> rw [hr] at he <;> simp only [finish] at he <;> cases he
      simp [setObj, this, ho]
    · cases he
  | swap j k =>
    have h1 : i ≠ j := fun e => (f5 k).1 (by rw [e])
    have h2 : i ≠ k := fun e => (f5 j).2 (by rw [e])
    simp only [exec] at he
    split at he
    · cases he
      simp [setObj, h1, h2, ho]
    · cases he

/-- What the theorems assume of the rest of the program. -/
structure OracleOk (O : Oracle) (i : Nat) : Prop where
  m : ∀ n, GoodMalloc (O.m n)
  env : ∀ n x, x ∈ O.env n → GoodMalloc x.1 ∧ SizeOk x.2 ∧ Foreign i x.2

theorem envRun_ok {i : Nat} {l : List (Malloc × Op)} (hl : ∀ x ∈ l, GoodMalloc x.1 ∧ SizeOk x.2 ∧ Foreign i x.2)
    {w : World} (hw : Reach w) {o : Obj} (ho : w.obj i = some o) (how : o.owned = true) :
    ∃ w', envRun l w = some w' ∧ Reach w' ∧ w'.obj i = some o ∧ Lifo i o.live w w' := by
  induction l generalizing w with
  | nil => exact ⟨w, rfl, hw, ho, .refl _⟩
  | cons x l ih =>
    obtain ⟨m, op⟩ := x
    obtain ⟨hm, hs, hf⟩ := hl (m, op) List.mem_cons_self
    have hl' := fun x hx => hl x (List.mem_cons_of_mem _ hx)
    simp only [envRun]
    cases he : exec m op w with
    | ok w1 =>
      have h1 := exec_foreign hf ho how he
      obtain ⟨w', a, b, c, d⟩ := ih hl' (hw.step m op hm hs he) h1
      exact ⟨w', a, b, c, Lifo.trans ((Lifo.refl _).step m op hm hs hf.leaves he h1 (List.suffix_refl _)) d⟩
    | badAlloc w1 =>
      have h1 := bad_alloc_unchanged hw hm hs he
      subst h1
      exact ih hl' hw ho
    | misuse => exact ih hl' hw ho
    | ub => exact absurd he (no_ub hw hm hs)

/-- What one operation leaves as it was. -/
structure Keep (s s' : St) : Prop where
  slet : s'.slet = s.slet
  log : s'.log = s.log

theorem alloc_case {O : Oracle} {i : Nat} (hO : OracleOk O i) {s : St} (hw : Reach s.w) {f : Nat} {live : List (Nat × Nat)}
    (ho : s.w.obj i = some ⟨f, true, live⟩) {size : Nat} (hs : size ≤ maxSize) (k : Nat → St → Out) :
    (∃ s', alloc O i size s k = .thrown s' ∧ Reach s'.w ∧ s'.w.obj i = some ⟨f, true, live⟩ ∧ Lifo i live s.w s'.w ∧ Keep s s') ∨
    (∃ p f' s', alloc O i size s k = k p s' ∧ Reach s'.w ∧ s'.w.obj i = some ⟨f', true, (p, size) :: live⟩ ∧
      Lifo i live s.w s'.w ∧ Keep s s') := by
  obtain ⟨w1, e1, hr1, ho1, hl1⟩ := envRun_ok (hO.env s.tick) hw ho rfl
  simp only [alloc, e1]
  have hS : SizeOk (.alloc i size) := hs
  cases he : exec (O.m s.tick) (.alloc i size) w1 with
  | ok w2 =>
    have : ∃ p f', w2.obj i = some ⟨f', true, (p, size) :: live⟩ := by
      simp only [exec, ho1] at he
      cases hr : allocate (O.m s.tick) f size w1.heap <;> rw [hr] at he <;> simp only [finish] at he <;> cases he
      exact ⟨_, _, by simp [setObj]; exact ⟨rfl, rfl⟩⟩
    obtain ⟨p, f', h2⟩ := this
    refine Or.inr ⟨p, f', { s with w := w2, tick := s.tick + 1 }, ?_, hr1.step _ _ (hO.m _) hS he, h2, ?_, ⟨rfl, rfl⟩⟩
    · simp only [lastPtr, h2]
    · exact hl1.step _ _ (hO.m _) hS ⟨by simp, by simp, by simp⟩ he h2 ⟨[(p, size)], rfl⟩
  | badAlloc w2 =>
    have h2 := bad_alloc_unchanged hr1 (hO.m _) hS he
    subst h2
    exact Or.inl ⟨_, rfl, hr1, ho1, hl1, ⟨rfl, rfl⟩⟩
  | ub => exact absurd he (no_ub hr1 (hO.m _) hS)
  | misuse =>
    simp only [exec, ho1] at he
    cases hr : allocate (O.m s.tick) f size w1.heap <;> rw [hr] at he <;> simp only [finish] at he <;> cases he

theorem dealloc_case {O : Oracle} {i : Nat} (hO : OracleOk O i) {s : St} (hw : Reach s.w) {f p n : Nat} {live : List (Nat × Nat)}
    (ho : s.w.obj i = some ⟨f, true, (p, n) :: live⟩) (k : St → Out) :
    ∃ f' s', dealloc O i p s k = k s' ∧ Reach s'.w ∧ s'.w.obj i = some ⟨f', true, live⟩ ∧
      Lifo i live s.w s'.w ∧ Keep s s' := by
  obtain ⟨w1, e1, hr1, ho1, hl1⟩ := envRun_ok (hO.env s.tick) hw ho rfl
  obtain ⟨w2, f', h1, h2⟩ := dealloc_ok hr1 (O.m s.tick) ho1
  simp only [dealloc, e1]
  have hp : lastPtr i w1 = p := by simp only [lastPtr, ho1]
  rw [if_pos hp, h1]
  have hS : SizeOk (.dealloc i) := trivial
  refine ⟨f', { s with w := w2, tick := s.tick + 1 }, rfl, hr1.step _ _ (hO.m _) hS h1, h2, ?_, ⟨rfl, rfl⟩⟩
  exact (Lifo.weaken (List.suffix_cons _ _) hl1).step _ _ (hO.m _) hS ⟨by simp, by simp, by simp⟩ h1 h2 (List.suffix_refl _)

/-- The objects `L` are in the allocations `live`. -/
def Inside (L live : List (Nat × Nat)) : Prop := ∀ x ∈ L, ∃ y ∈ live, y.1 ≤ x.1 ∧ x.1 + x.2 ≤ y.1 + y.2

/-- A new allocation is apart from all objects in the old ones. -/
theorem fresh_apart {w : World} (hw : Reach w) {i f p n : Nat} {live : List (Nat × Nat)}
    (ho : w.obj i = some ⟨f, true, (p, n) :: live⟩) {L : List (Nat × Nat)} (hL : Inside L live) {m : Nat} (hm : m ≤ n) :
    ∀ y ∈ L, apart (p, m) y = true := by
  intro y hy
  obtain ⟨z, hz, h1, h2⟩ := hL y hy
  obtain ⟨k, hk, rfl⟩ := List.getElem_of_mem hz
  have := allocs_disjoint hw ho ho 0 (k + 1) (by simp) (by simpa using hk) (by omega)
  simp only [List.getElem_cons_zero, List.getElem_cons_succ, Disj] at this
  simp only [apart, Bool.or_eq_true, decide_eq_true_eq]
  omega

end Verif.Stack.CoNew
