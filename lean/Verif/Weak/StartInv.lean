import Verif.Weak.StartModel
import Verif.Weak.Wf

/-! C50: invariants. -/
namespace Verif.Weak.Start
open Verif.EventCount (num num_change num_lt num_congr num_le)

theorem upd_same {α : Type} (f : Nat → α) (i : Nat) (x : α) : upd f i x i = x := by simp [upd]
theorem upd_ne {α : Type} (f : Nat → α) {i j : Nat} (x : α) (h : j ≠ i) : upd f i x j = f j := by simp [upd, h]

/-- How far a worker is. -/
def ph : WPc → Nat
  | .unborn => 0 | .init => 1 | .arrive => 2 | .wait => 3 | .loop => 4 | .drain => 5 | .leave => 6 | .arrive2 => 7 | .wait2 => 8
  | .fin => 9 | .done => 10

/-- How far the owner is. -/
def mph : MPc → Nat
  | .spawn _ => 0 | .arrive => 1 | .wait => 2 | .read _ => 3 | .up => 4 | .join _ => 5 | .gone => 6

/-- The number of workers that are at least at `n`. -/
def cnt (N n : Nat) (w : Nat → WPc) : Nat := num N fun i => decide (n ≤ ph (w i))

theorem cnt_all {N n : Nat} {w : Nat → WPc} (h : N ≤ cnt N n w) {i : Nat} (hi : i < N) : n ≤ ph (w i) := by
  by_cases e : n ≤ ph (w i)
  · exact e
  · have := num_lt (N := N) (f := fun i => decide (n ≤ ph (w i))) hi (by simpa using e)
    unfold cnt at h; omega

theorem cnt_upd {N n : Nat} {w : Nat → WPc} {i : Nat} {p : WPc} (hi : i < N) :
    cnt N n (upd w i p) + (if n ≤ ph (w i) then 1 else 0) = cnt N n w + (if n ≤ ph p then 1 else 0) := by
  have := num_change (N := N) (t := i) (f := fun i => decide (n ≤ ph (w i))) (g := fun j => decide (n ≤ ph (upd w i p j))) hi
    (fun u hu => by rw [upd_ne _ _ hu])
  simp only [upd_same, decide_eq_true_eq] at this
  exact this

theorem cnt_same {N n : Nat} {w : Nat → WPc} {i : Nat} {p : WPc} (hi : i < N) (h : n ≤ ph (w i) ↔ n ≤ ph p) :
    cnt N n (upd w i p) = cnt N n w := by
  have := cnt_upd (n := n) (w := w) (p := p) hi
  by_cases e : n ≤ ph p
  · rw [if_pos e, if_pos (h.2 e)] at this; omega
  · rw [if_neg e, if_neg (fun x => e (h.1 x))] at this; omega

/-- What is known without looking at views. -/
structure IA (N : Nat) (s : St) : Prop where
  sv : ∀ k, k < s.mem.len .start → s.mem.val .start k = (N : Int) + 1 - k
  sl : s.mem.len .start = 1 + cnt N 3 s.wpc + (if 2 ≤ mph s.mpc then 1 else 0)
  tv : ∀ k, k < s.mem.len .stopL → s.mem.val .stopL k = (N : Int) - k
  tl : s.mem.len .stopL = 1 + cnt N 8 s.wpc
  fv : s.mem.val .flag 0 = 0
  fl : 0 < s.mem.len .flag
  fm : 1 < s.mem.len .flag → 5 ≤ mph s.mpc
  sp : ∀ k, s.mpc = .spawn k → k ≤ N ∧ ∀ i, k ≤ i → s.wpc i = .unborn
  born : mph s.mpc ≠ 0 → ∀ i, i < N → s.wpc i ≠ .unborn
  past : ∀ i, i < N → 4 ≤ ph (s.wpc i) → N + 2 ≤ s.mem.len .start
  mpast : 3 ≤ mph s.mpc → N + 2 ≤ s.mem.len .start
  seen : ∀ i, i < N → 5 ≤ ph (s.wpc i) → 1 < s.mem.len .flag
  past2 : ∀ i, i < N → 9 ≤ ph (s.wpc i) → N + 1 ≤ s.mem.len .stopL
  cl : ∀ i, i < N → s.mem.len (.ctx i) = if ph (s.wpc i) < 2 then 1 else if ph (s.wpc i) < 10 then 2 else 3
  cv : ∀ i, i < N → 2 ≤ ph (s.wpc i) → s.mem.val (.ctx i) 1 = (i : Int) + 1

theorem IA.init (N : Nat) : IA N (.init N) := by
  have h0 : ∀ n, 0 < n → cnt N n (fun _ => WPc.unborn) = 0 := fun n hn =>
    Verif.EventCount.num_zero.2 fun t _ => by simp [ph]; omega
  constructor <;> simp [St.init, Mem.init, h0, mph, ph]

/-- Nothing of interest to `IA` has changed. -/
theorem IA.congr {N : Nat} {s s' : St} (h : IA N s) (h1 : ∀ l, (∀ t i, l ≠ .rd t i) → s'.mem.len l = s.mem.len l ∧ s'.mem.val l = s.mem.val l)
    (h2 : s'.wpc = s.wpc) (h3 : mph s'.mpc = mph s.mpc) (h4 : ∀ k, s'.mpc = .spawn k → s.mpc = .spawn k) : IA N s' := by
  obtain ⟨a1, a2, a3, a4, a5, a6, a7, a8, a9, b1, b2, b3, b4, b5, b6⟩ := h
  have e1 := h1 .start (by simp); have e2 := h1 .stopL (by simp); have e3 := h1 .flag (by simp)
  have e4 := fun i => h1 (.ctx i) (by simp)
  constructor
  all_goals simp only [e1.1, e1.2, e2.1, e2.2, e3.1, e3.2, fun i => (e4 i).1, fun i => (e4 i).2, h2, h3]
  all_goals first | assumption | exact fun k hk => a8 k (h4 k hk)

theorem ph_ne {p : WPc} (h : 1 ≤ ph p) : p ≠ .unborn := by rintro rfl; simp [ph] at h

/-- Worker `i` makes a step. -/
theorem IA.worker {N : Nat} {s s' : St} {i : Nat} {p : WPc} (h : IA N s) (hi : i < N) (h0 : 1 ≤ ph (s.wpc i))
    (hp : ph p = ph (s.wpc i) + 1) (hw : s'.wpc = upd s.wpc i p) (hm : s'.mpc = s.mpc)
    (m1 : s'.mem.len .start = s.mem.len .start + (if ph p = 3 then 1 else 0))
    (m2 : s'.mem.len .stopL = s.mem.len .stopL + (if ph p = 8 then 1 else 0))
    (m3 : s.mem.len .flag ≤ s'.mem.len .flag) (m4 : s'.mem.val .flag 0 = s.mem.val .flag 0)
    (m5 : 1 < s'.mem.len .flag → 1 < s.mem.len .flag)
    (m6 : ∀ j, s'.mem.len (.ctx j) = s.mem.len (.ctx j) + (if j = i ∧ (ph p = 2 ∨ ph p = 10) then 1 else 0))
    (v1 : ∀ k, k < s'.mem.len .start → s'.mem.val .start k = (N : Int) + 1 - k)
    (v2 : ∀ k, k < s'.mem.len .stopL → s'.mem.val .stopL k = (N : Int) - k)
    (v3 : ∀ j, j < N → (2 ≤ ph (s.wpc j) ∨ j = i ∧ ph p = 2) → s'.mem.val (.ctx j) 1 = (j : Int) + 1)
    (g1 : ph p = 4 → N + 2 ≤ s.mem.len .start) (g2 : ph p = 5 → 1 < s.mem.len .flag) (g3 : ph p = 9 → N + 1 ≤ s.mem.len .stopL) :
    IA N s' := by
  have c3 := cnt_upd (n := 3) (w := s.wpc) (p := p) hi
  have c8 := cnt_upd (n := 8) (w := s.wpc) (p := p) hi
  have hs : ∀ j, ph (upd s.wpc i p j) = if j = i then ph p else ph (s.wpc j) := fun j => by
    by_cases e : j = i
    · subst e; rw [upd_same, if_pos rfl]
    · rw [upd_ne _ _ e, if_neg e]
  refine ⟨v1, ?_, v2, ?_, m4.trans h.fv, Nat.lt_of_lt_of_le h.fl m3, fun e => ?_, fun k hk => ?_, fun e j hj => ?_, fun j hj e => ?_,
    fun e => ?_, fun j hj e => ?_, fun j hj e => ?_, fun j hj => ?_, fun j hj e => ?_⟩
  · rw [m1, h.sl, hw, hm]; split at c3 <;> split at c3 <;> split <;> split <;> omega
  · rw [m2, h.tl, hw]; split at c8 <;> split at c8 <;> split <;> omega
  · rw [hm]; exact h.fm (m5 e)
  · rw [hm] at hk
    obtain ⟨q1, q2⟩ := h.sp k hk
    refine ⟨q1, fun j hj => ?_⟩
    by_cases e : j = i
    · subst e; rw [q2 _ hj] at h0; simp [ph] at h0
    · rw [hw, upd_ne _ _ e]; exact q2 j hj
  · rw [hm] at e
    apply ph_ne
    by_cases ej : j = i
    · subst ej; rw [hw, upd_same]; omega
    · rw [hw, upd_ne _ _ ej]
      have := h.born e j hj
      cases hh : s.wpc j <;> simp_all [ph]
  · rw [hw, hs] at e
    by_cases ej : j = i
    · subst ej; rw [if_pos rfl] at e
      have : N + 2 ≤ s.mem.len .start := by
        by_cases h4 : ph p = 4
        · exact g1 h4
        · exact h.past j hj (by omega)
      omega
    · rw [if_neg ej] at e; have := h.past j hj e; omega
  · rw [hm] at e; have := h.mpast e; omega
  · rw [hw, hs] at e
    by_cases ej : j = i
    · subst ej; rw [if_pos rfl] at e
      have : 1 < s.mem.len .flag := by
        by_cases h4 : ph p = 5
        · exact g2 h4
        · exact h.seen j hj (by omega)
      omega
    · rw [if_neg ej] at e; have := h.seen j hj e; omega
  · rw [hw, hs] at e
    by_cases ej : j = i
    · subst ej; rw [if_pos rfl] at e
      have : N + 1 ≤ s.mem.len .stopL := by
        by_cases h4 : ph p = 9
        · exact g3 h4
        · exact h.past2 j hj (by omega)
      omega
    · rw [if_neg ej] at e; have := h.past2 j hj e; omega
  · have := h.cl j hj
    rw [m6, hw, hs, this]
    by_cases ej : j = i
    · subst ej; simp only [true_and, if_true]
      have : ph p ≤ 10 := by cases p <;> simp [ph]
      repeat' split
      all_goals omega
    · simp only [ej, false_and, if_false, Nat.add_zero]
  · apply v3 j hj
    rw [hw, hs] at e
    by_cases ej : j = i
    · subst ej; rw [if_pos rfl] at e
      by_cases h2 : ph p = 2
      · exact .inr ⟨rfl, h2⟩
      · left; omega
    · rw [if_neg ej] at e; exact .inl e

/-- The owner makes a step. -/
theorem IA.owner {N : Nat} {s s' : St} (h : IA N s) (hw : s'.wpc = s.wpc) (hm0 : mph s.mpc ≤ mph s'.mpc) (hm : 1 ≤ mph s'.mpc)
    (hb : mph s.mpc = 0 → s.mpc = .spawn N ∧ mph s'.mpc = 1 ∧ ∀ i, i < N → s.wpc i ≠ .unborn)
    (m1 : s'.mem.len .start = s.mem.len .start + (if mph s.mpc < 2 ∧ 2 ≤ mph s'.mpc then 1 else 0))
    (m2 : s'.mem.len .stopL = s.mem.len .stopL) (m3 : s.mem.len .flag ≤ s'.mem.len .flag) (m4 : s'.mem.val .flag 0 = s.mem.val .flag 0)
    (m5 : 1 < s'.mem.len .flag → 1 < s.mem.len .flag ∨ 5 ≤ mph s'.mpc)
    (m6 : ∀ j, s'.mem.len (.ctx j) = s.mem.len (.ctx j))
    (v1 : ∀ k, k < s'.mem.len .start → s'.mem.val .start k = (N : Int) + 1 - k)
    (v2 : s'.mem.val .stopL = s.mem.val .stopL) (v3 : ∀ j, s'.mem.val (.ctx j) = s.mem.val (.ctx j))
    (g1 : 3 ≤ mph s'.mpc → N + 2 ≤ s.mem.len .start) : IA N s' := by
  refine ⟨v1, ?_, by rw [m2, v2]; exact h.tv, by rw [m2, hw]; exact h.tl, m4.trans h.fv, Nat.lt_of_lt_of_le h.fl m3, fun e => ?_, fun k hk => ?_,
    fun e j hj => ?_, fun j hj e => ?_, fun e => ?_, fun j hj e => ?_, fun j hj e => ?_, fun j hj => ?_, fun j hj e => ?_⟩
  · rw [m1, h.sl, hw]; repeat' split
    all_goals omega
  · rcases m5 e with e | e
    · have := h.fm e; omega
    · exact e
  · rw [hk] at hm; simp [mph] at hm
  · rw [hw]
    by_cases e0 : mph s.mpc = 0
    · exact (hb e0).2.2 j hj
    · exact h.born e0 j hj
  · rw [hw] at e; have := h.past j hj e; omega
  · have := g1 e; omega
  · rw [hw] at e; have := h.seen j hj e; omega
  · rw [hw] at e; rw [m2]; exact h.past2 j hj e
  · rw [m6, hw]; exact h.cl j hj
  · rw [hw] at e; rw [v3]; exact h.cv j hj e

end Verif.Weak.Start
