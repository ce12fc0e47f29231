import Verif.Space.Pool
import Verif.Par.Props
import Verif.WholeM.Par
import Verif.Busy.Par

/-! C69 for the parallel algorithms: how deeply their tasks are nested. -/
namespace Verif.Space
open Verif.Algo (Cmd Out)
open Verif.Par (T Dat Rd rd rdOf go next task)
open Verif.Mem (ctl)

section
variable {L V E : Type}

/-- How deeply forks and calls are nested. -/
def nest : Cmd L V E → Nat
  | .halt _ => 0
  | .atom _ _ _ _ => 0
  | .seq p q => max (nest p) (nest q)
  | .par p q => max (nest p) (nest q) + 1

def nests : List (Cmd L V E) → Nat
  | [] => 0
  | p :: k => max (nest p) (nests k)

/-- What is left of it. -/
def deep : T L V E → Nat
  | .ret => 0
  | .fail _ => 0
  | .read _ _ _ k => nests k
  | .write _ _ k => nests k
  | .par p q k => max (max (nest p) (nest q) + 1) (nests k)
  | .forked q k => max (nest q + 1) (nests k)
  | .atJoin k => nests k
  | .stash _ => 0

theorem deep_rd (w : L) (r : Rd L V E) (k : List (Cmd L V E)) : deep (rd w r k) ≤ nests k := by
  unfold rd
  split <;> simp [deep]

theorem deep_go : ∀ (p : Cmd L V E) (k : List (Cmd L V E)) (x : T L V E), deep x ≤ nests k → deep (go p k x) ≤ max (nest p) (nests k) := by
  intro p
  induction p with
  | halt o =>
    intro k x hx
    cases o
    · show deep x ≤ _; omega
    · exact Nat.zero_le _
    · exact Nat.zero_le _
  | atom w n rs f => intro k x hx; have := deep_rd w (rdOf n rs f) k; simp only [go, nest]; omega
  | seq p q ih1 ih2 =>
    intro k x hx
    have h1 := ih2 k x hx
    have h2 := ih1 (q :: k) (go q k x) (by simp only [nests]; exact h1)
    simp only [go, nest, nests] at h2 ⊢
    omega
  | par p q => intro k x hx; simp only [go, deep, nest]; omega

theorem deep_next : ∀ k : List (Cmd L V E), deep (next k) ≤ nests k := by
  intro k
  induction k with
  | nil => simp [next, deep]
  | cons p k ih => exact deep_go p k _ ih

theorem deep_task (p : Cmd L V E) : deep (task p) ≤ nest p := by
  have := deep_next [p]
  simp only [nests] at this
  unfold task; omega

theorem own_deep {x y : T L V E} (h : Own (ctl Par.body) x y) : deep y ≤ deep x := by
  cases h
  case fork c k h b hb => cases x <;> simp only [ctl, Par.body] at hb <;> cases hb; simp only [deep]; omega
  case forkX c k h e hb => cases x <;> simp only [ctl, Par.body] at hb <;> cases hb; simp only [deep]; omega
  case call c k h r hb => cases x <;> simp only [ctl, Par.body] at hb <;> cases hb; simp only [deep]; omega
  case callX c k h e hb => cases x <;> simp only [ctl, Par.body] at hb <;> cases hb; simp only [deep]; omega
  case join k h l hb =>
    cases x <;> simp only [ctl, Par.body] at hb <;> cases hb
    · exact deep_next _
    · simp only [deep]; omega
  case joinX k h e l hb => cases x <;> simp only [ctl, Par.body] at hb <;> cases hb <;> simp only [deep] <;> omega
  case switch d k hb =>
    cases x <;> simp only [ctl, Par.body] at hb <;> cases hb
    · simp only [default, deep]; omega
    · exact deep_next _
  case switchX d k h e hb =>
    cases x <;> simp only [ctl, Par.body] at hb <;> cases hb
    · cases e with
      | val v => exact deep_rd _ _ _
      | exn e => simp only [deep]; omega
      | ub => simp only [deep]; omega
    · exact deep_next _

theorem makes_deep {x y : T L V E} (h : Makes (ctl Par.body) x y) : deep y + 1 ≤ deep x := by
  obtain ⟨z, h1, h2⟩ := h
  have h3 : deep z ≤ deep x := by
    clear h2
    induction h1 with
    | refl => exact Nat.le_refl _
    | next _ h ih => exact Nat.le_trans (own_deep h) ih
  refine Nat.le_trans ?_ h3
  rcases h2 with ⟨k, h, hb⟩ | ⟨k, h, hb⟩
  · cases z <;> simp only [ctl, Par.body] at hb <;> cases hb
    rename_i p q k
    have := deep_task p
    show _ ≤ max (max (nest p) (nest q) + 1) (nests k); omega
  · cases z <;> simp only [ctl, Par.body] at hb <;> cases hb
    rename_i q k
    have := deep_task q
    show _ ≤ max (nest q + 1) (nests k); omega

theorem nested_deep {x : T L V E} {l : List (T L V E)} (h : Nested (ctl Par.body) x l) : l.length ≤ deep x + 1 := by
  induction h with
  | one => simp
  | more h1 _ ih => have := makes_deep h1; simp only [List.length_cons]; omega

/-- What a program needs when it is executed serially, if no frame is larger than `B`. -/
theorem needs_task {size : T L V E → Nat} {B : Nat} (hB : ∀ y, size y ≤ B) (p : Cmd L V E) {t : Nat} (ht : nest p ≤ t) : Needs (ctl Par.body) size ((t + 1) * B) (task p) := by
  intro l hl
  have h1 := nested_deep hl
  have h2 := deep_task p
  have h3 : (l.map size).sum ≤ l.length * B := by
    clear hl h1
    induction l with
    | nil => simp
    | cons a l ih => have := hB a; simp only [List.map_cons, List.sum_cons, List.length_cons, Nat.succ_mul]; omega
  exact Nat.le_trans h3 (Nat.mul_le_mul_right B (by omega))

theorem par_still (y : T L V E) (d : Nat) (k : T L V E) (x : Dat V E → T L V E) : Par.body y ≠ .switch d k x := by
  cases y <;> simp [Par.body]
end

variable {V E : Type} {g : V → Except E V} {proj : V → Except E V} {bop : V → V → Except E V} {n : Nat}

theorem nest_mapLoop (k head out : Nat) : nest (Algo.mapLoop g head out k) = 0 := by
  induction k generalizing head out with
  | zero => rfl
  | succ k ih => simp only [Algo.mapLoop, nest, ih]; rfl

theorem nest_foldLoop (k : Nat) (acc : Algo.Loc) (head : Nat) : nest (Algo.foldLoop proj bop acc head k) = 0 := by
  induction k generalizing head with
  | zero => rfl
  | succ k ih => simp only [Algo.foldLoop, nest, ih]; rfl

theorem nest_mapN (hn : 0 < n) (t : Nat) : ∀ head out len, len ≤ n * 2 ^ t → nest (Algo.mapN g n head out len) ≤ t := by
  induction t with
  | zero =>
    intro head out len h
    rw [Algo.mapN]
    simp only [Nat.pow_zero, Nat.mul_one] at h
    rw [if_neg (by omega), if_pos h]
    split
    · simp [nest]
    · rw [nest_mapLoop]; omega
  | succ t ih =>
    intro head out len h
    rw [Algo.mapN]
    rw [Nat.pow_succ, ← Nat.mul_assoc] at h
    rw [if_neg (by omega)]
    split
    · simp [nest]
    · split
      · rw [nest_mapLoop]; omega
      · have h1 := ih head out (len / 2) (by omega)
        have h2 := ih (head + len / 2) (out + len / 2) (len - len / 2) (by omega)
        simp only [nest]; omega

theorem nest_mapOne (t : Nat) : ∀ head out len, len ≤ 2 ^ t → nest (Algo.mapOne g head out len) ≤ t := by
  induction t with
  | zero =>
    intro head out len h
    rw [Algo.mapOne]
    simp only [Nat.pow_zero] at h
    split
    · simp [nest]
    · rw [if_pos (by omega)]; simp [nest]
  | succ t ih =>
    intro head out len h
    rw [Algo.mapOne]
    rw [Nat.pow_succ] at h
    split
    · simp [nest]
    · split
      · simp [nest]
      · have h1 := ih head out (len / 2) (by omega)
        have h2 := ih (head + len / 2) (out + len / 2) (len - len / 2) (by omega)
        simp only [nest]; omega

theorem nest_foldN (hn : 0 < n) (t : Nat) : ∀ ret path head len, len ≤ n * 2 ^ t → nest (Algo.foldN proj bop n ret path head len) ≤ t := by
  induction t with
  | zero =>
    intro ret path head len h
    rw [Algo.foldN]
    simp only [Nat.pow_zero, Nat.mul_one] at h
    split
    · simp [nest]
    · split
      · simp [nest]
      · simp [nest, nest_foldLoop]
  | succ t ih =>
    intro ret path head len h
    rw [Algo.foldN]
    rw [Nat.pow_succ, ← Nat.mul_assoc] at h
    split
    · simp [nest]
    · split
      · simp [nest]
      · split
        · simp [nest, nest_foldLoop]
        · split
          · simp [nest]
          · have h1 := ih (.tmp path 1) (false :: path) head (len / 2) (by omega)
            have h2 := ih (.tmp path 2) (true :: path) (head + len / 2) (len - len / 2) (by omega)
            simp only [nest]; omega

theorem nest_foldOne (t : Nat) : ∀ ret path head len, len ≤ 2 ^ t → nest (Algo.foldOne proj bop ret path head len) ≤ t := by
  induction t with
  | zero =>
    intro ret path head len h
    rw [Algo.foldOne]
    simp only [Nat.pow_zero] at h
    split
    · simp [nest]
    · rw [if_pos (by omega)]; simp [nest]
  | succ t ih =>
    intro ret path head len h
    rw [Algo.foldOne]
    rw [Nat.pow_succ] at h
    split
    · simp [nest]
    · split
      · simp [nest]
      · split
        · simp [nest]
        · have h1 := ih (.tmp path 1) (false :: path) head (len / 2) (by omega)
          have h2 := ih (.tmp path 2) (true :: path) (head + len / 2) (len - len / 2) (by omega)
          simp only [nest]; omega

/-- `lf::map`, `lf::for_each` or `lf::fold` of `len` elements. -/
inductive IsAlgo (len : Nat) : Algo.Prog V E → Prop
  | map {g n src dst p} : 0 < n → Algo.IsMap g n src dst len p → IsAlgo len p
  | forEach {g n head p} : 0 < n → Algo.IsForEach g n head len p → IsAlgo len p
  | fold {proj bop n head p} : 0 < n → Algo.foldTop proj bop n head len = some p → IsAlgo len p

theorem nest_map {src dst len t : Nat} {p : Algo.Prog V E} (hn : 0 < n) (ht : len ≤ 2 ^ t) (hp : Algo.IsMap g n src dst len p) : nest p ≤ t := by
  have h1 : len ≤ n * 2 ^ t := Nat.le_trans ht (Nat.le_mul_of_pos_left _ hn)
  cases hp with
  | chunked => exact nest_mapN hn t _ _ _ h1
  | unchunked => exact nest_mapOne t _ _ _ ht
  | range =>
    unfold Algo.mapRange
    rw [if_neg (by omega)]
    split
    · exact nest_mapOne t _ _ _ ht
    · exact nest_mapN hn t _ _ _ h1

theorem nest_algo {len t : Nat} {p : Algo.Prog V E} (h : IsAlgo len p) (ht : len ≤ 2 ^ t) : nest p ≤ t := by
  cases h with
  | map hn hp => exact nest_map hn ht hp
  | forEach hn hp => exact nest_map hn ht (Algo.isForEach_isMap hp)
  | @fold proj bop n head p hn hp =>
    have h1 : len ≤ n * 2 ^ t := Nat.le_trans ht (Nat.le_mul_of_pos_left _ hn)
    unfold Algo.foldTop at hp
    split at hp
    · cases hp
    · split at hp <;> cases hp
      · exact nest_foldOne t _ _ _ _ ht
      · exact nest_foldN hn t _ _ _ _ h1

variable {may : Dat V E → Prop} {K : Nat} {dep : Nat → Nat → Prop} {M : Algo.Loc → Dat V E} {size : T Algo.Loc V E → Nat} {B t : Nat} {p : Nat → Algo.Prog V E} {len : Nat → Nat}

/-- **C69, algorithms on `lazy_pool`.** Calls of `sync_wait` with `map`, `for_each` or `fold` of at most `2 ^ t` elements, on `N` workers: at any time, in any schedule, there are at
most `t + 1` frames for each worker and each call that has not returned, whatever the total number of elements. -/
theorem C69_algorithms {c : LazyPool.Cfg} (hc : c.Ok) (hp : ∀ i, i < K → IsAlgo (len i) (p i)) (ht : ∀ i, i < K → len i ≤ 2 ^ t) (hB : ∀ y, size y ≤ B)
    {s : WholeM.Y (T Algo.Loc V E) Unit (Dat V E) Algo.Loc} (h : WholeM.Reach c Par.body may K (fun i => task (p i)) dep M s)
    {O : List Nat} (hO : ∀ i, i < K → i ∈ O ∨ ∃ r, s.x.caller i = .back r) {ks : List Nat} (hk : ks.Nodup) :
    bytes size s.x.x.c ks ≤ (c.N + O.length) * ((t + 1) * B) :=
  C69_lazy_calls hc Par.disc Par.pend_le (fun i _ => (Par.next_pend _).1) par_still (fun i hi => needs_task hB _ (nest_algo (hp i hi) (ht i hi))) h hO hk

/-- **C69, algorithms on `busy_pool` and `unit_pool`.** The same. -/
theorem C69_algorithms_busy {c : Pool.Cfg} (hp : ∀ i, i < K → IsAlgo (len i) (p i)) (ht : ∀ i, i < K → len i ≤ 2 ^ t) (hB : ∀ y, size y ≤ B)
    {s : Busy.B (T Algo.Loc V E) Unit (Dat V E) Algo.Loc} (h : Busy.Reach c Par.body may K (fun i => task (p i)) dep M s)
    {O : List Nat} (hO : ∀ i f, s.caller i = .waiting f → i ∈ O ∨ ∃ r, Busy.Over s i r) {ks : List Nat} (hk : ks.Nodup) :
    bytes size s.M.x.c ks ≤ (c.N + O.length) * ((t + 1) * B) :=
  C69_busy_calls Par.disc Par.pend_le (fun i _ => (Par.next_pend _).1) par_still (fun i hi => needs_task hB _ (nest_algo (hp i hi) (ht i hi))) h hO hk

end Verif.Space
