import Verif.Stack.Overflow

/-!
C70: how much memory a segmented stack holds, and how often it asks `malloc` for more.

The specification: `held` is the size of a set of blocks, `liveBytes` what the live allocations of a stack take, rounded up
to the alignment, and `Hist` keeps for every stack an account of the bytes that were ever allocated on it and of the times
an operation on it got a block from `malloc`. The account goes with the stacklets when stacks are swapped or released.
-/
namespace Verif.Stack

/-! ### Specification -/

/-- The bytes of a block. -/
def sizeAt (h : Heap) (a : Nat) : Nat := match h a with | some b => b.size | none => 0

/-- The bytes of the blocks at the addresses `L`. -/
def held (h : Heap) (L : List Nat) : Nat := (L.map (sizeAt h)).sum

/-- The bytes of live allocations, every one rounded up to 16. -/
def liveBytes (live : List (Nat × Nat)) : Nat := (live.map fun x => (x.2 + 15) / 16 * 16).sum

/-- A block came into being. -/
def GotBlock (w w' : World) : Prop := ∃ a, w.heap a = none ∧ w'.heap a ≠ none

/-- The account of a stack: the number of blocks it got from `malloc`, and the bytes ever allocated on it. -/
structure Account where
  blocks : Nat
  pushed : Nat

open Classical in
/-- The accounts after a successful operation. -/
noncomputable def charge (op : Op) (w w' : World) (A : Nat → Account) : Nat → Account :=
  let one := if GotBlock w w' then 1 else 0
  match op with
  | .new i => fun k => if k = i then ⟨one, 0⟩ else A k
  | .alloc i n => fun k => if k = i then ⟨(A i).blocks + one, (A i).pushed + (n + 15) / 16 * 16⟩ else A k
  | .dealloc i => fun k => if k = i then ⟨(A i).blocks + one, (A i).pushed⟩ else A k
  | .release i j => fun k => if k = i then ⟨one, 0⟩ else if k = j then A i else A k
  | .swap i j => fun k => if k = i then A j else if k = j then A i else A k
  | .destroy _ => A
  | .adopt _ => A

/-- The worlds of disciplined clients (`Reach`), with the accounts of the stacks. -/
inductive Hist : World → (Nat → Account) → Prop
  | init (A : Nat → Account) : Hist World.init A
  | step {w w' : World} {A : Nat → Account} (m : Malloc) (op : Op) : Hist w A → GoodMalloc m → SizeOk op →
      exec m op w = .ok w' → Hist w' (charge op w w' A)
  | fail {w w' : World} {A : Nat → Account} (m : Malloc) (op : Op) : Hist w A → GoodMalloc m → SizeOk op →
      exec m op w = .badAlloc w' → Hist w' A

theorem Hist.reach {w : World} {A : Nat → Account} (h : Hist w A) : Reach w := by
  induction h with
  | init => exact .init
  | step m op _ hm hs e ih => exact .step m op ih hm hs e
  | fail m op _ hm hs e ih => exact .fail m op ih hm hs e

theorem Reach.hist {w : World} (h : Reach w) : ∃ A, Hist w A := by
  induction h with
  | init => exact ⟨fun _ => ⟨0, 0⟩, .init _⟩
  | step m op _ hm hs e ih => obtain ⟨A, ih⟩ := ih; exact ⟨_, .step m op ih hm hs e⟩
  | fail m op _ hm hs e ih => obtain ⟨A, ih⟩ := ih; exact ⟨A, .fail m op ih hm hs e⟩

/-! ### How much a stack holds -/

theorem liveBytes_eq (live : List (Nat × Nat)) : liveBytes live = used live := by
  induction live with
  | nil => rfl
  | cons x l ih =>
    simp only [liveBytes, List.map_cons, List.sum_cons] at ih ⊢
    rw [ih]; rfl

theorem used_append (l l' : List (Nat × Nat)) : used (l ++ l') = used l + used l' := by
  induction l with
  | nil => simp [used]
  | cons x l ih => simp only [List.cons_append, used, ih]; omega

theorem bot_le (l : List (Nat × Nat)) : bot l ≤ used l := by
  induction l with
  | nil => exact Nat.le_refl _
  | cons x l ih =>
    cases l with
    | nil => simp [bot, used]
    | cons y l => rw [bot_cons (by simp)]; simp only [used] at ih ⊢; omega

theorem sum_sub {f : Nat → Nat} {L F : List Nat} (hn : L.Nodup) (hs : ∀ a ∈ L, a ∈ F) :
    (L.map f).sum ≤ (F.map f).sum := by
  induction L generalizing F with
  | nil => simp
  | cons a L ih =>
    have ha := hs a (by simp)
    obtain ⟨s, t, rfl⟩ := List.append_of_mem ha
    have hn' := List.nodup_cons.1 hn
    have := ih (F := s ++ t) hn'.2 fun b hb => by
      have h1 := hs b (by simp [hb])
      have h2 : b ≠ a := fun e => hn'.1 (e ▸ hb)
      simp only [List.mem_append, List.mem_cons] at h1 ⊢
      rcases h1 with h | h | h
      · exact Or.inl h
      · exact absurd h h2
      · exact Or.inr h
    simp only [List.map_append, List.sum_append, List.map_cons, List.sum_cons] at this ⊢
    omega

theorem Rep.size_eq {h : Heap} {fib : Nat} {live : List (Nat × Nat)} {g : Ghost} (r : Rep h fib live g) {a : Nat}
    (ha : a ∈ foot g) : sizeAt h a = capOf h a + 48 := by
  obtain ⟨b, hb, gb⟩ := r.block ha
  simp only [sizeAt, capOf, hb]
  have := gb.lo; have := gb.hi; have := gb.sz
  omega

theorem chain_sum {h : Heap} {s : Seg} {r : List Seg} (hs : Snug (capOf h) (s :: r))
    (e : ∀ a ∈ (s :: r).map (·.1), sizeAt h a = capOf h a + 48) : 10 * held h ((s :: r).map (·.1)) ≤ 21 * capOf h s.1 := by
  induction r generalizing s with
  | nil =>
    have := hs.1
    simp only at this
    have e1 := e s.1 (by simp)
    simp only [held, List.map_cons, List.map_nil, List.sum_cons, List.sum_nil]
    omega
  | cons t r ih =>
    have h1 := ih hs.2 fun a ha => e a (by simp only [List.map_cons, List.mem_cons] at ha ⊢; exact Or.inr ha)
    have h2 := hs.1.1
    have h3 := hs.2.large
    have e1 := e s.1 (by simp)
    simp only [held, List.map_cons, List.sum_cons] at h1 ⊢
    omega

theorem Rep.held_le {h : Heap} {fib : Nat} {live : List (Nat × Nat)} {g : Ghost} (r : Rep h fib live g) :
    held h (foot g) ≤ 81 * used live + 36096 := by
  obtain ⟨al, rest, hsegs⟩ := r.top
  have hsn := r.snug
  have hsz : ∀ a ∈ foot g, sizeAt h a = capOf h a + 48 := fun a ha => r.size_eq ha
  have hc : held h g.cache.toList ≤ 8 * capOf h fib + 48 := by
    cases hg : g.cache with
    | none => simp [held]
    | some c =>
      have h1 := (r.cached c hg).2
      have h2 := hsz c (by simp [foot, hg])
      simp only [held, Option.toList_some, List.map_cons, List.map_nil, List.sum_cons, List.sum_nil]
      omega
  have hsum : held h (foot g) = held h (g.segs.map (·.1)) + held h g.cache.toList := by
    simp [held, foot]
  have hl := r.live_eq
  have hsz' : ∀ a ∈ g.segs.map (·.1), sizeAt h a = capOf h a + 48 := fun a ha =>
    hsz a (by simp only [foot, List.mem_append]; exact Or.inl ha)
  rw [hsegs] at hsn hl hsum hsz'
  cases rest with
  | nil =>
    have h1 := hsn.1
    have h2 := hsz' fib (by simp)
    simp only at h1
    have h3 : held h (List.map (fun x : Seg => x.1) [(fib, al)]) = sizeAt h fib := by simp [held]
    rw [h3] at hsum
    omega
  | cons t rest =>
    have h1 := chain_sum hsn hsz'
    have h2 := hsn.1
    simp only at h1 h2
    have h3 := bot_le al
    have h4 := hsn.2.large
    have h5 : used live = used al + (used t.2 + used (rest.flatMap (·.2))) := by
      rw [hl]; simp only [List.flatMap_cons, used_append]
    omega

/-- **C70** (one stack). The blocks of a stack, whatever its history, are at most 81 times as large as what is live on it, and
36096 bytes. -/
theorem C70_stack {w : World} (h : Reach w) {i : Nat} {o : Obj} (ho : w.obj i = some o) {L : List Nat} (hn : L.Nodup)
    (hL : ∀ a ∈ L, Owns w.heap o.fib a) : held w.heap L ≤ 81 * liveBytes o.live + 36096 := by
  obtain ⟨G, hi⟩ := reach_inv h
  have r := hi.rep i o ho
  have h1 := r.held_le
  have h2 := sum_sub (f := sizeAt w.heap) hn fun a ha => (r.owns a).1 (hL a ha)
  rw [liveBytes_eq]
  exact Nat.le_trans h2 h1

/-- What the stack called `i` may hold. -/
def share (w : World) (i : Nat) : Nat := match w.obj i with | some o => 81 * liveBytes o.live + 36096 | none => 0

theorem held_filter (h : Heap) (p : Nat → Bool) (L : List Nat) : held h L = held h (L.filter p) + held h (L.filter fun a => !p a) := by
  induction L with
  | nil => rfl
  | cons a L ih =>
    cases hp : p a <;> simp only [held, List.filter_cons, hp, Bool.not_true, Bool.not_false, if_true, List.map_cons, List.sum_cons] at ih ⊢
    all_goals simp_all
    all_goals omega

/-- **C70** (all stacks). Everything that all stacks and released stacklets hold together is bounded by what is live on them,
and a constant for every one of them. -/
theorem C70_all {w : World} (h : Reach w) {I : List Nat} (hI : ∀ i o, w.obj i = some o → i ∈ I) {L : List Nat} (hn : L.Nodup)
    (hL : ∀ a ∈ L, w.heap a ≠ none) : held w.heap L ≤ (I.map (share w)).sum := by
  classical
  have key : ∀ (I L : List Nat), L.Nodup → (∀ a ∈ L, ∃ i ∈ I, ∃ o, w.obj i = some o ∧ Owns w.heap o.fib a) →
      held w.heap L ≤ (I.map (share w)).sum := by
    intro I
    induction I with
    | nil =>
      intro L _ hL
      cases L with
      | nil => simp [held]
      | cons a L => obtain ⟨i, hi, _⟩ := hL a (by simp); simp at hi
    | cons i I ih =>
      intro L hn hL
      let p : Nat → Bool := fun a => decide (∃ o, w.obj i = some o ∧ Owns w.heap o.fib a)
      rw [held_filter w.heap p L, List.map_cons, List.sum_cons]
      refine Nat.add_le_add ?_ (ih _ (hn.filter _) fun a ha => ?_)
      · unfold share
        cases ho : w.obj i with
        | none =>
          have : L.filter p = [] := by
            rw [List.filter_eq_nil_iff]
            intro a _
            simp [p, ho]
          rw [this]; simp [held]
        | some o =>
          refine C70_stack h ho (hn.filter _) fun a ha => ?_
          have := (List.mem_filter.1 ha).2
          simp only [p, ho, decide_eq_true_eq] at this
          obtain ⟨o', e, k⟩ := this
          cases e; exact k
      · obtain ⟨h1, h2⟩ := List.mem_filter.1 ha
        obtain ⟨j, hj, o, ho, hw⟩ := hL a h1
        rcases List.mem_cons.1 hj with e | hj
        · subst e
          simp only [p, Bool.not_eq_true', decide_eq_false_iff_not] at h2
          exact absurd ⟨o, ho, hw⟩ h2
        · exact ⟨j, hj, o, ho, hw⟩
  refine key I L hn fun a ha => ?_
  cases hb : w.heap a with
  | none => exact absurd hb (hL a ha)
  | some b =>
    obtain ⟨i, o, h1, h2, _⟩ := unique_owner h hb
    exact ⟨i, hI i o h1, o, h1, h2⟩

end Verif.Stack
