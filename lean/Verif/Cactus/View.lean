import Verif.Stack.Props
import Verif.Cactus.Model

/-!
How the stacks in the heap and the lists of frames correspond, and what every operation on the stacks does to both. Whoever has a stack
(the workers, and a thread that submits a task) is a member of `ι`.
-/
namespace Verif.Cactus
open Verif.Stack

/-- Who has which stack, and what is on it. -/
@[ext] structure View (ι : Type) where
  /-- The frames on a stack, newest first. -/
  al : Nat → List Nat
  /-- The stack someone has. -/
  wk : ι → Nat
  fib : ι → Nat
  /-- Someone has given the stack away. -/
  Z : ι → Prop
  lab : Nat → Nat
  addr : Nat → Nat
  sz : Nat → Nat

/-- The stacklet of each allocation. -/
def tags (l : List Seg) : List Nat := l.flatMap fun s => s.2.map fun _ => s.1

variable {ι : Type}

/-- Someone has the stack `k`. -/
def View.Held (v : View ι) (k : Nat) : Prop := ∃ w, v.fib w ≠ 0 ∧ ¬ v.Z w ∧ v.wk w = k

structure Rel (v : View ι) (W : World) (G : Nat → Ghost) : Prop where
  inv : Inv W G
  dom : ∀ k, W.obj k ≠ none ↔ (v.al k ≠ [] ∨ v.Held k)
  own : ∀ k o, W.obj k = some o → o.owned = true
  live : ∀ k o, W.obj k = some o → o.live = (v.al k).map fun f => (v.addr f, v.sz f)
  tag : ∀ k o, W.obj k = some o → tags (G k).segs = (v.al k).map v.lab
  fib : ∀ w o, v.fib w ≠ 0 → ¬ v.Z w → W.obj (v.wk w) = some o → v.fib w = o.fib

/-- The stacks are represented in the heap. -/
def J (v : View ι) (h : Heap) : Prop := ∃ W G, W.heap = h ∧ Rel v W G

/-- Nobody else has this stack. -/
def View.Lone (v : View ι) (w : ι) (k : Nat) : Prop := ∀ w', w' ≠ w → v.fib w' ≠ 0 → ¬ v.Z w' → v.wk w' ≠ k

theorem tags_length (l : List Seg) : (tags l).length = (l.flatMap (·.2)).length := by
  induction l with
  | nil => rfl
  | cons s l ih => simp only [tags, List.flatMap_cons, List.length_append, List.length_map] at ih ⊢; omega

theorem Stack_live {h : Heap} {fib : Nat} {live : List (Nat × Nat)} {g : Ghost} (r : Rep h fib live g) : (tags g.segs).length = live.length := by
  rw [tags_length, r.live_eq]

theorem tags_pop {h : Heap} {fib : Nat} {x : Nat × Nat} {live : List (Nat × Nat)} {g : Ghost} (r : Rep h fib (x :: live) g) :
    tags g.segs = fib :: tags (popSegs g.segs) := by
  obtain ⟨b, al, rest, hsegs, hb, gb, hprev, hnext, htile, hbot, hchain, hnot, hcache⟩ := r.unfold
  have hl := r.live_eq
  rw [hsegs] at hl ⊢
  cases al with
  | nil =>
    cases rest with
    | nil => simp at hl
    | cons s t => exact (hbot (by simp)).elim
  | cons y al' =>
    simp only [popSegs]
    split
    · rename_i e; simp [tags, e.1]
    · rfl

theorem tag_foot {g : Ghost} {a : Nat} (h : a ∈ tags g.segs) : a ∈ foot g := by
  simp only [tags, List.mem_flatMap, List.mem_map] at h
  obtain ⟨s, h1, x, h2, rfl⟩ := h
  simp only [foot, List.mem_append]
  exact Or.inl (mem_map_fst.2 ⟨s, h1, rfl⟩)

theorem fib_foot {h : Heap} {fib : Nat} {live : List (Nat × Nat)} {g : Ghost} (r : Rep h fib live g) : fib ∈ foot g :=
  (r.owns fib).1 .top

theorem fib_ne {h : Heap} {fib : Nat} {live : List (Nat × Nat)} {g : Ghost} (r : Rep h fib live g) : fib ≠ 0 := by
  obtain ⟨b, al, rest, hsegs, hb, gb, _⟩ := r.unfold
  exact gb.nz

variable [DecidableEq ι]

/-- No code: function update. -/
def upd' {α : Type} (f : ι → α) (i : ι) (v : α) : ι → α := fun j => if j = i then v else f j

namespace Rel
variable {v : View ι} {W : World} {G : Nat → Ghost}

theorem mine (r : Rel v W G) {w : ι} (h0 : v.fib w ≠ 0) (hz : ¬ v.Z w) :
    W.obj (v.wk w) = some ⟨v.fib w, true, (v.al (v.wk w)).map fun f => (v.addr f, v.sz f)⟩ := by
  cases ho : W.obj (v.wk w) with
  | none => exact absurd ho ((r.dom _).2 (.inr ⟨w, h0, hz, rfl⟩))
  | some o =>
    have h1 := r.own _ _ ho
    have h2 := r.live _ _ ho
    have h3 := r.fib w o h0 hz ho
    cases o
    simp only at h1 h2 h3
    subst h1 h2 h3
    rfl

theorem atTop (r : Rel v W G) {k f : Nat} {L : List Nat} {o : Obj} (ho : W.obj k = some o) (hk : v.al k = f :: L) : o.fib = v.lab f := by
  have h1 := r.tag k o ho
  have h2 := r.inv.rep k o ho
  rw [r.live k o ho, hk, List.map_cons] at h2
  rw [tags_pop h2, hk, List.map_cons] at h1
  exact (List.cons.inj h1).1

end Rel

namespace J
variable {v : View ι} {h : Heap} {m : Malloc}

/-- A frame on top of the stack one has records its top stacklet. -/
theorem top (j : J v h) {w : ι} (h0 : v.fib w ≠ 0) (hz : ¬ v.Z w) {f : Nat} (hf : (v.al (v.wk w)).head? = some f) : v.lab f = v.fib w := by
  obtain ⟨W, G, rfl, r⟩ := j
  cases hk : v.al (v.wk w) with
  | nil => rw [hk] at hf; cases hf
  | cons a L =>
    rw [hk] at hf; cases hf
    exact (r.atTop (r.mine h0 hz) hk).symm

/-- A frame on another stack does not. -/
theorem apart (j : J v h) {w : ι} (h0 : v.fib w ≠ 0) (hz : ¬ v.Z w) {f k : Nat} (hf : f ∈ v.al k) (hk : k ≠ v.wk w) : v.lab f ≠ v.fib w := by
  obtain ⟨W, G, rfl, r⟩ := j
  have h1 := r.mine h0 hz
  cases ho : W.obj k with
  | none => exact absurd ho ((r.dom k).2 (.inl (List.ne_nil_of_mem hf)))
  | some o =>
    have h2 : v.lab f ∈ tags (G k).segs := by rw [r.tag k o ho]; exact List.mem_map_of_mem hf
    intro e
    rw [e] at h2
    exact r.inv.dis k _ o _ hk ho h1 _ (tag_foot h2) (fib_foot (r.inv.rep _ _ h1))

theorem noAlloc (j : J v h) {w : ι} (h0 : v.fib w ≠ 0) (hz : ¬ v.Z w) (he : v.al (v.wk w) = []) : Cactus.noAlloc (v.fib w) h = .ok () h := by
  obtain ⟨W, G, rfl, r⟩ := j
  have h1 := r.inv.rep _ _ (r.mine h0 hz)
  unfold Cactus.noAlloc
  rw [bind_ok (empty_spec h1)]
  exact assert_true (by simp [he])

/-- Someone gives the stack away. -/
theorem give (j : J v h) {w : ι} (hk : v.al (v.wk w) ≠ []) : J { v with Z := fun w' => w' = w ∨ v.Z w' } h := by
  obtain ⟨W, G, rfl, r⟩ := j
  refine ⟨W, G, rfl, r.inv, fun k => ?_, r.own, r.live, r.tag, fun w' o h1 h2 h3 => r.fib w' o h1 (fun hz => h2 (.inr hz)) h3⟩
  rw [r.dom k]
  constructor
  · rintro (e | ⟨w', h1, h2, rfl⟩)
    · exact .inl e
    · by_cases e : w' = w
      · subst e; exact .inl hk
      · exact .inr ⟨w', h1, fun hz => hz.elim e h2, rfl⟩
  · rintro (e | ⟨w', h1, h2, rfl⟩)
    · exact .inl e
    · exact .inr ⟨w', h1, fun hz => h2 (.inr hz), rfl⟩

/-- Someone who has no stack could have any. -/
theorem rewk (j : J v h) {w : ι} (h0 : v.fib w = 0) (k : Nat) : J { v with wk := upd' v.wk w k } h := by
  obtain ⟨W, G, rfl, r⟩ := j
  refine ⟨W, G, rfl, r.inv, fun k' => ?_, r.own, r.live, r.tag, fun w' o h1 h2 h3 => ?_⟩
  · rw [r.dom k']
    refine or_congr Iff.rfl ⟨?_, ?_⟩
    · rintro ⟨w', h1, h2, h3⟩
      have : w' ≠ w := fun e => h1 (e ▸ h0)
      exact ⟨w', h1, h2, by simp only [upd', if_neg this]; exact h3⟩
    · rintro ⟨w', h1, h2, h3⟩
      have : w' ≠ w := fun e => h1 (e ▸ h0)
      simp only [upd', if_neg this] at h3
      exact ⟨w', h1, h2, h3⟩
  · have : w' ≠ w := fun e => h1 (e ▸ h0)
    simp only [upd', if_neg this] at h3
    exact r.fib w' o h1 h2 h3

/-- The other stacks are as before. -/
theorem others {W W' : World} {G G' : Nat → Ghost} {op : Op} {k : Nat}
    (hG : ∀ i, (∀ n, op ≠ .alloc i n) → op ≠ .dealloc i → ∀ o o', W.obj i = some o → W'.obj i = some o' → o.owned = true →
      (∀ j, op ≠ .release i j) → (∀ j, op ≠ .swap i j ∧ op ≠ .swap j i) → G' i = G i ∧ o' = o)
    (hop : (∃ n, op = .alloc k n) ∨ op = .dealloc k ∨ op = .new k ∨ op = .destroy k) {i : Nat} (hi : i ≠ k) {o : Obj}
    (h1 : W.obj i = some o) (h2 : W'.obj i = some o) (h3 : o.owned = true) : G' i = G i := by
  refine (hG i ?_ ?_ o o h1 h2 h3 ?_ ?_).1 <;> rcases hop with ⟨n, rfl⟩ | rfl | rfl | rfl <;> simp <;> first | done | exact fun e => absurd e.symm hi

/-- A frame is made. -/
theorem push (hm : GoodMalloc m) (j : J v h) {w : ι} (h0 : v.fib w ≠ 0) (hz : ¬ v.Z w) (hl : v.Lone w (v.wk w)) {f n : Nat}
    (hf : ∀ k, f ∉ v.al k) (hs : n ≤ maxSize) :
    (∃ t a h', allocate m (v.fib w) n h = .ok (t, a) h' ∧ t ≠ 0 ∧
      J { v with al := upd' v.al (v.wk w) (f :: v.al (v.wk w)), fib := upd' v.fib w t, lab := upd' v.lab f t, addr := upd' v.addr f a, sz := upd' v.sz f n } h') ∨
    (allocate m (v.fib w) n h = .badAlloc h ∧ ∃ r, m h r = none) := by
  obtain ⟨W, G, rfl, r⟩ := j
  have ho := r.mine h0 hz
  have post := exec_inv hm (op := .alloc (v.wk w) n) hs r.inv
  simp only [exec, ho] at post
  rcases allocate_spec hm r.inv.hok (r.inv.rep _ _ ho) hs with ⟨t, a, h', g', e, hr', -⟩ | ⟨e, e2⟩
  · left
    refine ⟨t, a, h', e, fib_ne hr', ?_⟩
    rw [e] at post
    obtain ⟨G', hi', hG, hA, -⟩ := post
    have hA := hA _ _ rfl
    have fresh : ∀ {k g}, g ∈ v.al k → g ≠ f := fun hg e => hf _ (e ▸ hg)
    refine ⟨_, G', rfl, hi', fun k => ?_, fun k o hk => ?_, fun k o hk => ?_, fun k o hk => ?_, fun w' o h1 h2 hk => ?_⟩
    · by_cases e : k = v.wk w
      · subst e; simp [setObj, upd']
      · simp only [setObj, upd', if_neg e, View.Held]
        rw [r.dom k]
        refine or_congr Iff.rfl ⟨?_, ?_⟩
        · rintro ⟨w', h1, h2, h3⟩
          have : w' ≠ w := by rintro rfl; exact e h3.symm
          exact ⟨w', by rw [if_neg this]; exact h1, h2, h3⟩
        · rintro ⟨w', h1, h2, h3⟩
          have : w' ≠ w := by rintro rfl; exact e h3.symm
          rw [if_neg this] at h1
          exact ⟨w', h1, h2, h3⟩
    · simp only [setObj] at hk
      split at hk
      · cases hk; rfl
      · exact r.own k o hk
    · simp only [setObj] at hk
      split at hk
      · rename_i e; subst e
        cases hk
        simp only [upd', if_true, List.map_cons, List.cons.injEq, true_and]
        exact List.map_congr_left fun g hg => by simp [fresh hg]
      · rename_i e
        rw [r.live k o hk]
        simp only [upd', if_neg e]
        exact List.map_congr_left fun g hg => by simp [fresh hg]
    · have hrep := hi'.rep k o hk
      simp only [setObj] at hk
      split at hk
      · rename_i e; subst e
        cases hk
        rw [tags_pop hrep, hA, r.tag _ _ ho]
        simp only [upd', if_true, List.map_cons, List.cons.injEq, true_and]
        exact List.map_congr_left fun g hg => (if_neg (fresh hg)).symm
      · rename_i e
        rw [others hG (.inl ⟨n, rfl⟩) e hk (by simp [setObj, e, hk]) (r.own k o hk), r.tag k o hk]
        simp only [upd', if_neg e]
        exact List.map_congr_left fun g hg => (if_neg (fresh hg)).symm
    · simp only [upd'] at h1 ⊢
      by_cases e : w' = w
      · subst e
        simp only [setObj, if_true] at hk
        cases hk; simp
      · rw [if_neg e] at h1 ⊢
        have := hl w' e h1 h2
        simp only [setObj, if_neg this] at hk
        exact r.fib w' o h1 h2 hk
  · right; exact ⟨e, _, e2⟩

/-- The newest frame is destroyed. -/
theorem pop (j : J v h) {w : ι} (h0 : v.fib w ≠ 0) (hz : ¬ v.Z w) (hl : v.Lone w (v.wk w)) {f : Nat} {L : List Nat}
    (hf : v.al (v.wk w) = f :: L) :
    ∃ t h', Cactus.pop (v.fib w) (v.lab f) (v.addr f) h = .ok t h' ∧ t ≠ 0 ∧
      J { v with al := upd' v.al (v.wk w) L, fib := upd' v.fib w t } h' := by
  have ht := j.top h0 hz (by rw [hf]; rfl)
  obtain ⟨W, G, rfl, r⟩ := j
  have ho := r.mine h0 hz
  rw [hf, List.map_cons] at ho
  have post := exec_inv (m := fun _ _ => none) (by intro _ _ _ h; cases h) (op := .dealloc (v.wk w)) trivial r.inv
  simp only [exec, ho] at post
  obtain ⟨t, h', g', e, hr', -⟩ := deallocate_spec r.inv.hok (r.inv.rep _ _ ho)
  refine ⟨t, h', ?_, fib_ne hr', ?_⟩
  · unfold Cactus.pop
    rw [bind_ok (assert_true (by simp [ht]))]
    exact e
  · rw [e] at post
    obtain ⟨G', hi', hG, -, hA, -⟩ := post
    have hA := hA _ rfl
    have htag := r.tag _ _ ho
    rw [tags_pop (r.inv.rep _ _ ho), hf, List.map_cons] at htag
    have htag := (List.cons.inj htag).2
    refine ⟨_, G', rfl, hi', fun k => ?_, fun k o hk => ?_, fun k o hk => ?_, fun k o hk => ?_, fun w' o h1 h2 hk => ?_⟩
    · by_cases e : k = v.wk w
      · subst e
        simp only [setObj, if_true, ne_eq, reduceCtorEq, not_false_eq_true, true_iff]
        exact .inr ⟨w, by simp only [upd', if_true]; exact fib_ne hr', hz, rfl⟩
      · simp only [setObj, upd', if_neg e, View.Held]
        rw [r.dom k]
        refine or_congr Iff.rfl ⟨?_, ?_⟩
        · rintro ⟨w', h1, h2, h3⟩
          have : w' ≠ w := by rintro rfl; exact e h3.symm
          exact ⟨w', by rw [if_neg this]; exact h1, h2, h3⟩
        · rintro ⟨w', h1, h2, h3⟩
          have : w' ≠ w := by rintro rfl; exact e h3.symm
          rw [if_neg this] at h1
          exact ⟨w', h1, h2, h3⟩
    · simp only [setObj] at hk
      split at hk
      · cases hk; rfl
      · exact r.own k o hk
    · simp only [setObj] at hk
      split at hk
      · rename_i e; subst e
        cases hk
        simp only [upd', if_true]
      · rename_i e
        rw [r.live k o hk]
        simp only [upd', if_neg e]
    · simp only [setObj] at hk
      split at hk
      · rename_i e; subst e
        rw [hA, htag]
        simp only [upd', if_true]
      · rename_i e
        rw [others hG (.inr (.inl rfl)) e hk (by simp [setObj, e, hk]) (r.own k o hk), r.tag k o hk]
        simp only [upd', if_neg e]
    · simp only [upd'] at h1 ⊢
      by_cases e : w' = w
      · subst e
        simp only [setObj, if_true] at hk
        cases hk; simp
      · rw [if_neg e] at h1 ⊢
        have := hl w' e h1 h2
        simp only [setObj, if_neg this] at hk
        exact r.fib w' o h1 h2 hk

/-- Someone who has none gets a new stack. -/
theorem fresh (hm : GoodMalloc m) (j : J v h) {w : ι} (h0 : v.fib w = 0 ∨ v.Z w) {k : Nat} (hk : v.al k = []) (hl : v.Lone w k) :
    (∃ t h', new m h = .ok t h' ∧ t ≠ 0 ∧
      J { v with wk := upd' v.wk w k, fib := upd' v.fib w t, Z := fun w' => w' ≠ w ∧ v.Z w' } h') ∨
    (new m h = .badAlloc h ∧ ∃ r, m h r = none) := by
  obtain ⟨W, G, rfl, r⟩ := j
  have hne : ∀ {w'}, v.fib w' ≠ 0 → ¬ v.Z w' → w' ≠ w := by
    rintro w' h1 h2 rfl
    exact h0.elim h1 h2
  have ho : W.obj k = none := by
    cases ho : W.obj k with
    | none => rfl
    | some o =>
      rcases (r.dom k).1 (by rw [ho]; simp) with e | ⟨w', h1, h2, h3⟩
      · exact absurd hk e
      · exact absurd h3 (hl w' (hne h1 h2) h1 h2)
  have post := exec_inv hm (op := .new k) trivial r.inv
  simp only [exec, ho] at post
  rcases new_spec hm r.inv.hok with ⟨t, h', e, hr', -⟩ | e
  · left
    refine ⟨t, h', e, fib_ne hr', ?_⟩
    rw [e] at post
    obtain ⟨G', hi', hG, -⟩ := post
    refine ⟨_, G', rfl, hi', fun i => ?_, fun i o hi => ?_, fun i o hi => ?_, fun i o hi => ?_, fun w' o h1 h2 hi => ?_⟩
    · by_cases e : i = k
      · subst e
        simp only [setObj, if_true, ne_eq, reduceCtorEq, not_false_eq_true, true_iff]
        exact .inr ⟨w, by simp only [upd', if_true]; exact fib_ne hr', fun h => h.1 rfl, by simp [upd']⟩
      · simp only [setObj, if_neg e]
        rw [r.dom i]
        refine or_congr Iff.rfl ⟨?_, ?_⟩
        · rintro ⟨w', h1, h2, h3⟩
          have := hne h1 h2
          exact ⟨w', by simp only [upd', if_neg this]; exact h1, fun h => h2 h.2, by simp only [upd', if_neg this]; exact h3⟩
        · rintro ⟨w', h1, h2, h3⟩
          have : w' ≠ w := by rintro rfl; simp only [upd', if_true] at h3; exact e h3.symm
          simp only [upd', if_neg this] at h1 h3
          exact ⟨w', h1, fun h => h2 ⟨this, h⟩, h3⟩
    · simp only [setObj] at hi
      split at hi
      · cases hi; rfl
      · exact r.own i o hi
    · simp only [setObj] at hi
      split at hi
      · rename_i e; subst e
        cases hi
        simp only [hk, List.map_nil]
      · exact r.live i o hi
    · have hrep := hi'.rep i o hi
      simp only [setObj] at hi
      split at hi
      · rename_i e; subst e
        cases hi
        have := Stack_live hrep
        simp only [List.length_nil] at this
        simp only [hk, List.map_nil]
        exact List.length_eq_zero_iff.1 this
      · rename_i e
        rw [others hG (.inr (.inr (.inl rfl))) e hi (by simp [setObj, e, hi]) (r.own i o hi), r.tag i o hi]
    · by_cases e : w' = w
      · subst e
        simp only [setObj, upd', if_true] at hi ⊢
        cases hi; rfl
      · simp only [upd', if_neg e] at h1 hi ⊢
        have h2' : ¬ v.Z w' := fun h => h2 ⟨e, h⟩
        have := hl w' e h1 h2'
        simp only [setObj, if_neg this] at hi
        exact r.fib w' o h1 h2' hi
  · right
    refine ⟨e, request initSize, ?_⟩
    have hs : initSize ≤ maxSize := by have := W_eq; unfold maxSize initSize; omega
    have e' := e
    unfold new at e'
    rw [nextStacklet_null hs] at e'
    cases hx : m W.heap (request initSize) with
    | none => rfl
    | some a => rw [hx] at e'; cases e'

/-- An empty stack is destroyed. -/
theorem drop (j : J v h) {w : ι} (h0 : v.fib w ≠ 0) (hz : ¬ v.Z w) (hl : v.Lone w (v.wk w)) (hf : v.al (v.wk w) = []) :
    ∃ h', destroy (v.fib w) h = .ok () h' ∧ J { v with fib := upd' v.fib w 0 } h' := by
  obtain ⟨W, G, rfl, r⟩ := j
  have ho := r.mine h0 hz
  rw [hf, List.map_nil] at ho
  have post := exec_inv (m := fun _ _ => none) (by intro _ _ _ h; cases h) (op := .destroy (v.wk w)) trivial r.inv
  simp only [exec, ho] at post
  obtain ⟨h', e, -⟩ := destroy_spec r.inv.hok (r.inv.rep _ _ ho)
  refine ⟨h', e, ?_⟩
  rw [e] at post
  obtain ⟨G', hi', hG, -⟩ := post
  refine ⟨_, G', rfl, hi', fun k => ?_, fun k o hk => ?_, fun k o hk => ?_, fun k o hk => ?_, fun w' o h1 h2 hk => ?_⟩
  · by_cases e : k = v.wk w
    · subst e
      simp only [setObj, if_true, ne_eq, not_true_eq_false, false_iff, not_or, Decidable.not_not]
      refine ⟨hf, ?_⟩
      rintro ⟨w', h1, h2, h3⟩
      by_cases e : w' = w
      · subst e; simp [upd'] at h1
      · simp only [upd', if_neg e] at h1
        exact hl w' e h1 h2 h3
    · simp only [setObj, upd', if_neg e, View.Held]
      rw [r.dom k]
      refine or_congr Iff.rfl ⟨?_, ?_⟩
      · rintro ⟨w', h1, h2, h3⟩
        have : w' ≠ w := by rintro rfl; exact e h3.symm
        exact ⟨w', by rw [if_neg this]; exact h1, h2, h3⟩
      · rintro ⟨w', h1, h2, h3⟩
        have : w' ≠ w := by rintro rfl; exact e h3.symm
        rw [if_neg this] at h1
        exact ⟨w', h1, h2, h3⟩
  · simp only [setObj] at hk
    split at hk
    · cases hk
    · exact r.own k o hk
  · simp only [setObj] at hk
    split at hk
    · cases hk
    · exact r.live k o hk
  · simp only [setObj] at hk
    split at hk
    · cases hk
    · rename_i e
      rw [others hG (.inr (.inr (.inr rfl))) e hk (by simp [setObj, e, hk]) (r.own k o hk), r.tag k o hk]
  · by_cases e : w' = w
    · subst e; simp [upd'] at h1
    · simp only [upd', if_neg e] at h1 ⊢
      have := hl w' e h1 h2
      simp only [setObj, if_neg this] at hk
      exact r.fib w' o h1 h2 hk

/-- Someone who has no stack takes one that is there. -/
theorem got (j : J v h) {w : ι} (h0 : v.fib w = 0) (hz : ¬ v.Z w) {k f : Nat} (hk : (v.al k).head? = some f) :
    Stack.adopt (v.lab f) h = .ok (v.lab f) h ∧ v.lab f ≠ 0 ∧ J { v with wk := upd' v.wk w k, fib := upd' v.fib w (v.lab f) } h := by
  obtain ⟨W, G, rfl, r⟩ := j
  obtain ⟨L, hL⟩ : ∃ L, v.al k = f :: L := by
    cases hx : v.al k with
    | nil => rw [hx] at hk; cases hk
    | cons a L => rw [hx] at hk; cases hk; exact ⟨L, rfl⟩
  cases ho : W.obj k with
  | none => exact absurd ho ((r.dom k).2 (.inl (by rw [hL]; simp)))
  | some o =>
    have hfib := r.atTop ho hL
    have hrep := r.inv.rep k o ho
    rw [hfib] at hrep
    refine ⟨adopt_spec hrep, fib_ne hrep, W, G, rfl, r.inv, fun i => ?_, r.own, r.live, r.tag, fun w' o' h1 h2 hi => ?_⟩
    · rw [r.dom i]
      constructor
      · rintro (e | ⟨w', h1, h2, h3⟩)
        · exact .inl e
        · have : w' ≠ w := by rintro rfl; exact h1 h0
          exact .inr ⟨w', by simp only [upd', if_neg this]; exact h1, h2, by simp only [upd', if_neg this]; exact h3⟩
      · rintro (e | ⟨w', h1, h2, h3⟩)
        · exact .inl e
        · by_cases e : w' = w
          · subst e
            simp only [upd', if_true] at h3
            subst h3
            exact .inl (by simp only [hL]; simp)
          · simp only [upd', if_neg e] at h1 h3
            exact .inr ⟨w', h1, h2, h3⟩
    · by_cases e : w' = w
      · subst e
        simp only [upd', if_true] at hi ⊢
        rw [ho] at hi; cases hi
        exact hfib.symm
      · simp only [upd', if_neg e] at h1 hi ⊢
        exact r.fib w' o' h1 h2 hi

/-- `*tls::stack() = stack{f->stacklet()}`. -/
theorem take (j : J v h) {w : ι} (h0 : v.fib w ≠ 0) (hz : ¬ v.Z w) (hl : v.Lone w (v.wk w)) (he : v.al (v.wk w) = []) {k f : Nat}
    (hk : (v.al k).head? = some f) :
    ∃ h', takeStack (v.fib w) (v.lab f) h = .ok (v.lab f) h' ∧ v.lab f ≠ 0 ∧ J { v with wk := upd' v.wk w k, fib := upd' v.fib w (v.lab f) } h' := by
  obtain ⟨h', e, j'⟩ := j.drop h0 hz hl he
  have ha : Stack.adopt (v.lab f) h = .ok (v.lab f) h := by
    obtain ⟨W, G, rfl, r⟩ := j
    cases hx : v.al k with
    | nil => rw [hx] at hk; cases hk
    | cons a L =>
      rw [hx] at hk; cases hk
      cases ho : W.obj k with
      | none => exact absurd ho ((r.dom k).2 (.inl (by rw [hx]; simp)))
      | some o =>
        have hrep := r.inv.rep k o ho
        rw [r.atTop ho hx] at hrep
        exact adopt_spec hrep
  have := j'.got (w := w) (k := k) (f := f) (by simp [upd']) hz hk
  refine ⟨h', ?_, this.2.1, ?_⟩
  · unfold takeStack
    rw [bind_ok ha, bind_ok e]
    rfl
  · have e2 : upd' (upd' v.fib w 0) w (v.lab f) = upd' v.fib w (v.lab f) := by funext i; simp only [upd']; split <;> rfl
    have := this.2.2
    simp only [e2] at this
    exact this

/-- `tls::stack()->release()`, by someone who has given the stack away. -/
theorem renew (hm : GoodMalloc m) (j : J v h) {w : ι} (h0 : v.fib w ≠ 0) (hz : v.Z w) {k : Nat} (hk : v.al k = []) (hl : v.Lone w k) :
    (∃ t h', Cactus.renew m (v.fib w) h = .ok t h' ∧ t ≠ 0 ∧
      J { v with wk := upd' v.wk w k, fib := upd' v.fib w t, Z := fun w' => w' ≠ w ∧ v.Z w' } h') ∨
    (Cactus.renew m (v.fib w) h = .badAlloc h ∧ ∃ r, m h r = none) := by
  have e0 : ∀ x, new m h = x → Cactus.renew m (v.fib w) h = x := by
    intro x hx
    unfold Cactus.renew Stack.release
    rw [bind_apply, bind_ok (assert_true (by simp [h0])), bind_apply]
    unfold new at hx
    rw [hx]
    cases x <;> rfl
  rcases j.fresh hm (.inr hz) hk hl with ⟨t, h', e, h1, h2⟩ | ⟨e, h1⟩
  · exact .inl ⟨t, h', e0 _ e, h1, h2⟩
  · exact .inr ⟨e0 _ e, h1⟩

end J

end Verif.Cactus
