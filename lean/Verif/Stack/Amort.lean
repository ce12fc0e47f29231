import Verif.Stack.Space

/-!
C70, the second half: `malloc` is called at most once for every 2000 bytes that are allocated on a stack, in every history
(there is no sequence of calls and returns around the end of a stacklet that gets and frees a block over and over).

The potential of a stack is what is allocated on its top stacklet, if it has no spare, and what is allocated on every stacklet
below one that will be freed when it is left.
-/
namespace Verif.Stack

def over (cap : Nat → Nat) : List Seg → Nat
  | [] => 0
  | s :: r => (match r with | [] => 0 | t :: _ => if 8 * cap t.1 < cap s.1 then used t.2 else 0) + over cap r

def topTerm (g : Ghost) : Nat :=
  match g.cache with
  | none => match g.segs with | [] => 0 | s :: _ => used s.2
  | some _ => 0

def pot (cap : Nat → Nat) (g : Ghost) : Nat := topTerm g + over cap g.segs

theorem over_congr {cap cap' : Nat → Nat} {l : List Seg} (e : ∀ a ∈ l.map (·.1), cap' a = cap a) : over cap' l = over cap l := by
  induction l with
  | nil => rfl
  | cons s r ih =>
    have e1 := e s.1 (by simp)
    have h1 := ih fun a ha => e a (by simp only [List.map_cons, List.mem_cons]; exact Or.inr ha)
    cases r with
    | nil => rfl
    | cons t r =>
      have e2 := e t.1 (by simp)
      show (if 8 * cap' t.1 < cap' s.1 then used t.2 else 0) + over cap' (t :: r) = (if 8 * cap t.1 < cap s.1 then used t.2 else 0) + over cap (t :: r)
      rw [h1, e1, e2]

theorem over_top (cap : Nat → Nat) (f : Nat) (al al' : List (Nat × Nat)) (r : List Seg) :
    over cap ((f, al) :: r) = over cap ((f, al') :: r) := by cases r <;> rfl

/-- The capacity of a block that stays does not change. -/
theorem cap_keep {h h' : Heap} {fib fib' : Nat} {live live' : List (Nat × Nat)} {g g' : Ghost} (r : Rep h fib live g)
    (r' : Rep h' fib' live' g') (hl : Local h (foot g) h' (foot g')) {a : Nat} (ha : a ∈ foot g) (ha' : a ∈ foot g') :
    capOf h' a = capOf h a := by
  have h1 := r.size_eq ha
  have h2 := r'.size_eq ha'
  have h3 := hl.keep a ha ha'
  obtain ⟨b, hb, _⟩ := r.block ha
  obtain ⟨b', hb', _⟩ := r'.block ha'
  simp only [sizeAt, hb, hb', Option.map_some, Option.some.injEq] at h1 h2 h3
  omega

theorem alloc_pot {h h' : Heap} {fib fib' p size : Nat} {live : List (Nat × Nat)} {g g' : Ghost} (r : Rep h fib live g)
    (r' : Rep h' fib' ((p, size) :: live) g') (hl : Local h (foot g) h' (foot g')) (gr : Grow h fib size g h' fib' p g') :
    ((∀ a ∈ foot g', a ∈ foot g) ∧ pot (capOf h') g' ≤ pot (capOf h) g + up size) ∨
    pot (capOf h') g' + 4000 ≤ pot (capOf h) g + 2 * up size := by
  rcases gr with ⟨hc, al, rest, h1, h2⟩ | ⟨hc, h2, h3⟩
  · left
    have hf : ∀ a, a ∈ foot g' ↔ a ∈ foot g := by intro a; simp [foot, hc, h1, h2]
    refine ⟨fun a ha => (hf a).1 ha, ?_⟩
    have e : over (capOf h') g'.segs = over (capOf h) g.segs := by
      rw [over_congr (cap := capOf h) fun a ha => ?_]
      · rw [h1, h2]; exact over_top _ _ _ _ _
      · have : a ∈ foot g' := by simp only [foot, List.mem_append]; exact Or.inl ha
        exact cap_keep r r' hl ((hf a).1 this) this
    unfold pot
    rw [e]
    have : topTerm g' ≤ topTerm g + up size := by
      unfold topTerm
      rw [hc, h1, h2]
      cases g.cache with
      | none => simp only [used]; omega
      | some c => simp
    omega
  · obtain ⟨b, al, rest, hsegs, hb, gb, hprev, hnext, htile, hbot, hchain, hnot, hcache⟩ := r.unfold
    have hmem : ∀ a ∈ g.segs.map (·.1), a ∈ foot g ∧ a ∈ foot g' := by
      intro a ha
      refine ⟨by simp only [foot, List.mem_append]; exact Or.inl ha, ?_⟩
      simp only [foot, h2, List.map_cons, List.mem_append, List.mem_cons]
      exact Or.inl (Or.inr ha)
    have ecap : ∀ a ∈ g.segs.map (·.1), capOf h' a = capOf h a := fun a ha => cap_keep r r' hl (hmem a ha).1 (hmem a ha).2
    have e : over (capOf h') g.segs = over (capOf h) g.segs := over_congr ecap
    have hfib := ecap fib (by simp [hsegs])
    have hlarge : 4000 ≤ capOf h fib := by
      have := r.snug
      rw [hsegs] at this
      exact this.large
    have hused : used al ≤ capOf h fib := by
      have k1 := htile.sp_eq
      have k2 := gb.sp
      have k3 := gb.lo
      simp only [capOf, hb]
      omega
    have hnofit : capOf h fib < used al + up size := by
      have := r'.snug
      rw [h2, hsegs] at this
      have := this.1.2.1
      simp only [bot] at this
      omega
    have hp' : pot (capOf h') g' = up size + ((if 8 * capOf h fib < capOf h' fib' then used al else 0) + over (capOf h) g.segs) := by
      have k : topTerm g' = up size := by simp [topTerm, hc, h2, used]
      have k2 : over (capOf h') g'.segs = (if 8 * capOf h fib < capOf h' fib' then used al else 0) + over (capOf h) g.segs := by
        rw [h2, ← e, ← hfib, hsegs]; rfl
      rw [pot, k, k2]
    have hle : (if 8 * capOf h fib < capOf h' fib' then used al else 0) = 0 ∨
        (8 * capOf h fib < capOf h' fib' ∧ (if 8 * capOf h fib < capOf h' fib' then used al else 0) = used al) := by
      split
      · rename_i k; exact Or.inr ⟨k, rfl⟩
      · exact Or.inl rfl
    generalize (if 8 * capOf h fib < capOf h' fib' then used al else 0) = x at hp' hle
    rcases h3 with h3 | ⟨h3, h4⟩
    · left
      refine ⟨fun a ha => ?_, ?_⟩
      · simp only [foot, h2, hc, List.map_cons, List.cons_append, List.mem_cons, Option.toList_none, List.append_nil] at ha
        rcases ha with rfl | ha
        · simp [foot, h3]
        · exact (hmem a ha).1
      · have k1 : topTerm g = 0 := by simp [topTerm, h3]
        have k2 : capOf h' fib' = capOf h fib' := cap_keep r r' hl (by simp [foot, h3]) (by simp [foot, h2])
        have k3 := (r.cached fib' h3).2
        have : x = 0 := by omega
        rw [hp', pot, k1]
        omega
    · right
      rw [hp']
      cases hg : g.cache with
      | none =>
        have k1 : topTerm g = used al := by simp [topTerm, hg, hsegs]
        rw [pot, k1]
        omega
      | some c =>
        have k1 := h3 c hg
        have k2 := r.spare c hg
        unfold pot
        omega

theorem dealloc_pot {h h' : Heap} {fib fib' p n : Nat} {live : List (Nat × Nat)} {g g' : Ghost} (r : Rep h fib ((p, n) :: live) g)
    (r' : Rep h' fib' live g') (hl : Local h (foot g) h' (foot g')) (dr : Drop h fib g fib' g') :
    (∀ a ∈ foot g', a ∈ foot g) ∧ pot (capOf h') g' ≤ pot (capOf h) g := by
  have sub : ∀ a ∈ foot g', a ∈ foot g := by
    intro a ha
    rcases dr with ⟨hc, x, al, rest, h1, h2⟩ | ⟨al, h1, h2⟩
    · simpa [foot, hc, h1, h2] using ha
    · rcases h2 with h2 | ⟨h2, _⟩
      · simp only [foot, h1, h2, List.map_cons, List.mem_append, List.mem_cons, Option.mem_toList, Option.some.injEq, Option.toList_some,
          List.not_mem_nil, or_false] at ha ⊢
        rcases ha with ha | ha
        · exact Or.inl (Or.inr ha)
        · exact Or.inl (Or.inl ha)
      · simp only [foot, h1, h2, List.map_cons, List.mem_append, List.mem_cons, Option.toList_none, List.not_mem_nil, or_false] at ha ⊢
        exact Or.inl (Or.inr ha)
  have e : over (capOf h') g'.segs = over (capOf h) g'.segs := by
    refine over_congr fun a ha => ?_
    have : a ∈ foot g' := by simp only [foot, List.mem_append]; exact Or.inl ha
    exact cap_keep r r' hl (sub a this) this
  refine ⟨sub, ?_⟩
  unfold pot
  rw [e]
  rcases dr with ⟨hc, x, al, rest, h1, h2⟩ | ⟨al, h1, h2⟩
  · have k1 : over (capOf h) g'.segs = over (capOf h) g.segs := by rw [h1, h2]; exact over_top _ _ _ _ _
    have k2 : topTerm g' ≤ topTerm g := by
      unfold topTerm
      rw [hc, h1, h2]
      cases g.cache with
      | none => simp only [used]; omega
      | some c => simp
    omega
  · rcases h2 with h2 | ⟨h2, al', rest, h3, h4⟩
    · have k1 : topTerm g' = 0 := by simp [topTerm, h2]
      have k2 : over (capOf h) g'.segs ≤ over (capOf h) g.segs := by rw [h1]; simp only [over]; omega
      omega
    · have k1 : topTerm g' = used al' := by simp [topTerm, h2, h3]
      have k2 : over (capOf h) g.segs = used al' + over (capOf h) g'.segs := by
        rw [h1, h3]
        show (if 8 * capOf h fib' < capOf h fib then used al' else 0) + _ = _
        rw [if_pos h4]
      omega

/-- No block comes into being when the footprint does not grow. -/
theorem no_block {h h' : Heap} {fib : Nat} {live : List (Nat × Nat)} {g g' : Ghost} (r : Rep h fib live g)
    (hl : Local h (foot g) h' (foot g')) (sub : ∀ a ∈ foot g', a ∈ foot g) {a : Nat} (h1 : h a = none) : h' a = none := by
  have hF : a ∉ foot g := fun hm => by
    obtain ⟨b, hb, _⟩ := r.block hm
    rw [h1] at hb; cases hb
  rw [hl.out a hF fun hm => hF (sub a hm)]
  exact h1

/-- The account of a stack covers its potential. -/
def Covered (w : World) (i : Nat) (A : Account) : Prop :=
  ∀ o, w.obj i = some o → ∃ g, Rep w.heap o.fib o.live g ∧ pot (capOf w.heap) g + 4000 * A.blocks ≤ 4000 + 2 * A.pushed

theorem Covered.frame {w w' : World} {G : Nat → Ghost} (hi : Inv w G) {i j : Nat} {A : Account} {o o' : Obj} (c : Covered w i A)
    (ho : w.obj i = some o) (ho' : w'.obj j = some o') (e : o'.fib = o.fib ∧ o'.live = o.live)
    (hh : ∀ a ∈ foot (G i), w'.heap a = w.heap a) : Covered w' j A := by
  intro o'' k
  rw [ho'] at k
  cases k
  obtain ⟨g, r, hp⟩ := c o ho
  have hf : ∀ a ∈ foot g, w'.heap a = w.heap a := fun a ha => hh a (((hi.rep i o ho).owns a).1 ((r.owns a).2 ha))
  refine ⟨g, ?_, ?_⟩
  · rw [e.1, e.2]; exact r.frame hf
  · have : pot (capOf w'.heap) g = pot (capOf w.heap) g := by
      unfold pot
      rw [over_congr (cap := capOf w.heap) fun a ha => ?_]
      unfold capOf
      rw [hf a (by simp only [foot, List.mem_append]; exact Or.inl ha)]
    rw [this]; exact hp

theorem ite_le_one (p : Prop) [Decidable p] : (if p then 1 else 0) ≤ 1 := by split <;> omega

theorem covered_step {w w' : World} {A : Nat → Account} (hr : Reach w) (hc : ∀ i, Covered w i (A i)) {m : Malloc} {op : Op}
    (hm : GoodMalloc m) (hs : SizeOk op) (he : exec m op w = .ok w') : ∀ i, Covered w' i (charge op w w' A i) := by
  classical
  obtain ⟨G, hi⟩ := reach_inv hr
  have post := exec_inv hm hs hi
  rw [he] at post
  obtain ⟨_, _, _, _, _, _, hheap⟩ := post
  cases op with
  | new i =>
    simp only [exec] at he
    cases ho : w.obj i with
    | some o => rw [ho] at he; cases he
    | none =>
      rw [ho] at he
      rcases new_spec hm hi.hok with ⟨fib, h', e, r, hl, hk⟩ | e
      · simp only at he
        rw [e] at he
        cases he
        intro j
        by_cases hj : j = i
        · subst hj
          intro o' ho'
          simp only [setObj, if_true] at ho'
          cases ho'
          refine ⟨_, r, ?_⟩
          simp only [charge, if_true]
          have : pot (capOf h') ⟨[(fib, [])], none⟩ = 0 := rfl
          show pot (capOf h') ⟨[(fib, [])], none⟩ + _ ≤ _
          split <;> omega
        · simp only [charge, hj, if_false]
          intro o' ho'
          have ho2 := ho'
          simp only [setObj, hj, if_false] at ho2
          exact (hc j).frame hi ho2 ho' ⟨rfl, rfl⟩ (fun a ha => hheap j _ ho2 (by simp) (by simp) (by simp) a ha) o' ho'
      · simp only at he
        rw [e] at he; cases he
  | destroy i =>
    simp only [exec] at he
    split at he
    · rename_i f ho
      obtain ⟨h', e, _, _⟩ := destroy_spec hi.hok (hi.rep i _ ho)
      simp only at e
      rw [e] at he
      cases he
      intro j o' ho'
      have hj : j ≠ i := fun e => by simp [setObj, e] at ho'
      have ho2 := ho'
      simp only [setObj, hj, if_false] at ho2
      exact (hc j).frame hi ho2 ho' ⟨rfl, rfl⟩ (fun a ha => hheap j _ ho2 (by simp) (by simp) (by simpa using fun e => hj e.symm) a ha) o' ho'
    · cases he
  | alloc i size =>
    have hs' : size ≤ maxSize := hs
    simp only [exec] at he
    split at he
    · rename_i f live ho
      obtain ⟨g, r, hp⟩ := hc i _ ho
      rcases allocate_full hm hi.hok r hs' with ⟨fib', p, h', g', e, r', hl, hk, _, gr⟩ | ⟨e, _⟩
      · simp only at e
        rw [e] at he
        cases he
        intro j
        by_cases hj : j = i
        · subst hj
          intro o' ho'
          simp only [setObj, if_true] at ho'
          cases ho'
          refine ⟨g', r', ?_⟩
          simp only [charge, if_true]
          have hup : (size + 15) / 16 * 16 = up size := rfl
          rw [hup]
          show pot (capOf h') g' + _ ≤ _
          rcases alloc_pot r r' hl gr with ⟨sub, k⟩ | k
          · have : ¬ GotBlock w (setObj w j (some ⟨fib', true, (p, size) :: live⟩) h') := by
              rintro ⟨a, h1, h2⟩
              exact h2 (no_block r hl sub h1)
            rw [if_neg this]
            omega
          · have := ite_le_one (GotBlock w (setObj w j (some ⟨fib', true, (p, size) :: live⟩) h'))
            clear hup
            omega
        · simp only [charge, hj, if_false]
          intro o' ho'
          have ho2 := ho'
          simp only [setObj, hj, if_false] at ho2
          exact (hc j).frame hi ho2 ho' ⟨rfl, rfl⟩ (fun a ha => hheap j _ ho2 (by simpa using fun e => absurd e.symm hj) (by simp) (by simp) a ha) o' ho'
      · simp only at e
        rw [e] at he; cases he
    · cases he
  | dealloc i =>
    simp only [exec] at he
    split at he
    · rename_i f p n live ho
      obtain ⟨g, r, hp⟩ := hc i _ ho
      obtain ⟨fib', h', g', e, r', hl, hk, _, dr⟩ := deallocate_full hi.hok r
      simp only at e
      rw [e] at he
      cases he
      intro j
      by_cases hj : j = i
      · subst hj
        intro o' ho'
        simp only [setObj, if_true] at ho'
        cases ho'
        refine ⟨g', r', ?_⟩
        simp only [charge, if_true]
        obtain ⟨sub, k⟩ := dealloc_pot r r' hl dr
        have : ¬ GotBlock w (setObj w j (some ⟨fib', true, live⟩) h') := by
          rintro ⟨a, h1, h2⟩
          exact h2 (no_block r hl sub h1)
        rw [if_neg this]
        show pot (capOf h') g' + _ ≤ _
        omega
      · simp only [charge, hj, if_false]
        intro o' ho'
        have ho2 := ho'
        simp only [setObj, hj, if_false] at ho2
        exact (hc j).frame hi ho2 ho' ⟨rfl, rfl⟩ (fun a ha => hheap j _ ho2 (by simp) (by simpa using fun e => hj e.symm) (by simp) a ha) o' ho'
    · cases he
  | release i j =>
    simp only [exec] at he
    split at he
    · rename_i f live ho hj
      have hij : j ≠ i := fun e => by rw [e, ho] at hj; cases hj
      rw [release_spec (hi.rep i _ ho)] at he
      rcases new_spec hm hi.hok with ⟨fib, h', e, r, hl, hk⟩ | e
      · rw [e] at he
        cases he
        intro k
        by_cases hk : k = i
        · subst hk
          intro o' ho'
          simp only [setObj, if_true] at ho'
          cases ho'
          refine ⟨_, r, ?_⟩
          simp only [charge, if_true]
          have : pot (capOf h') ⟨[(fib, [])], none⟩ = 0 := rfl
          show pot (capOf h') ⟨[(fib, [])], none⟩ + _ ≤ _
          split <;> omega
        · by_cases hkj : k = j
          · subst hkj
            simp only [charge, hk, if_false, if_true]
            intro o' ho'
            have ho2 := ho'
            simp only [setObj, hk, if_false, if_true] at ho2
            cases ho2
            exact (hc i).frame hi ho ho' ⟨rfl, rfl⟩ (fun a ha => hheap i _ ho (by simp) (by simp) (by simp) a ha) _ ho'
          · simp only [charge, hk, hkj, if_false]
            intro o' ho'
            have ho2 := ho'
            simp only [setObj, hk, hkj, if_false] at ho2
            exact (hc k).frame hi ho2 ho' ⟨rfl, rfl⟩ (fun a ha => hheap k _ ho2 (by simp) (by simp) (by simp) a ha) o' ho'
      · rw [e] at he; cases he
    · cases he
  | adopt i =>
    simp only [exec] at he
    split at he
    · rename_i f live ho
      have e := adopt_spec (hi.rep i _ ho)
      simp only at e
      rw [e] at he
      cases he
      intro j o' ho'
      by_cases hj : j = i
      · subst hj
        have ho2 := ho'
        simp only [setObj, if_true] at ho2
        cases ho2
        exact (hc j).frame hi ho ho' ⟨rfl, rfl⟩ (fun _ _ => rfl) _ ho'
      · have ho2 := ho'
        simp only [setObj, hj, if_false] at ho2
        exact (hc j).frame hi ho2 ho' ⟨rfl, rfl⟩ (fun _ _ => rfl) o' ho'
    · cases he
  | swap i j =>
    simp only [exec] at he
    split at he
    · rename_i f l f' l' ho hj
      cases he
      intro k o' ho'
      have ho2 := ho'
      simp only [setObj] at ho2
      simp only [charge]
      by_cases hki : k = i
      · subst hki
        simp only [if_true]
        by_cases hkj : k = j
        · subst hkj
          simp only [if_true] at ho2
          cases ho2
          exact (hc k).frame hi ho ho' ⟨rfl, rfl⟩ (fun _ _ => rfl) _ ho'
        · simp only [hkj, if_false, if_true] at ho2
          cases ho2
          exact (hc j).frame hi hj ho' ⟨rfl, rfl⟩ (fun _ _ => rfl) _ ho'
      · by_cases hkj : k = j
        · subst hkj
          simp only [hki, if_false, if_true] at ho2 ⊢
          cases ho2
          exact (hc i).frame hi ho ho' ⟨rfl, rfl⟩ (fun _ _ => rfl) _ ho'
        · simp only [hki, hkj, if_false] at ho2 ⊢
          exact (hc k).frame hi ho2 ho' ⟨rfl, rfl⟩ (fun _ _ => rfl) o' ho'
    · cases he

theorem hist_covered {w : World} {A : Nat → Account} (h : Hist w A) : ∀ i, Covered w i (A i) := by
  induction h with
  | init A => intro i o ho; simp [World.init] at ho
  | step m op hh hm hs he ih => exact covered_step hh.reach ih hm hs he
  | fail m op hh hm hs he ih =>
    rw [bad_alloc_unchanged hh.reach hm hs he]; exact ih

/-- **C70** (amortised). In every history a stack has got at most one block, and one more for every 2000 bytes that were
allocated on it. -/
theorem C70_amortised {w : World} {A : Nat → Account} (h : Hist w A) {i : Nat} {o : Obj} (ho : w.obj i = some o) :
    2000 * (A i).blocks ≤ 2000 + (A i).pushed := by
  obtain ⟨g, _, hp⟩ := hist_covered h i o ho
  omega

/-- **C70** (no thrashing). After an allocation that is not large for its stacklet has been taken back, an allocation of the
same size, or smaller, needs no block: it succeeds even if `malloc` has no memory left. -/
theorem C70_no_thrash {w w1 w2 : World} (h : Reach w) {i n : Nat} {o : Obj} {b : Blk} (ho : w.obj i = some o)
    (hb : w.heap o.fib = some b) (hn : n + 4110 ≤ 8 * (b.hi - b.lo)) {m m1 m2 : Malloc} (hm : GoodMalloc m) (hm2 : GoodMalloc m2)
    (e1 : exec m (.alloc i n) w = .ok w1) (e2 : exec m1 (.dealloc i) w1 = .ok w2) {k : Nat} (hk : k ≤ n) :
    ∃ w3, exec m2 (.alloc i k) w2 = .ok w3 ∧ ¬ GotBlock w2 w3 := by
  obtain ⟨G, hi⟩ := reach_inv h
  have r := hi.rep i o ho
  have hW := W_eq
  have hs : n ≤ maxSize := by
    obtain ⟨b', hb', gb⟩ := r.block (a := o.fib) (by obtain ⟨al, rest, e⟩ := r.top; simp [foot, e])
    rw [hb] at hb'; cases hb'
    have := gb.addr
    have := gb.hi
    unfold maxAddr at *
    unfold maxSize
    omega
  have hcap : capOf w.heap o.fib = b.hi - b.lo := by simp only [capOf, hb]
  simp only [exec] at e1
  split at e1
  · rename_i f live ho1
    rw [ho] at ho1; cases ho1
    rcases allocate_full hm hi.hok r hs with ⟨fib', p, h1, g1, e, r1, hl1, hk1, _, gr⟩ | ⟨e, _⟩
    · simp only at e hcap hb gr
      rw [e] at e1
      cases e1
      simp only [exec, setObj, if_true] at e2
      obtain ⟨f2, h2, g2, e, r2, hl2, hk2, _, dr⟩ := deallocate_full hk1 r1
      rw [e] at e2
      simp only [finish] at e2
      cases e2
      have hup : up k ≤ up n := by unfold up; omega
      simp only [exec, setObj, if_true]
      have room : ¬ NoRoom h2 f2 k g2 := by
        rintro ⟨n1, n2⟩
        obtain ⟨al2, rest2, hs2⟩ := r2.top
        have n1 := n1 al2 rest2 hs2
        rcases gr with ⟨hc, al, rest, a1, a2⟩ | ⟨hc, a2, a3⟩
        · -- the block was on the top stacklet
          rcases dr with ⟨hd, x, al', rest', b1, b2⟩ | ⟨al', b1, b2⟩
          · rw [a2] at b1
            cases b1
            rw [hs2] at b2
            cases b2
            have c1 := cap_keep r1 r2 hl2 (a := f) (by simp [foot, a2]) (by simp [foot, hs2])
            have c2 := cap_keep r r1 hl1 (a := f) (by simp [foot, a1]) (by simp [foot, a2])
            -- it did fit
            obtain ⟨b3, al3, rest3, hsegs, hb3, gb, _, _, htile, _⟩ := r1.unfold
            rw [a2] at hsegs
            cases hsegs
            have k1 := htile.sp_eq
            have k2 := gb.sp
            have k3 := gb.lo
            have k4 : capOf h1 f = b3.hi - b3.lo := by simp only [capOf, hb3]
            simp only [used] at k1
            omega
          · -- an emptied stacklet that is not the root had another allocation below
            rw [a2] at b1
            have : BotPos al := by
              obtain ⟨b3, al3, rest3, hsegs, _, _, _, _, _, hbot, _⟩ := r.unfold
              have e3 : (f, al) :: rest = (f, al3) :: rest3 := a1.symm.trans hsegs
              cases e3
              refine hbot fun e => ?_
              rw [e] at b1
              have e5 := (List.cons.inj b1).2
              obtain ⟨_, _, e4⟩ := r2.top
              rw [e4] at e5
              cases e5
            have hl2' := r2.live_eq
            have hl1' := r.live_eq
            have h6 := hl2'
            rw [← (List.cons.inj b1).2, hl1', a1] at h6
            have := congrArg List.length h6
            simp only [List.flatMap_cons, List.length_append] at this
            cases al with
            | nil => exact ‹BotPos []›
            | cons y l => simp at this
        · -- the block opened a stacklet
          have c0 : 4000 ≤ capOf w.heap f := by
            obtain ⟨al, rest, e⟩ := r.top
            have := r.snug
            rw [e] at this
            exact this.large
          obtain ⟨alf, restf, ef⟩ := r.top
          have hpos : 0 < n := by
            have := r1.chain
            rw [a2] at this
            exact this.2.1 (by rw [ef]; simp)
          have e5 : g2.segs = (G i).segs := by
            rcases dr with ⟨hd, x, al', rest', b1, b2⟩ | ⟨al', b1, b2⟩
            · exfalso
              rw [a2] at b1
              cases b1
              have := r2.chain
              rw [b2] at this
              exact this.2.1 (by rw [ef]; simp)
            · rw [a2] at b1
              exact (List.cons.inj b1).2.symm
          have hcap1 : capOf h1 fib' ≤ 8 * capOf w.heap f := by
            rcases a3 with a3 | ⟨_, a3⟩
            · have := (r.cached fib' a3).2
              have c2 := cap_keep r r1 hl1 (a := fib') (by simp [foot, a3]) (by simp [foot, a2])
              simp only at this
              omega
            · have : up n ≤ n + 15 := by unfold up; omega
              omega
          have cf1 : capOf h1 f = capOf w.heap f := cap_keep r r1 hl1 (by simp [foot, ef]) (by simp [foot, a2, ef])
          have c1 : capOf h1 fib' ≥ up n := by
            obtain ⟨b3, al3, rest3, hsegs, hb3, gb, _, _, htile, _⟩ := r1.unfold
            rw [a2] at hsegs
            cases hsegs
            have k1 := htile.sp_eq
            have k2 := gb.sp
            have k3 := gb.lo
            have k4 : capOf h1 fib' = b3.hi - b3.lo := by simp only [capOf, hb3]
            simp only [used] at k1
            omega
          rcases dr with ⟨hd, x, al', rest', b1, b2⟩ | ⟨al', b1, b2⟩
          · rw [a2, ef] at b1
            rw [e5, ef] at b2
            cases b1; cases b2
          · rcases b2 with b2 | ⟨b2, al3, rest3, b3, b4⟩
            · have n2 := n2 fib' b2
              have := cap_keep r1 r2 hl2 (a := fib') (by simp [foot, a2]) (by simp [foot, b2])
              omega
            · rw [e5, ef] at b3
              cases b3
              have b5 : 8 * capOf h1 f < capOf h1 fib' := b4
              omega
      have hk' : k ≤ maxSize := Nat.le_trans hk hs
      rcases allocate_full hm2 hk2 r2 hk' with ⟨f3, p3, h3, g3, e, r3, hl3, _, _, gr3⟩ | ⟨_, _, e⟩
      · rw [e]
        refine ⟨_, rfl, ?_⟩
        rintro ⟨a, x1, x2⟩
        refine x2 (no_block r2 hl3 ?_ x1)
        rcases gr3 with ⟨hc, al, rest, a1, a2⟩ | ⟨hc, a2, a3⟩
        · intro q hq; simpa [foot, hc, a1, a2] using hq
        · rcases a3 with a3 | ⟨a3, _⟩
          · intro q hq
            simp only [foot, a2, hc, a3, List.map_cons, List.mem_cons, Option.toList_none, List.append_nil,
              Option.toList_some, List.mem_append, List.not_mem_nil, or_false] at hq ⊢
            rcases hq with hq | hq
            · exact Or.inr hq
            · exact Or.inl hq
          · exfalso
            refine room ⟨fun al rest ea => ?_, a3⟩
            have s3 := r3.snug
            rw [a2, ea] at s3
            have := s3.1.2.1
            simp only [bot] at this
            have c := cap_keep r2 r3 hl3 (a := f2) (by simp [foot, ea]) (by simp [foot, a2, ea])
            omega
      · exact absurd e room
    · simp only at e
      rw [e] at e1; cases e1
  · cases e1

/-! ### Examples: the stack of `Overflow.lean`, with 100 bytes on its first stacklet and 8000 on a second one -/

/-- It holds two blocks, 12192 bytes. -/
example : held exH3 [16384, 32768] = 12192 ∧ held exH3 [16384, 32768] ≤ 81 * liveBytes [(32816, 8000), (16432, 100)] + 36096 := by
  refine ⟨by decide, C70_stack ex_reach (i := 0) rfl (by decide) fun a ha => ?_⟩
  have hb : exH3 32768 = some ⟨8144, 32816, 40816, 40912, 16384, 0⟩ := by decide
  simp only [List.mem_cons, List.not_mem_nil, or_false] at ha
  rcases ha with rfl | rfl
  · exact Owns.prev (b := ⟨8144, 32816, 40816, 40912, 16384, 0⟩) .top hb (by decide)
  · exact .top

example : held exH3 [16384, 32768] ≤ 81 * (8000 + 112) + 36096 :=
  C70_all ex_reach (I := [0]) (fun i o h => by
    by_cases e : i = 0
    · simp [e]
    · simp [e] at h) (by decide) (by decide)

/-- The second block was got by the second allocation. -/
example : ∃ A, Hist ⟨exH3, fun j => if j = 0 then some ⟨32768, true, [(32816, 8000), (16432, 100)]⟩ else none⟩ A ∧
    1 ≤ (A 0).blocks ∧ 8000 ≤ (A 0).pushed ∧ 2000 * (A 0).blocks ≤ 2000 + (A 0).pushed := by
  obtain ⟨A, hA⟩ := ex_reach2.hist
  have h := Hist.step _ (.alloc 0 8000) hA ex_good (by have := W_eq; show 8000 ≤ maxSize; unfold maxSize; omega) ex_exec
  refine ⟨_, h, ?_, ?_, C70_amortised h (i := 0) rfl⟩
  · simp only [charge, if_true]
    rw [if_pos ⟨32768, by decide, by decide⟩]
    omega
  · simp only [charge, if_true]; omega

/-- After it is taken back, 8000 bytes can be allocated again without any memory. -/
example : ∃ w2 w3, exec (only exH2 8144 32768) (.dealloc 0)
      ⟨exH3, fun j => if j = 0 then some ⟨32768, true, [(32816, 8000), (16432, 100)]⟩ else none⟩ = .ok w2 ∧
    exec (fun _ _ => none) (.alloc 0 8000) w2 = .ok w3 := by
  obtain ⟨w2, f', h1, _⟩ := dealloc_ok ex_reach (only exH2 8144 32768) (i := 0) rfl
  obtain ⟨w3, h2, _⟩ := C70_no_thrash (b := ⟨4048, 16432, 16544, 20432, 0, 0⟩) ex_reach2 (i := 0) rfl (by decide) (by decide) ex_good
    (m2 := fun _ _ => none) (fun _ _ _ h => by cases h) ex_exec h1 (Nat.le_refl _)
  exact ⟨w2, w3, h1, h2⟩

end Verif.Stack
