import Mathlib.Data.List.Nodup
import Verif.Stack.Ops

/-!
C06, C07 and C08: the segmented stacks of all workers over one heap.
-/
namespace Verif.Stack

/-! ### The world invariant -/

structure Inv (w : World) (G : Nat → Ghost) : Prop where
  rep : ∀ i o, w.obj i = some o → Rep w.heap o.fib o.live (G i)
  dis : ∀ i j o o', i ≠ j → w.obj i = some o → w.obj j = some o' → ∀ a ∈ foot (G i), a ∉ foot (G j)
  cov : ∀ a b, w.heap a = some b → ∃ i o, w.obj i = some o ∧ a ∈ foot (G i)
  hok : HeapOk w.heap

theorem Chain.mem {h : Heap} {nx : Nat} {l : List Seg} (c : Chain h nx l) {s : Seg} (hs : s ∈ l) :
    ∃ p n, SegOk h s.1 s.2 p n := by
  induction l generalizing nx with
  | nil => simp at hs
  | cons t r ih =>
    rcases List.mem_cons.1 hs with e | hs
    · rw [e]; exact ⟨_, _, c.1⟩
    · exact ih c.2.2 hs

theorem Rep.block {h : Heap} {fib : Nat} {live : List (Nat × Nat)} {g : Ghost} (r : Rep h fib live g) {a : Nat}
    (ha : a ∈ foot g) : ∃ b, h a = some b ∧ Good a b := by
  simp only [foot, List.mem_append, Option.mem_toList, mem_map_fst] at ha
  rcases ha with ⟨s, hs, rfl⟩ | ha
  · obtain ⟨p, n, b, h1, h2, _⟩ := r.chain.mem hs
    exact ⟨b, h1, h2⟩
  · obtain ⟨b, h1, h2, _⟩ := (r.cached a ha).1
    exact ⟨b, h1, h2⟩

/-- Replacing one object. -/
theorem inv_update {w : World} {G : Nat → Ghost} (hi : Inv w G) (i : Nat) {F F' : List Nat} {h' : Heap} {no : Option Obj}
    {g' : Ghost} (hF : (∃ o, w.obj i = some o ∧ F = foot (G i)) ∨ (w.obj i = none ∧ F = []))
    (hl : Local w.heap F h' F') (hk : HeapOk h')
    (hn : (no = none ∧ F' = []) ∨ ∃ o', no = some o' ∧ Rep h' o'.fib o'.live g' ∧ F' = foot g') :
    Inv (setObj w i no h') (fun j => if j = i then g' else G j) := by
  have hother : ∀ j o, j ≠ i → w.obj j = some o → ∀ a ∈ foot (G j), a ∉ F ∧ a ∉ F' := by
    intro j o hj ho a ha
    have h1 : a ∉ F := by
      rcases hF with ⟨o', ho', rfl⟩ | ⟨_, rfl⟩
      · exact hi.dis j i o o' hj ho ho' a ha
      · simp
    refine ⟨h1, fun h2 => ?_⟩
    rcases hl.new a h2 with h3 | h3
    · exact h1 h3
    · obtain ⟨b, hb, _⟩ := (hi.rep j o ho).block ha
      rw [h3] at hb; cases hb
  have hfr : ∀ j o, j ≠ i → w.obj j = some o → Rep h' o.fib o.live (G j) := by
    intro j o hj ho
    refine (hi.rep j o ho).frame fun a ha => ?_
    have := hother j o hj ho a ha
    exact hl.out a this.1 this.2
  refine ⟨?_, ?_, ?_, hk⟩
  · intro j o ho
    simp only [setObj] at ho
    by_cases hj : j = i
    · subst hj
      simp only [if_true] at ho ⊢
      rcases hn with ⟨rfl, _⟩ | ⟨o', rfl, h1, _⟩
      · cases ho
      · cases ho; exact h1
    · simp only [hj, if_false] at ho ⊢
      exact hfr j o hj ho
  · intro j k o o' hjk ho ho' a ha
    simp only [setObj] at ho ho'
    by_cases hj : j = i
    · subst hj
      have hk' : k ≠ j := Ne.symm hjk
      simp only [if_true, hk', if_false] at ho ho' ha ⊢
      rcases hn with ⟨rfl, _⟩ | ⟨o2, rfl, _, hf⟩
      · cases ho
      · rw [← hf] at ha
        exact fun h => (hother k o' hk' ho' a h).2 ha
    · by_cases hk' : k = i
      · subst hk'
        simp only [if_true, hj, if_false] at ho ho' ha ⊢
        rcases hn with ⟨rfl, _⟩ | ⟨o2, rfl, _, hf⟩
        · cases ho'
        · rw [← hf]; exact (hother j o hj ho a ha).2
      · simp only [hj, hk', if_false] at ho ho' ha ⊢
        exact hi.dis j k o o' hjk ho ho' a ha
  · intro a b hb
    simp only [setObj] at hb ⊢
    by_cases ha : a ∈ F'
    · rcases hn with ⟨_, rfl⟩ | ⟨o', rfl, _, hf⟩
      · simp at ha
      · exact ⟨i, o', by simp, by simp; rw [← hf]; exact ha⟩
    · by_cases haF : a ∈ F
      · rw [hl.gone a haF ha] at hb; cases hb
      · rw [hl.out a haF ha] at hb
        obtain ⟨j, o, ho, hm⟩ := hi.cov a b hb
        have hj : j ≠ i := by
          rintro rfl
          rcases hF with ⟨o', ho', rfl⟩ | ⟨hn', _⟩
          · exact haF hm
          · rw [hn'] at ho; cases ho
        exact ⟨j, o, by simp [hj, ho], by simp [hj, hm]⟩

/-- Renaming an object. -/
theorem inv_rename {w : World} {G : Nat → Ghost} (hi : Inv w G) {i j : Nat} {o : Obj} (hij : i ≠ j) (ho : w.obj i = some o)
    (hj : w.obj j = none) (b : Bool) : Inv ⟨w.heap, fun k => if k = i then none else if k = j then some ⟨o.fib, b, o.live⟩ else w.obj k⟩
      (fun k => if k = j then G i else G k) := by
  have key : ∀ k o', (if k = i then none else if k = j then some ⟨o.fib, b, o.live⟩ else w.obj k) = some o' →
      ∃ k' o'', w.obj k' = some o'' ∧ (if k = j then G i else G k) = G k' ∧ k' = (if k = j then i else k) ∧
        o'.fib = o''.fib ∧ o'.live = o''.live := by
    intro k o' h
    by_cases h1 : k = i
    · simp [h1] at h
    · by_cases h2 : k = j
      · simp only [h2, if_false, if_true, hij.symm] at h ⊢
        cases h
        exact ⟨i, o, ho, rfl, rfl, rfl, rfl⟩
      · simp only [h1, h2, if_false] at h ⊢
        exact ⟨k, o', h, rfl, rfl, rfl, rfl⟩
  refine ⟨?_, ?_, ?_, hi.hok⟩
  · intro k o' h
    obtain ⟨k', o'', h1, h2, _, h3, h4⟩ := key k o' h
    show Rep w.heap o'.fib o'.live (if k = j then G i else G k)
    rw [h2, h3, h4]
    exact hi.rep k' o'' h1
  · intro k l o1 o2 hkl h1 h2 a ha
    obtain ⟨k', o1', k1, k2, k3, _⟩ := key k o1 h1
    obtain ⟨l', o2', l1, l2, l3, _⟩ := key l o2 h2
    change a ∈ foot (if k = j then G i else G k) at ha
    show a ∉ foot (if l = j then G i else G l)
    rw [k2] at ha
    rw [l2]
    refine hi.dis k' l' o1' o2' ?_ k1 l1 a ha
    rw [k3, l3]
    by_cases e1 : k = j
    · by_cases e2 : l = j
      · omega
      · simp only [e1, e2, if_true, if_false]; intro e; rw [← e] at h2; simp at h2
    · by_cases e2 : l = j
      · simp only [e1, e2, if_true, if_false]; intro e; rw [e] at h1; simp at h1
      · simp only [e1, e2, if_false]; exact hkl
  · intro a b' hb
    obtain ⟨k, o', h1, h2⟩ := hi.cov a b' hb
    by_cases e : k = i
    · subst e
      rw [ho] at h1; cases h1
      exact ⟨j, _, by simp [hij.symm]; rfl, by simpa using h2⟩
    · have : k ≠ j := fun e => by rw [e, hj] at h1; cases h1
      exact ⟨k, o', by simp [e, this, h1], by simp [this, h2]⟩

/-- The requests to `alloc` that the property ranges over: those whose size computation does not wrap (see C08). -/
def SizeOk : Op → Prop
  | .alloc _ size => size ≤ maxSize
  | _ => True

/-- What an operation does to the invariant. -/
def Post (op : Op) (w : World) (G : Nat → Ghost) : Outcome → Prop
    | .ok w' => ∃ G', Inv w' G' ∧ (∀ i, (∀ n, op ≠ .alloc i n) → op ≠ .dealloc i → ∀ o o', w.obj i = some o →
        w'.obj i = some o' → o.owned = true → (∀ j, op ≠ .release i j) → (∀ j, op ≠ .swap i j ∧ op ≠ .swap j i) → G' i = G i ∧ o' = o)
        ∧ (∀ i n, op = .alloc i n → popSegs (G' i).segs = (G i).segs)
        ∧ (∀ i, op = .dealloc i → (G' i).segs = popSegs (G i).segs)
        ∧ (∀ i, ((∃ n, op = .alloc i n) ∨ op = .dealloc i) → ∀ a ∈ foot (G i), a ∈ foot (G' i) → (w'.heap a).map (·.size) = (w.heap a).map (·.size))
        ∧ (∀ i o, w.obj i = some o → (∀ n, op ≠ .alloc i n) → op ≠ .dealloc i → op ≠ .destroy i → ∀ a ∈ foot (G i), w'.heap a = w.heap a)
    | .badAlloc w' => w' = w
    | .ub => False
    | .misuse => True

theorem exec_inv {m : Malloc} (hm : GoodMalloc m) {op : Op} (hs : SizeOk op) {w : World} {G : Nat → Ghost} (hi : Inv w G) :
    Post op w G (exec m op w) := by
  cases op with
  | new i =>
    simp only [exec]
    cases ho : w.obj i with
    | some o => trivial
    | none =>
      dsimp only
      rcases new_spec hm hi.hok with ⟨fib, h', e, hr, hl, hk⟩ | e
      · rw [e]
        dsimp only [finish, Post]
        refine ⟨_, inv_update hi i (Or.inr ⟨ho, rfl⟩) hl hk (Or.inr ⟨_, rfl, hr, rfl⟩), ?_, by simp, by simp, by simp, ?_⟩
        · intro j _ _ o o' h1 h2 _ _ _
          have hj : j ≠ i := fun e => by rw [e, ho] at h1; cases h1
          simp only [setObj, hj, if_false] at h2
          rw [h1] at h2; cases h2
          simp [hj]
        · intro j o h1 _ _ _ a ha
          obtain ⟨b, hb, _⟩ := (hi.rep j o h1).block ha
          refine hl.out a (by simp) fun h2 => ?_
          rcases hl.new a h2 with h3 | h3
          · simp at h3
          · rw [h3] at hb; cases hb
      · rw [e]; exact rfl
  | destroy i =>
    simp only [exec]
    split
    · rename_i f ho
      have hr := hi.rep i _ ho
      obtain ⟨h', e, hl, hk⟩ := destroy_spec hi.hok hr
      simp only at e
      rw [e]
      dsimp only [finish, Post]
      refine ⟨_, inv_update (g' := G i) hi i (Or.inl ⟨_, ho, rfl⟩) hl hk (Or.inl ⟨rfl, rfl⟩), ?_, by simp, by simp, by simp, ?_⟩
      · intro j _ _ o o' h1 h2 _ _ _
        have hj : j ≠ i := fun e => by simp [setObj, e] at h2
        simp only [setObj, hj, if_false] at h2
        rw [h1] at h2; cases h2
        simp [hj]
      · intro j o h1 _ _ hd a ha
        have hj : j ≠ i := fun e => hd (by rw [e])
        exact hl.out a (fun h2 => hi.dis j i o _ hj h1 ho a ha h2) (by simp)
    · trivial
  | alloc i size =>
    simp only [exec]
    split
    · rename_i f live ho
      have hr := hi.rep i _ ho
      rcases allocate_spec hm hi.hok hr hs with ⟨fib', p, h', g', e, hr', hl, hk, hp⟩ | ⟨e, _⟩
      · simp only at e
        rw [e]
        dsimp only [finish, Post]
        refine ⟨_, inv_update hi i (Or.inl ⟨_, ho, rfl⟩) hl hk (Or.inr ⟨_, rfl, hr', rfl⟩), ?_, ?_, by simp, ?_, ?_⟩
        · intro j hj1 _ o o' h1 h2 _ _ _
          have hj : j ≠ i := fun e => hj1 size (by rw [e])
          simp only [setObj, hj, if_false] at h2
          rw [h1] at h2; cases h2
          simp [hj]
        · intro j n e; cases e; simpa using hp
        · intro j hj a h1 h2
          have : j = i := by
            rcases hj with ⟨n, e⟩ | e
            · cases e; rfl
            · cases e
          subst this
          simp only [if_true] at h2
          exact hl.keep a h1 h2
        · intro j o h1 hj1 _ _ a ha
          have hj : j ≠ i := fun e => hj1 size (by rw [e])
          obtain ⟨b, hb, _⟩ := (hi.rep j o h1).block ha
          have h3 := hi.dis j i o _ hj h1 ho a ha
          refine hl.out a h3 fun h2 => ?_
          rcases hl.new a h2 with h4 | h4
          · exact h3 h4
          · rw [h4] at hb; cases hb
      · simp only at e
        rw [e]; exact rfl
    · trivial
  | dealloc i =>
    simp only [exec]
    split
    · rename_i f p n live ho
      have hr := hi.rep i _ ho
      obtain ⟨fib', h', g', e, hr', hl, hk, hp⟩ := deallocate_spec hi.hok hr
      simp only at e
      rw [e]
      dsimp only [finish, Post]
      refine ⟨_, inv_update hi i (Or.inl ⟨_, ho, rfl⟩) hl hk (Or.inr ⟨_, rfl, hr', rfl⟩), ?_, by simp, ?_, ?_, ?_⟩
      · intro j _ hj1 o o' h1 h2 _ _ _
        have hj : j ≠ i := fun e => hj1 (by rw [e])
        simp only [setObj, hj, if_false] at h2
        rw [h1] at h2; cases h2
        simp [hj]
      · intro j e; cases e; simpa using hp
      · intro j hj a h1 h2
        have : j = i := by
          rcases hj with ⟨n, e⟩ | e
          · cases e
          · cases e; rfl
        subst this
        simp only [if_true] at h2
        exact hl.keep a h1 h2
      · intro j o h1 _ hj1 _ a ha
        have hj : j ≠ i := fun e => hj1 (by rw [e])
        obtain ⟨b, hb, _⟩ := (hi.rep j o h1).block ha
        have h3 := hi.dis j i o _ hj h1 ho a ha
        refine hl.out a h3 fun h2 => ?_
        rcases hl.new a h2 with h4 | h4
        · exact h3 h4
        · rw [h4] at hb; cases hb
    · trivial
  | release i j =>
    simp only [exec]
    split
    · rename_i f live ho hj
      have hij : i ≠ j := fun e => by rw [e, hj] at ho; cases ho
      have hr := hi.rep i _ ho
      rw [release_spec hr]
      have hi1 := inv_rename hi hij ho hj false
      rcases new_spec hm hi.hok with ⟨fib, h', e, hr', hl, hk⟩ | e
      · rw [e]
        have hi2 := inv_update hi1 i (F := []) (no := some ⟨fib, true, []⟩) (Or.inr ⟨by simp, rfl⟩) hl hk (Or.inr ⟨_, rfl, hr', rfl⟩)
        have eq : setObj (setObj w j (some ⟨f, false, live⟩) h') i (some ⟨fib, true, []⟩) h' =
            setObj ⟨w.heap, fun k => if k = i then none else if k = j then some ⟨f, false, live⟩ else w.obj k⟩ i
              (some ⟨fib, true, []⟩) h' := by
          simp only [setObj]
          congr 1
          funext k
          by_cases e1 : k = i
          · simp [e1]
          · simp [e1]
        dsimp only [finish, Post]
        rw [eq]
        refine ⟨_, hi2, ?_, by simp, by simp, by simp, ?_⟩
        · intro k _ _ o o' h1 h2 _ hk1 _
          have hk : k ≠ i := fun e => hk1 j (by rw [e])
          have hk2 : k ≠ j := fun e => by rw [e, hj] at h1; cases h1
          simp only [setObj, hk, hk2, if_false] at h2
          rw [h1] at h2; cases h2
          simp [hk, hk2]
        · intro k o h1 _ _ _ a ha
          obtain ⟨b, hb, _⟩ := (hi.rep k o h1).block ha
          refine hl.out a (by simp) fun h2 => ?_
          rcases hl.new a h2 with h3 | h3
          · simp at h3
          · rw [h3] at hb; cases hb
      · rw [e]; exact rfl
    · trivial
  | adopt i =>
    simp only [exec]
    split
    · rename_i f live ho
      have hr := hi.rep i _ ho
      have e := adopt_spec hr
      simp only at e
      rw [e]
      dsimp only [finish, Post]
      refine ⟨_, inv_update hi i (Or.inl ⟨_, ho, rfl⟩) ⟨fun _ _ _ => rfl, fun _ h => Or.inl h, fun _ h h' => absurd h h', fun _ _ _ => rfl⟩ hi.hok
        (Or.inr ⟨_, rfl, hr, rfl⟩), ?_, by simp, by simp, by simp, fun _ _ _ _ _ _ _ _ => rfl⟩
      intro j _ _ o o' h1 h2 how _ _
      have hj : j ≠ i := fun e => by rw [e, ho] at h1; cases h1; simp at how
      simp only [setObj, hj, if_false] at h2
      rw [h1] at h2; cases h2
      simp [hj]
    · trivial
  | swap i j =>
    simp only [exec]
    split
    · rename_i f l f' l' ho hj
      by_cases hij : i = j
      · subst hij
        rw [ho] at hj; cases hj
        have eq : setObj (setObj w i (some ⟨f, true, l⟩) w.heap) i (some ⟨f, true, l⟩) w.heap = w := by
          obtain ⟨h, ob⟩ := w
          simp only [setObj]
          congr 1
          funext k
          by_cases e1 : k = i
          · simp only [e1, if_true]; exact ho.symm
          · simp [e1]
        rw [eq]
        refine ⟨G, hi, ?_, by simp, by simp, by simp, fun _ _ _ _ _ _ _ _ => rfl⟩
        intro k _ _ o o' h1 h2 _ _ _
        rw [h1] at h2; cases h2; exact ⟨rfl, rfl⟩
      · refine ⟨fun k => if k = i then G j else if k = j then G i else G k, ⟨?_, ?_, ?_, hi.hok⟩, ?_, by simp, by simp, by simp, fun _ _ _ _ _ _ _ _ => rfl⟩
        · intro k o h
          simp only [setObj] at h ⊢
          by_cases e2 : k = j
          · subst e2
            simp only [if_true, Ne.symm hij, if_false] at h ⊢
            cases h; exact hi.rep i _ ho
          · by_cases e1 : k = i
            · subst e1
              simp only [if_true, e2, if_false] at h ⊢
              cases h; exact hi.rep j _ hj
            · simp only [e1, e2, if_false] at h ⊢
              exact hi.rep k o h
        · intro k k' o o' hkk h1 h2
          have sw : ∀ q o1, (setObj (setObj w i (some ⟨f', true, l'⟩) w.heap) j (some ⟨f, true, l⟩) w.heap).obj q = some o1 →
              ∃ o2, w.obj (if q = i then j else if q = j then i else q) = some o2 := by
            intro q o1 hq
            simp only [setObj] at hq
            by_cases e1 : q = i
            · simp only [e1, if_true]; exact ⟨_, hj⟩
            · by_cases e2 : q = j
              · simp only [e2, if_true]
                split
                · exact ⟨_, hj⟩
                · exact ⟨_, ho⟩
              · simp only [e1, e2, if_false] at hq ⊢; exact ⟨_, hq⟩
          have gsw : ∀ q, (if q = i then G j else if q = j then G i else G q) = G (if q = i then j else if q = j then i else q) := by
            intro q; split
            · rfl
            · split <;> rfl
          obtain ⟨o1, k1⟩ := sw k o h1
          obtain ⟨o2, k2⟩ := sw k' o' h2
          simp only [gsw]
          refine hi.dis _ _ o1 o2 ?_ k1 k2
          grind
        · intro a b hb
          obtain ⟨k, o, h1, h2⟩ := hi.cov a b hb
          by_cases e1 : k = i
          · subst e1
            exact ⟨j, _, by simp [setObj]; rfl, by simp [Ne.symm hij, h2]⟩
          · by_cases e2 : k = j
            · subst e2
              exact ⟨i, _, by simp [setObj, hij]; rfl, by simp [h2]⟩
            · exact ⟨k, o, by simp [setObj, e1, e2, h1], by simp [e1, e2, h2]⟩
        · intro k _ _ o o' h1 h2 _ _ hk
          have e1 : k ≠ i := fun e => (hk j).1 (by rw [e])
          have e2 : k ≠ j := fun e => (hk i).2 (by rw [e])
          simp only [setObj, e1, e2, if_false] at h2
          rw [h1] at h2; cases h2
          simp [e1, e2]
    · trivial

/-! ### Reachable worlds -/

/-- Worlds reached by clients that keep to the discipline, whatever `malloc` answers (a different one at every step). -/
inductive Reach : World → Prop
  | init : Reach World.init
  | step {w w' : World} (m : Malloc) (op : Op) : Reach w → GoodMalloc m → SizeOk op → exec m op w = .ok w' → Reach w'
  | fail {w w' : World} (m : Malloc) (op : Op) : Reach w → GoodMalloc m → SizeOk op → exec m op w = .badAlloc w' → Reach w'

theorem reach_inv {w : World} (h : Reach w) : ∃ G, Inv w G := by
  induction h with
  | init =>
    refine ⟨fun _ => ⟨[], none⟩, ⟨?_, ?_, ?_, ?_, ?_⟩⟩ <;> simp [World.init]
  | step m op _ hm hs he ih =>
    obtain ⟨G, hi⟩ := ih
    have := exec_inv hm hs hi
    rw [he] at this
    obtain ⟨G', h, _⟩ := this
    exact ⟨G', h⟩
  | fail m op _ hm hs he ih =>
    obtain ⟨G, hi⟩ := ih
    have := exec_inv hm hs hi
    rw [he] at this
    exact ⟨G, this ▸ hi⟩

theorem Tiles.mem {lo : Nat} {l : List (Nat × Nat)} {sp : Nat} (h : Tiles lo l sp) {p n : Nat} (hp : (p, n) ∈ l) :
    lo ≤ p ∧ p + up n ≤ sp ∧ (16 ∣ lo → 16 ∣ p) := by
  induction l generalizing sp with
  | nil => simp at hp
  | cons x l ih =>
    obtain ⟨q, k⟩ := x
    obtain ⟨h1, h2⟩ := h
    rcases List.mem_cons.1 hp with e | hp
    · cases e
      have := h2.sp_eq
      have e : used l % 16 = 0 := by
        clear ih hp h1 h2 this
        induction l with
        | nil => rfl
        | cons y l ih => simp only [used]; have := up_dvd y.2; omega
      exact ⟨by omega, by omega, fun _ => by omega⟩
    · have := ih h2 hp
      exact ⟨this.1, by omega, this.2.2⟩

theorem Tiles.pairwise {lo : Nat} {l : List (Nat × Nat)} {sp : Nat} (h : Tiles lo l sp) :
    l.Pairwise fun x y => y.1 + y.2 ≤ x.1 := by
  induction l generalizing sp with
  | nil => exact .nil
  | cons x l ih =>
    refine List.pairwise_cons.2 ⟨fun y hy => ?_, ih h.2⟩
    have := Tiles.mem h.2 (p := y.1) (n := y.2) hy
    have := up_ge y.2
    omega

/-- Where an allocation of a stack is. -/
theorem Rep.alloc_in {h : Heap} {fib : Nat} {live : List (Nat × Nat)} {g : Ghost} (r : Rep h fib live g) {p n : Nat}
    (hp : (p, n) ∈ live) : ∃ a ∈ foot g, ∃ b, h a = some b ∧ 16 ∣ p ∧ a + 48 ≤ p ∧ p + n ≤ a + b.size := by
  rw [r.live_eq, List.mem_flatMap] at hp
  obtain ⟨s, hs, hp⟩ := hp
  obtain ⟨pv, nx, b, h1, h2, _, _, h3⟩ := r.chain.mem hs
  have := h3.mem hp
  have := h2.al
  have := h2.sp
  have := h2.hi
  have := up_ge n
  refine ⟨s.1, by simp only [foot, List.mem_append, mem_map_fst]; exact Or.inl ⟨s, hs, rfl⟩, b, h1, ?_, ?_, ?_⟩ <;> omega

/-- Two byte ranges do not overlap. -/
def Disj (x y : Nat × Nat) : Prop := x.1 + x.2 ≤ y.1 ∨ y.1 + y.2 ≤ x.1

theorem Rep.pairwise {h : Heap} (hk : HeapOk h) {fib : Nat} {live : List (Nat × Nat)} {g : Ghost} (r : Rep h fib live g) :
    live.Pairwise Disj := by
  rw [r.live_eq]
  have hnd : (g.segs.map (·.1)).Nodup := (List.nodup_append.1 r.nodup).1
  have hc := r.chain
  generalize g.cache.getD 0 = nx at hc
  generalize g.segs = l at hc hnd
  clear r
  rw [List.flatMap, List.pairwise_flatten]
  refine ⟨?_, ?_⟩
  · intro l' hl'
    rw [List.mem_map] at hl'
    obtain ⟨s, hs, rfl⟩ := hl'
    obtain ⟨_, _, b, _, _, _, _, h3⟩ := hc.mem hs
    exact h3.pairwise.imp fun h => Or.inr h
  · rw [List.pairwise_map]
    have hp : l.Pairwise fun s t => s.1 ≠ t.1 := List.pairwise_map.1 hnd
    refine hp.imp_of_mem fun {s t} hs ht hne x hx y hy => ?_
    obtain ⟨_, _, b, h1, h2, _, _, h3⟩ := hc.mem hs
    obtain ⟨_, _, b', h1', h2', _, _, h3'⟩ := hc.mem ht
    have k1 := h3.mem (p := x.1) (n := x.2) hx
    have k2 := h3'.mem (p := y.1) (n := y.2) hy
    have := hk.dis _ _ _ _ h1 h1' hne
    have := h2.sp; have := h2.hi; have := h2'.sp; have := h2'.hi; have := up_ge x.2; have := up_ge y.2
    unfold Disj
    omega

/-! ### C06 -/

/-- **C06** (alignment, bounds). In every reachable world every live allocation, of every stack and released stacklet, is
aligned to 16 bytes and lies, with all the bytes asked for, inside one live heap block and behind its header. -/
theorem alloc_in_bounds {w : World} (h : Reach w) {i : Nat} {o : Obj} (ho : w.obj i = some o) {p n : Nat}
    (hp : (p, n) ∈ o.live) :
    16 ∣ p ∧ ∃ a b, w.heap a = some b ∧ a + hdr ≤ p ∧ p + n ≤ a + b.size := by
  obtain ⟨G, hi⟩ := reach_inv h
  obtain ⟨a, _, b, h1, h2, h3, h4⟩ := (hi.rep i o ho).alloc_in hp
  exact ⟨h2, a, b, h1, h3, h4⟩

/-- **C06** (disjointness). Two different live allocations, of the same stack or of different ones, do not overlap. -/
theorem allocs_disjoint {w : World} (h : Reach w) {i j : Nat} {o o' : Obj} (hi : w.obj i = some o) (hj : w.obj j = some o')
    (k l : Nat) (hk : k < o.live.length) (hl : l < o'.live.length) (hne : ¬ (i = j ∧ k = l)) :
    Disj o.live[k] o'.live[l] := by
  obtain ⟨G, hv⟩ := reach_inv h
  by_cases e : i = j
  · subst e
    rw [hi] at hj; cases hj
    have hp := (hv.rep i o hi).pairwise hv.hok
    rw [List.pairwise_iff_getElem] at hp
    rcases Nat.lt_or_gt_of_ne (fun e => hne ⟨rfl, e⟩) with c | c
    · exact hp k l hk hl c
    · rcases hp l k hl hk c with h | h
      · exact Or.inr h
      · exact Or.inl h
  · obtain ⟨a, ha, b, h1, _, h2, h3⟩ := (hv.rep i o hi).alloc_in (p := o.live[k].1) (n := o.live[k].2) (List.getElem_mem hk)
    obtain ⟨a', ha', b', h1', _, h2', h3'⟩ := (hv.rep j o' hj).alloc_in (p := o'.live[l].1) (n := o'.live[l].2) (List.getElem_mem hl)
    have hab : a ≠ a' := fun e' => hv.dis i j o o' e hi hj a ha (e' ▸ ha')
    have := hv.hok.dis a a' b b' h1 h1' hab
    unfold Disj
    omega

/-! ### C07 -/

/-- **C07** (safety). No operation of a disciplined client dereferences or frees a dead block or fails an assertion. -/
theorem no_ub {w : World} (h : Reach w) {m : Malloc} (hm : GoodMalloc m) {op : Op} (hs : SizeOk op) : exec m op w ≠ .ub := by
  obtain ⟨G, hi⟩ := reach_inv h
  intro e
  have := exec_inv hm hs hi
  rw [e] at this
  exact this

/-- **C07** (failure). When memory is exhausted nothing changes. -/
theorem bad_alloc_unchanged {w w' : World} (h : Reach w) {m : Malloc} (hm : GoodMalloc m) {op : Op} (hs : SizeOk op)
    (e : exec m op w = .badAlloc w') : w' = w := by
  obtain ⟨G, hi⟩ := reach_inv h
  have := exec_inv hm hs hi
  rw [e] at this
  exact this

/-- **C07** (no spurious failure). An allocation fails only if `malloc` refuses at most twice the capacity of the top
stacklet, or the request, plus headers and rounding to a page. -/
theorem alloc_fails_only_if {w w' : World} (h : Reach w) {m : Malloc} (hm : GoodMalloc m) {i size : Nat} (hs : size ≤ maxSize)
    (e : exec m (.alloc i size) w = .badAlloc w') :
    ∃ o b r, w.obj i = some o ∧ w.heap o.fib = some b ∧ m w.heap r = none ∧ r < max (2 * (b.hi - b.lo)) (size + 15) + 96 + 4096 := by
  obtain ⟨G, hi⟩ := reach_inv h
  simp only [exec] at e
  split at e
  · rename_i f live ho
    have hr := hi.rep i _ ho
    obtain ⟨b, al, rest, hsegs, hb, _⟩ := hr.unfold
    rcases allocate_spec hm hi.hok hr hs with ⟨fib', p, h', g', e', _⟩ | ⟨_, e'⟩
    · simp only at e'
      rw [e'] at e; cases e
    · refine ⟨_, b, _, ho, hb, e', ?_⟩
      simp only at hb
      have hu : up size ≤ size + 15 := by unfold up; omega
      simp only [capOf, hb]
      unfold request
      omega
  · cases e

/-- **C07** (deallocation succeeds) and takes exactly the newest allocation away. -/
theorem dealloc_ok {w : World} (h : Reach w) (m : Malloc) {i f p n : Nat} {live : List (Nat × Nat)}
    (ho : w.obj i = some ⟨f, true, (p, n) :: live⟩) :
    ∃ w' f', exec m (.dealloc i) w = .ok w' ∧ w'.obj i = some ⟨f', true, live⟩ := by
  obtain ⟨G, hi⟩ := reach_inv h
  obtain ⟨fib', h', g', e, _⟩ := deallocate_spec hi.hok (hi.rep i _ ho)
  refine ⟨setObj w i (some ⟨fib', true, live⟩) h', fib', ?_, by simp [setObj]⟩
  simp only [exec]
  rw [ho]
  simp only at e ⊢
  rw [e]; rfl

/-- **C07** (no leak). Once all stacks are destroyed the heap is empty. -/
theorem no_leak {w : World} (h : Reach w) (hn : ∀ i, w.obj i = none) (a : Nat) : w.heap a = none := by
  obtain ⟨G, hi⟩ := reach_inv h
  cases hb : w.heap a with
  | none => rfl
  | some b =>
    obtain ⟨i, o, h1, _⟩ := hi.cov a b hb
    rw [hn i] at h1; cases h1

/-- The blocks of a stack, from the top stacklet: those below it, and its spare. -/
inductive Owns (h : Heap) (fib : Nat) : Nat → Prop
  | top : Owns h fib fib
  | prev {a : Nat} {b : Blk} : Owns h fib a → h a = some b → b.prev ≠ 0 → Owns h fib b.prev
  | spare {b : Blk} : h fib = some b → b.next ≠ 0 → Owns h fib b.next

theorem Chain.prev_mem {h : Heap} {nx : Nat} {l : List Seg} (c : Chain h nx l) {a : Nat} {b : Blk} (ha : a ∈ l.map (·.1))
    (hb : h a = some b) (hp : b.prev ≠ 0) : b.prev ∈ l.map (·.1) := by
  induction l generalizing nx with
  | nil => simp at ha
  | cons s r ih =>
    simp only [List.map_cons, List.mem_cons] at ha ⊢
    rcases ha with e | ha
    · obtain ⟨b', h1, _, h2, _⟩ := c.1
      rw [← e, hb] at h1; cases h1
      cases r with
      | nil => exact absurd h2 hp
      | cons t r => right; simp [h2, prevOf]
    · exact Or.inr (ih c.2.2 ha)

theorem Rep.owns {h : Heap} {fib : Nat} {live : List (Nat × Nat)} {g : Ghost} (r : Rep h fib live g) (a : Nat) :
    Owns h fib a ↔ a ∈ foot g := by
  obtain ⟨b, al, rest, hsegs, hb, gb, hprev, hnext, htile, hbot, hchain, hnot, hcache⟩ := r.unfold
  have hmem : ∀ q, q ∈ foot g ↔ q = fib ∨ q ∈ rest.map (·.1) ∨ g.cache = some q := by
    intro q; simp only [foot, hsegs, List.map_cons, List.mem_append, List.mem_cons, Option.mem_toList]; grind
  rw [hmem]
  constructor
  · intro ho
    induction ho with
    | top => exact Or.inl rfl
    | @prev a b' _ h1 h2 ih =>
      have hc := r.chain
      rcases ih with e | e | e
      · have := hc.prev_mem (a := a) (b := b') (by simp [hsegs, e]) h1 h2
        simp only [hsegs, List.map_cons, List.mem_cons] at this
        rcases this with k | k
        · exact Or.inl k
        · exact Or.inr (Or.inl k)
      · exact Or.inr (Or.inl (hchain.prev_mem e h1 h2))
      · obtain ⟨_, _, n, k1, _, k2, _⟩ := hcache a e
        rw [h1] at k1; cases k1
        rw [k2]; exact Or.inl rfl
    | @spare b' h1 h2 =>
      rw [hb] at h1; cases h1
      right; right
      cases hg : g.cache with
      | none => rw [hnext, hg] at h2; exact absurd rfl h2
      | some c => rw [hnext, hg]; rfl
  · rintro (rfl | e | e)
    · exact .top
    · have : ∀ (l : List Seg) (nx : Nat), Chain h nx l → ∀ q ∈ l.map (·.1), prevOf l ≠ 0 → Owns h fib (prevOf l) → Owns h fib q := by
        intro l
        induction l with
        | nil => simp
        | cons s r ih =>
          intro nx hc q hq h0 ho
          simp only [List.map_cons, List.mem_cons] at hq
          rcases hq with rfl | hq
          · exact ho
          · obtain ⟨b', h1, _, h2, _⟩ := hc.1
            cases r with
            | nil => simp at hq
            | cons t r =>
              have hz : t.1 ≠ 0 := by obtain ⟨_, _, k, _⟩ := hc.2.2.1; exact k.nz
              have hp : b'.prev = t.1 := h2
              exact ih _ hc.2.2 q hq hz (by show Owns h fib t.1; rw [← hp]; exact .prev ho h1 (by rw [hp]; exact hz))
      cases rest with
      | nil => simp at e
      | cons t r =>
        have hz : t.1 ≠ 0 := by obtain ⟨_, _, k, _⟩ := hchain.1; exact k.nz
        refine this _ _ hchain a e hz ?_
        show Owns h fib t.1
        have hp : b.prev = t.1 := hprev
        rw [← hp]; exact .prev .top hb (by rw [hp]; exact hz)
    · obtain ⟨_, _, n, k1, k2, _⟩ := hcache a e
      have hn : b.next = a := by rw [hnext, e]; rfl
      rw [← hn]
      exact .spare hb (by rw [hn]; exact k2.nz)

/-- **C07** (ownership). Every live block belongs to exactly one stack or released stacklet. -/
theorem unique_owner {w : World} (h : Reach w) {a : Nat} {b : Blk} (hb : w.heap a = some b) :
    ∃ i o, w.obj i = some o ∧ Owns w.heap o.fib a ∧
      ∀ j o', w.obj j = some o' → Owns w.heap o'.fib a → j = i := by
  obtain ⟨G, hi⟩ := reach_inv h
  obtain ⟨i, o, h1, h2⟩ := hi.cov a b hb
  refine ⟨i, o, h1, ((hi.rep i o h1).owns a).2 h2, fun j o' h3 h4 => ?_⟩
  rw [(hi.rep j o' h3).owns] at h4
  by_cases e : j = i
  · exact e
  · exact absurd h2 (hi.dis j i o' o e h3 h1 a h4)

/-- **C07** (the spare). Above the top stacklet there is at most one more, empty, and at most eight times as large. -/
theorem spare_bounded {w : World} (h : Reach w) {i : Nat} {o : Obj} (ho : w.obj i = some o) :
    ∃ b, w.heap o.fib = some b ∧ (b.next = 0 ∨ ∃ n, w.heap b.next = some n ∧ n.next = 0 ∧ n.sp = n.lo ∧
      n.hi - n.lo ≤ 8 * (b.hi - b.lo)) := by
  obtain ⟨G, hi⟩ := reach_inv h
  obtain ⟨b, al, rest, hsegs, hb, gb, hprev, hnext, htile, hbot, hchain, hnot, hcache⟩ := (hi.rep i o ho).unfold
  refine ⟨b, hb, ?_⟩
  cases hg : (G i).cache with
  | none => left; rw [hnext, hg]; rfl
  | some c =>
    obtain ⟨_, _, n, k1, _, _, k2, k3, k4⟩ := hcache c hg
    right; rw [hnext, hg]
    exact ⟨n, k1, k2, k3, k4⟩

/-- **C07** (an empty stack is small). A stack without allocations has one stacklet and perhaps a spare. -/
theorem empty_small {w : World} (h : Reach w) {i : Nat} {o : Obj} (ho : w.obj i = some o) (hl : o.live = []) :
    ∃ b, w.heap o.fib = some b ∧ b.sp = b.lo ∧ b.prev = 0 ∧ ∀ a, Owns w.heap o.fib a → a = o.fib ∨ a = b.next := by
  obtain ⟨G, hi⟩ := reach_inv h
  have r := hi.rep i o ho
  obtain ⟨b, al, rest, hsegs, hb, gb, hprev, hnext, htile, hbot, hchain, hnot, hcache⟩ := r.unfold
  have hlive := r.live_eq
  rw [hsegs, hl] at hlive
  have hal : al = [] := by
    cases al with
    | nil => rfl
    | cons x l => simp at hlive
  subst hal
  have hrest : rest = [] := by
    cases rest with
    | nil => rfl
    | cons s l => exact (hbot (by simp)).elim
  subst hrest
  refine ⟨b, hb, by rw [gb.lo]; exact htile, hprev, fun a ha => ?_⟩
  rw [r.owns, foot, hsegs] at ha
  simp only [List.map_cons, List.map_nil, List.singleton_append, List.mem_cons, Option.mem_toList] at ha
  rcases ha with e | e
  · exact Or.inl e
  · right; rw [hnext, e]; rfl

/-- `empty()` answers whether no byte is allocated. -/
theorem empty_correct {w : World} (h : Reach w) {i : Nat} {o : Obj} (ho : w.obj i = some o) :
    empty o.fib w.heap = .ok (decide (∀ x ∈ o.live, x.2 = 0)) w.heap := by
  obtain ⟨G, hi⟩ := reach_inv h
  exact empty_spec (hi.rep i o ho)

/-- The operations that may happen while stack `i` stays in the hands of its client, who only allocates and deallocates on it
and never takes back the allocations `base` that were there at the start: everything else may happen to other stacks. -/
def Leaves (i : Nat) (op : Op) : Prop :=
  op ≠ .destroy i ∧ (∀ j, op ≠ .release i j) ∧ ∀ j, op ≠ .swap i j ∧ op ≠ .swap j i

inductive Lifo (i : Nat) (base : List (Nat × Nat)) : World → World → Prop
  | refl (w : World) : Lifo i base w w
  | step {w w' w'' : World} {o : Obj} (m : Malloc) (op : Op) : Lifo i base w w' → GoodMalloc m → SizeOk op → Leaves i op →
      exec m op w' = .ok w'' → w''.obj i = some o → base <:+ o.live → Lifo i base w w''
  | fail {w w' w'' : World} (m : Malloc) (op : Op) : Lifo i base w w' → GoodMalloc m → SizeOk op →
      exec m op w' = .badAlloc w'' → Lifo i base w w''

def iter {α : Type} (f : α → α) : Nat → α → α
  | 0, x => x
  | n + 1, x => iter f n (f x)

theorem popSegs_subset (l : List Seg) : ∀ a ∈ (popSegs l).map (·.1), a ∈ l.map (·.1) := by
  intro a ha
  unfold popSegs at ha
  split at ha
  · split at ha
    · simp only [List.map_cons, List.mem_cons]; exact Or.inr ha
    · exact ha
  · exact ha

theorem iter_subset (k : Nat) (l : List Seg) : ∀ a ∈ (iter popSegs k l).map (·.1), a ∈ l.map (·.1) := by
  induction k generalizing l with
  | zero => exact fun a h => h
  | succ k ih => intro a ha; exact popSegs_subset l a (ih _ a ha)

/-- What `Lifo` preserves. -/
structure Above (i : Nat) (base : List (Nat × Nat)) (S : List Seg) (h0 : Heap) (w : World) (G : Nat → Ghost) : Prop where
  inv : Inv w G
  obj : ∃ o, w.obj i = some o ∧ o.owned = true ∧ base <:+ o.live ∧ iter popSegs (o.live.length - base.length) (G i).segs = S
  size : ∀ a ∈ S.map (·.1), (w.heap a).map (·.size) = (h0 a).map (·.size)

theorem above_step {i : Nat} {base : List (Nat × Nat)} {S : List Seg} {h0 : Heap} {w w' : World} {G : Nat → Ghost} (ha : Above i base S h0 w G)
    {m : Malloc} (hm : GoodMalloc m) {op : Op} (hs : SizeOk op) (hlv : Leaves i op) (he : exec m op w = .ok w') {o' : Obj} (ho' : w'.obj i = some o')
    (hb' : base <:+ o'.live) : ∃ G', Above i base S h0 w' G' := by
  obtain ⟨o, ho, how, hb, hit⟩ := ha.obj
  have hx := exec_inv hm hs ha.inv
  rw [he] at hx
  obtain ⟨G', hi', hsame, halloc, hdealloc, hkeep, hout⟩ := hx
  suffices hX : (∃ o, w'.obj i = some o ∧ o.owned = true ∧ base <:+ o.live ∧
      iter popSegs (o.live.length - base.length) (G' i).segs = S) ∧
      ∀ a ∈ S.map (·.1), (w'.heap a).map (·.size) = (h0 a).map (·.size) from ⟨G', hi', hX.1, hX.2⟩
  by_cases h1 : ∃ n, op = .alloc i n
  · obtain ⟨n, rfl⟩ := h1
    have hp := halloc i n rfl
    simp only [exec] at he
    rw [ho] at he
    obtain ⟨f, ow, live⟩ := o
    simp only at how; subst how
    simp only at he
    have : ∃ p, o'.owned = true ∧ o'.live = (p, n) :: live := by
      cases hr : allocate m f n w.heap with
      | ok a h =>
        rw [hr] at he
        simp only [finish, Outcome.ok.injEq] at he
        subst he
        simp only [setObj, if_true, Option.some.injEq] at ho'
        subst ho'
        exact ⟨_, rfl, rfl⟩
      | badAlloc h => rw [hr] at he; cases he
      | ub => rw [hr] at he; cases he
    obtain ⟨p, q1, q2⟩ := this
    have hlen := hb.length_le
    have hitS : iter popSegs (o'.live.length - base.length) (G' i).segs = S := by
      rw [q2, List.length_cons, Nat.sub_add_comm hlen]
      show iter popSegs _ (popSegs (G' i).segs) = S
      rw [hp]; exact hit
    refine ⟨⟨o', ho', q1, hb', hitS⟩, fun a haS => ?_⟩
    rw [← ha.size a haS]
    refine hkeep i (Or.inl ⟨n, rfl⟩) a ?_ ?_
    · rw [← hit] at haS
      simp only [foot, List.mem_append]; exact Or.inl (iter_subset _ _ a haS)
    · rw [← hitS] at haS
      simp only [foot, List.mem_append]; exact Or.inl (iter_subset _ _ a haS)
  · by_cases h2 : op = .dealloc i
    · subst h2
      have hp := hdealloc i rfl
      simp only [exec] at he
      rw [ho] at he
      obtain ⟨f, ow, live⟩ := o
      simp only at how; subst how
      cases live with
      | nil => cases he
      | cons x live =>
        simp only at he
        have : o'.owned = true ∧ o'.live = live := by
          cases hr : deallocate f x.1 w.heap with
          | ok a h =>
            rw [hr] at he
            simp only [finish, Outcome.ok.injEq] at he
            subst he
            simp only [setObj, if_true, Option.some.injEq] at ho'
            subst ho'
            exact ⟨rfl, rfl⟩
          | badAlloc h => rw [hr] at he; cases he
          | ub => rw [hr] at he; cases he
        have hlen := hb'.length_le
        rw [this.2] at hlen
        have hitS : iter popSegs (o'.live.length - base.length) (G' i).segs = S := by
          rw [this.2, hp]
          have : (x :: live).length - base.length = (live.length - base.length) + 1 := by simp only [List.length_cons]; omega
          simp only at hit
          rw [this] at hit
          exact hit
        refine ⟨⟨o', ho', this.1, hb', hitS⟩, fun a haS => ?_⟩
        rw [← ha.size a haS]
        refine hkeep i (Or.inr rfl) a ?_ ?_
        · rw [← hit] at haS
          simp only [foot, List.mem_append]; exact Or.inl (iter_subset _ _ a haS)
        · rw [← hitS] at haS
          simp only [foot, List.mem_append]; exact Or.inl (iter_subset _ _ a haS)
    · have h1' : ∀ n, op ≠ .alloc i n := fun n e => h1 ⟨n, e⟩
      have hs' := hsame i h1' h2 o o' ho ho' how hlv.2.1 hlv.2.2
      refine ⟨⟨o', ho', by rw [hs'.2]; exact how, hb', by rw [hs'.1, hs'.2]; exact hit⟩, fun a haS => ?_⟩
      rw [← ha.size a haS, hout i o ho h1' h2 hlv.1 a ?_]
      rw [← hit] at haS
      simp only [foot, List.mem_append]; exact Or.inl (iter_subset _ _ a haS)

theorem segs_sp {h h' : Heap} {nx nx' : Nat} {l : List Seg} (c : Chain h nx l) (c' : Chain h' nx' l) {a : Nat} {b : Blk}
    (ha : a ∈ l.map (·.1)) (hb : h a = some b) (hsz : (h' a).map (·.size) = (h a).map (·.size)) :
    ∃ b', h' a = some b' ∧ b'.sp = b.sp ∧ b'.lo = b.lo ∧ b'.hi = b.hi ∧ b'.prev = b.prev := by
  induction l generalizing nx nx' with
  | nil => simp at ha
  | cons s r ih =>
    simp only [List.map_cons, List.mem_cons] at ha
    rcases ha with e | ha
    · obtain ⟨b1, k1, g1, p1, _, t1⟩ := c.1
      obtain ⟨b2, k2, g2, p2, _, t2⟩ := c'.1
      rw [← e] at k1 k2 g1 g2 t1 t2
      rw [hb] at k1; cases k1
      rw [k2, hb] at hsz
      simp only [Option.map_some, Option.some.injEq] at hsz
      refine ⟨b2, k2, ?_, ?_, ?_, ?_⟩
      · rw [t1.sp_eq, t2.sp_eq]
      · rw [g1.lo, g2.lo]
      · rw [g1.hi, g2.hi, hsz]
      · rw [p1, p2]
    · exact ih c.2.2 c'.2.2 ha

/-- The stacklets from the top one down to the root. -/
inductive Below (h : Heap) (fib : Nat) : Nat → Prop
  | top : Below h fib fib
  | prev {a : Nat} {b : Blk} : Below h fib a → h a = some b → b.prev ≠ 0 → Below h fib b.prev

/-- **C07** (LIFO restores the stack). Let a client use its stack `i` by any balanced sequence of allocations and
deallocations above what was there, the rest of the program doing anything to the other stacks meanwhile. Afterwards the
top stacklet is the same, and every stacklet from it to the root has the same place, extent, stack pointer and link. -/
theorem lifo_restores {w w' : World} (h : Reach w) {i : Nat} {o o' : Obj} (ho : w.obj i = some o) (how : o.owned = true)
    (hl : Lifo i o.live w w') (ho' : w'.obj i = some o') (hb : o'.live = o.live) :
    o'.fib = o.fib ∧ ∀ a b, Below w.heap o.fib a → w.heap a = some b →
      ∃ b', w'.heap a = some b' ∧ b'.sp = b.sp ∧ b'.lo = b.lo ∧ b'.hi = b.hi ∧ b'.prev = b.prev := by
  obtain ⟨G, hi⟩ := reach_inv h
  have key : ∃ G', Above i o.live (G i).segs w.heap w' G' := by
    clear ho' hb
    induction hl with
    | refl => exact ⟨G, hi, ⟨o, ho, how, List.suffix_refl _, by simp [iter]⟩, fun _ _ => rfl⟩
    | step m op _ hm hs hlv he ho2 hb2 ih =>
      obtain ⟨G1, ha⟩ := ih
      exact above_step ha hm hs hlv he ho2 hb2
    | fail m op _ hm hs he ih =>
      obtain ⟨G1, ha⟩ := ih
      have := exec_inv hm hs ha.inv
      rw [he] at this
      exact ⟨G1, this ▸ ha⟩
  obtain ⟨G', ha⟩ := key
  obtain ⟨o2, h2, _, _, hit⟩ := ha.obj
  rw [ho'] at h2; cases h2
  rw [hb, Nat.sub_self] at hit
  have hit' : (G' i).segs = (G i).segs := hit
  have r := hi.rep i o ho
  have r' := ha.inv.rep i o' ho'
  obtain ⟨al, rest, hseg⟩ := r.top
  obtain ⟨al', rest', hseg'⟩ := r'.top
  rw [hit', hseg] at hseg'
  simp only [List.cons.injEq, Prod.mk.injEq] at hseg'
  refine ⟨hseg'.1.1.symm, fun a b hbel hba => ?_⟩
  have hmem : a ∈ (G i).segs.map (·.1) := by
    clear hba
    induction hbel with
    | top => simp [hseg]
    | @prev a b' _ k1 k2 ih => exact r.chain.prev_mem ih k1 k2
  have c' := r'.chain
  rw [hit'] at c'
  exact segs_sp r.chain c' hmem hba (ha.size a hmem)

end Verif.Stack
