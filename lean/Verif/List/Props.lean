import Verif.List.Model

/-!
C05: every push is handed to the consumer exactly once and in order.
-/
namespace Verif.IList

/-- `p` points to the null-terminated chain of the nodes `l`. -/
def Chain (next : Nat → Nat) : Nat → List Nat → Prop
  | p, [] => p = 0
  | p, x :: l => p = x ∧ x ≠ 0 ∧ Chain next (next x) l

theorem Chain.frame {next next' : Nat → Nat} {p : Nat} {l : List Nat} (h : Chain next p l)
    (e : ∀ x ∈ l, next' x = next x) : Chain next' p l := by
  induction l generalizing p with
  | nil => exact h
  | cons x l ih =>
    refine ⟨h.1, h.2.1, ?_⟩
    rw [e x (by simp)]
    exact ih h.2.2 fun y hy => e y (by simp [hy])

theorem Chain.zero {next : Nat → Nat} {l : List Nat} (h : Chain next 0 l) : l = [] := by
  cases l with
  | nil => rfl
  | cons x l => exact absurd h.1.symm h.2.1

theorem Chain.ne {next : Nat → Nat} {p : Nat} {l : List Nat} (h : Chain next p l) (hp : p ≠ 0) :
    ∃ l', l = p :: l' ∧ Chain next (next p) l' := by
  cases l with
  | nil => exact absurd h hp
  | cons x l => obtain ⟨rfl, _, h⟩ := h; exact ⟨l, rfl, h⟩

/-- What the consumer holds: the nodes `B` still to be handed, in order. -/
def Holds (next : Nat → Nat) : ConsPc → List Nat → Prop
  | .idle, B => B = []
  | .rev l f, B => ∃ X Y, Chain next l X ∧ Chain next f Y ∧ B = X.reverse ++ Y
  | .walk r, B => Chain next r B
  | .call r nx, B => ∃ Y, Chain next nx Y ∧ B = r :: Y

theorem Holds.frame {next next' : Nat → Nat} {c : ConsPc} {B : List Nat} (h : Holds next c B)
    (e : ∀ x ∈ B, next' x = next x) : Holds next' c B := by
  cases c with
  | idle => exact h
  | rev l f =>
    obtain ⟨X, Y, h1, h2, rfl⟩ := h
    exact ⟨X, Y, h1.frame fun x hx => e x (by simp [hx]), h2.frame fun x hx => e x (by simp [hx]), rfl⟩
  | walk r => exact Chain.frame h e
  | call r nx =>
    obtain ⟨Y, h1, rfl⟩ := h
    exact ⟨Y, h1.frame fun x hx => e x (by simp [hx]), rfl⟩

structure Inv (s : St) (L B : List Nat) : Prop where
  chain : Chain s.next s.head L
  holds : Holds s.next s.cons B
  inl : ∀ n, s.pc n = .inList ↔ n ∈ L
  tak : ∀ n, s.pc n = .taken ↔ n ∈ B
  ndL : L.Nodup
  ndB : B.Nodup
  hist : s.pushed = s.handed ++ B.map s.data ++ L.reverse.map s.data
  fresh : ∀ n, s.pc n = .fresh → s.next n = 0
  link : ∀ n h, s.pc n = .linked h → s.next n = h
  nz : ∀ n, s.pc n ≠ .raw → n ≠ 0

theorem map_upd {α : Type} (f : Nat → α) (k : Nat) (v : α) (l : List Nat) (h : k ∉ l) : l.map (upd f k v) = l.map f := by
  apply List.map_congr_left
  intro x hx
  have : x ≠ k := fun e => h (e ▸ hx)
  simp [upd, this]

theorem inv_step {s t : St} {L B : List Nat} (hi : Inv s L B) (hs : Step s t) : ∃ L' B', Inv t L' B' ∧ (s.cons ≠ .idle → t.handed ++ B'.map t.data = s.handed ++ B.map s.data) := by
  cases hs with
  | construct n d hn hp =>
    have hL : n ∉ L := fun h => by have := (hi.inl n).2 h; simp_all
    have hB : n ∉ B := fun h => by have := (hi.tak n).2 h; simp_all
    refine ⟨L, B, ⟨hi.chain.frame ?_, hi.holds.frame ?_, ?_, ?_, hi.ndL, hi.ndB, ?_, ?_, ?_, ?_⟩, ?_⟩
    · intro x hx; have : x ≠ n := fun e => hL (e ▸ hx); simp [upd, this]
    · intro x hx; have : x ≠ n := fun e => hB (e ▸ hx); simp [upd, this]
    · have := hi.inl; grind [upd]
    · have := hi.tak; grind [upd]
    · show s.pushed = _
      rw [map_upd _ _ _ _ hB, map_upd _ _ _ _ (by simpa using hL)]; exact hi.hist
    · have := hi.fresh; grind [upd]
    · have := hi.link; grind [upd]
    · have := hi.nz; grind [upd]
    · intro _; show s.handed ++ _ = _; rw [map_upd _ _ _ _ hB]
  | load n h hp =>
    refine ⟨L, B, ⟨hi.chain, hi.holds, ?_, ?_, hi.ndL, hi.ndB, hi.hist, ?_, ?_, ?_⟩, ?_⟩
    · have := hi.inl; grind [upd]
    · have := hi.tak; grind [upd]
    · have := hi.fresh; grind [upd]
    · have := hi.link; grind [upd]
    · have := hi.nz; grind [upd]
    · intro _; show _ = _; rfl
  | link n h hp =>
    have hL : n ∉ L := fun h => by have := (hi.inl n).2 h; simp_all
    have hB : n ∉ B := fun h => by have := (hi.tak n).2 h; simp_all
    refine ⟨L, B, ⟨hi.chain.frame ?_, hi.holds.frame ?_, ?_, ?_, hi.ndL, hi.ndB, hi.hist, ?_, ?_, ?_⟩, ?_⟩
    · intro x hx; have : x ≠ n := fun e => hL (e ▸ hx); simp [upd, this]
    · intro x hx; have : x ≠ n := fun e => hB (e ▸ hx); simp [upd, this]
    · have := hi.inl; grind [upd]
    · have := hi.tak; grind [upd]
    · have := hi.fresh; grind [upd]
    · have := hi.link; grind [upd]
    · have := hi.nz; grind [upd]
    · intro _; show _ = _; rfl
  | casOk n h hp hh =>
    have hL : n ∉ L := fun h => by have := (hi.inl n).2 h; simp_all
    have hnz := hi.nz n (by simp [hp])
    refine ⟨n :: L, B, ⟨⟨rfl, hnz, ?_⟩, hi.holds, ?_, ?_, List.nodup_cons.2 ⟨hL, hi.ndL⟩, hi.ndB, ?_, ?_, ?_, ?_⟩, ?_⟩
    · show Chain s.next (s.next n) L
      rw [hi.link n h hp, ← hh]; exact hi.chain
    · have := hi.inl; grind [upd]
    · have := hi.tak; grind [upd]
    · show s.pushed ++ [s.data n] = _
      rw [hi.hist]; simp
    · have := hi.fresh; grind [upd]
    · have := hi.link; grind [upd]
    · have := hi.nz; grind [upd]
    · intro _; show _ = _; rfl
  | casFail n h h' hp =>
    refine ⟨L, B, ⟨hi.chain, hi.holds, ?_, ?_, hi.ndL, hi.ndB, hi.hist, ?_, ?_, ?_⟩, ?_⟩
    · have := hi.inl; grind [upd]
    · have := hi.tak; grind [upd]
    · have := hi.fresh; grind [upd]
    · have := hi.link; grind [upd]
    · have := hi.nz; grind [upd]
    · intro _; show _ = _; rfl
  | exchange hc =>
    have hB : B = [] := by have := hi.holds; rw [hc] at this; exact this
    subst hB
    refine ⟨[], L.reverse, ⟨rfl, ⟨L, [], hi.chain, rfl, by simp⟩, ?_, ?_, by simp, ?_, ?_, ?_, ?_, ?_⟩, ?_⟩
    · have := hi.inl; grind
    · have := hi.inl; have := hi.tak; grind
    · exact (List.reverse_perm L).nodup_iff.2 hi.ndL
    · show s.pushed = _
      rw [hi.hist]; simp
    · have := hi.fresh; grind
    · have := hi.link; grind
    · have := hi.nz; grind
    · exact fun h => absurd hc h

  | revStep l f hc hl =>
    have hh := hi.holds
    rw [hc] at hh
    obtain ⟨X, Y, h1, h2, rfl⟩ := hh
    obtain ⟨X', rfl, h1'⟩ := h1.ne hl
    have hnd := hi.ndB
    have hLn : l ∉ L := fun h => by
      have a := (hi.inl l).2 h
      have b := (hi.tak l).2 (by simp)
      simp_all
    simp only [List.reverse_cons, List.append_assoc, List.singleton_append, List.nodup_append, List.nodup_cons,
      List.mem_reverse, List.mem_cons] at hnd
    have e1 : ∀ x ∈ X', upd s.next l f x = s.next x := by
      intro x hx; have : x ≠ l := fun e => by have := hnd.2.2 x hx l (Or.inl rfl); simp_all
      simp [upd, this]
    have e2 : ∀ x ∈ Y, upd s.next l f x = s.next x := by
      intro x hx; have : x ≠ l := fun e => hnd.2.1.1 (e ▸ hx)
      simp [upd, this]
    have e3 : ∀ x ∈ L, upd s.next l f x = s.next x := by
      intro x hx; have : x ≠ l := fun e => hLn (e ▸ hx)
      simp [upd, this]
    refine ⟨L, X'.reverse ++ (l :: Y), ⟨hi.chain.frame e3, ⟨X', l :: Y, h1'.frame e1, ⟨rfl, hl, ?_⟩, rfl⟩, hi.inl, ?_, hi.ndL, ?_, ?_, ?_, ?_, hi.nz⟩, ?_⟩
    · show Chain _ (upd s.next l f l) Y
      simp only [upd, if_true]; exact h2.frame e2
    · have := hi.tak; simpa using this
    · have := hi.ndB; simpa using this
    · have := hi.hist; simpa using this
    · have b := (hi.tak l).2 (by simp)
      have := hi.fresh; grind [upd]
    · have b := (hi.tak l).2 (by simp)
      have := hi.link; grind [upd]
    · intro _; show _ = _; simp
  | revDone f hc =>
    have hh := hi.holds
    rw [hc] at hh
    obtain ⟨X, Y, h1, h2, rfl⟩ := hh
    have := h1.zero; subst this
    exact ⟨L, Y, ⟨hi.chain, h2, hi.inl, by simpa using hi.tak, hi.ndL, by simpa using hi.ndB, by simpa using hi.hist, hi.fresh, hi.link, hi.nz⟩, fun _ => by first | rfl | simp⟩
  | readNext r hc hr =>
    have hh := hi.holds
    rw [hc] at hh
    obtain ⟨Y, rfl, h1⟩ := Chain.ne hh hr
    exact ⟨L, r :: Y, ⟨hi.chain, ⟨Y, h1, rfl⟩, hi.inl, hi.tak, hi.ndL, hi.ndB, hi.hist, hi.fresh, hi.link, hi.nz⟩, fun _ => by first | rfl | simp⟩
  | invoke r nx hc =>
    have hh := hi.holds
    rw [hc] at hh
    obtain ⟨Y, h1, rfl⟩ := hh
    have hnd := List.nodup_cons.1 hi.ndB
    refine ⟨L, Y, ⟨hi.chain, h1, ?_, ?_, hi.ndL, hnd.2, ?_, ?_, ?_, ?_⟩, ?_⟩
    · have := hi.inl; have := (hi.tak r).2 (by simp); grind [upd]
    · have := hi.tak; grind [upd]
    · show s.pushed = _
      rw [hi.hist]; simp
    · have := hi.fresh; grind [upd]
    · have := hi.link; grind [upd]
    · have := hi.nz; have := (hi.tak r).2 (by simp); grind [upd]
    · intro _; show _ = _; simp
  | walkDone hc =>
    have hh := hi.holds
    rw [hc] at hh
    have := Chain.zero hh; subst this
    exact ⟨L, [], ⟨hi.chain, rfl, hi.inl, hi.tak, hi.ndL, hi.ndB, hi.hist, hi.fresh, hi.link, hi.nz⟩, fun _ => by first | rfl | simp⟩
  | destroy n v d hp =>
    have hL : n ∉ L := fun h => by have := (hi.inl n).2 h; simp_all
    have hB : n ∉ B := fun h => by have := (hi.tak n).2 h; simp_all
    refine ⟨L, B, ⟨hi.chain.frame ?_, hi.holds.frame ?_, ?_, ?_, hi.ndL, hi.ndB, ?_, ?_, ?_, ?_⟩, ?_⟩
    · intro x hx; have : x ≠ n := fun e => hL (e ▸ hx); simp [upd, this]
    · intro x hx; have : x ≠ n := fun e => hB (e ▸ hx); simp [upd, this]
    · have := hi.inl; grind [upd]
    · have := hi.tak; grind [upd]
    · show s.pushed = _
      rw [map_upd _ _ _ _ hB, map_upd _ _ _ _ (by simpa using hL)]; exact hi.hist
    · have := hi.fresh; grind [upd]
    · have := hi.link; grind [upd]
    · have := hi.nz; grind [upd]


    · intro _; show s.handed ++ _ = _; rw [map_upd _ _ _ _ hB]

theorem reach_inv {s : St} (h : Reach s) : ∃ L B, Inv s L B := by
  induction h with
  | init next data => exact ⟨[], [], rfl, rfl, by simp, by simp, by simp, by simp, by simp, by simp, by simp, by simp⟩
  | step _ hs ih => obtain ⟨L, B, hi⟩ := ih; obtain ⟨L', B', h, _⟩ := inv_step hi hs; exact ⟨L', B', h⟩

/-- **C05** (order, no duplicates, no inventions). At all times, what the consumer's function was given is an initial part of
the sequence of pushes in the order in which they took effect: each push is handed at most once, in order, and nothing
else is. -/
theorem handed_in_order {s : St} (h : Reach s) : s.handed <+: s.pushed := by
  obtain ⟨L, B, hi⟩ := reach_inv h
  rw [hi.hist]
  exact ⟨_, (List.append_assoc ..).symm⟩

/-- **C05** (nothing is lost). When the consumer is outside and the head is null (which is what `try_pop_all` finds when it
returns null), every push that took effect has been handed over. -/
theorem nothing_lost {s : St} (h : Reach s) (hc : s.cons = .idle) (hh : s.head = 0) : s.handed = s.pushed := by
  obtain ⟨L, B, hi⟩ := reach_inv h
  have h1 := hi.holds
  rw [hc] at h1
  have h2 := hi.chain
  rw [hh] at h2
  have := h2.zero
  subst this
  have : B = [] := h1
  subst this
  simpa using hi.hist.symm

/-- Everything that may happen during one call of `try_pop_all` and the `for_each_elem` over its result, until the consumer
is outside again. -/
inductive During : St → St → Prop
  | refl (s : St) : During s s
  | step {s t u : St} : During s t → t.cons ≠ .idle → Step t u → During s u

/-- **C05** (promptness). Let one call of `try_pop_all` exchange the head in state `s`, and let the walk over its result
end, in state `u`. Then every push that took effect before the exchange has been handed over, and no later one. -/
theorem popped_all {s t u : St} (h : Reach s) (hc : s.cons = .idle)
    (he : t = { s with head := 0, cons := .rev s.head 0, pc := fun j => if s.pc j = .inList then .taken else s.pc j })
    (hd : During t u) (hu : u.cons = .idle) : u.handed = s.pushed := by
  obtain ⟨L, B, hi⟩ := reach_inv h
  have hB : B = [] := by have := hi.holds; rw [hc] at this; exact this
  subst hB
  obtain ⟨L1, B1, hi1, -⟩ := inv_step hi (.exchange s hc)
  rw [← he] at hi1
  have key : ∃ L B, Inv u L B ∧ u.handed ++ B.map u.data = s.pushed := by
    clear hu
    induction hd with
    | refl =>
      refine ⟨L1, B1, hi1, ?_⟩
      have e1 : L1 = [] := by have := hi1.chain; rw [he] at this; exact this.zero
      have := hi1.hist
      rw [e1] at this
      simp only [List.reverse_nil, List.map_nil, List.append_nil] at this
      rw [← this, he]
    | step _ hn hs ih =>
      obtain ⟨L, B, h1, h2⟩ := ih
      obtain ⟨L', B', h3, h4⟩ := inv_step h1 hs
      exact ⟨L', B', h3, (h4 hn).trans h2⟩
  obtain ⟨L, B, h1, h2⟩ := key
  have : B = [] := by have := h1.holds; rw [hu] at this; exact this
  subst this
  simpa using h2

/-- list.hpp:83: the assertion at the start of `push` holds, and no node is the null pointer. -/
theorem push_precondition {s : St} (h : Reach s) (n : Nat) (hp : s.pc n = .fresh) : n ≠ 0 ∧ s.next n = 0 := by
  obtain ⟨L, B, hi⟩ := reach_inv h
  exact ⟨hi.nz n (by simp [hp]), hi.fresh n hp⟩

/-! ### A run: two pushers race (the first compare-exchange of node 1 fails), the batch is handed, and the address of the
first node is used again while node 3's pusher still holds it as the stale head: its compare-exchange succeeds, as it should. -/

/-- Reachability of a state given up to its history. -/
def Run (p h : List Nat) : Prop := ∃ s, Reach s ∧ s.pushed = p ∧ s.handed = h ∧ s.cons = .idle

example : Run [10, 20, 40, 30] [10, 20, 40, 30] := by
  have r := Reach.init (fun _ => 7) (fun _ => 7)
  replace r := r.step (.construct _ 1 20 (by decide) rfl)
  replace r := r.step (.construct _ 2 10 (by decide) rfl)
  replace r := r.step (.load _ 1 0 rfl)
  replace r := r.step (.load _ 2 0 rfl)
  replace r := r.step (.link _ 2 _ rfl)
  replace r := r.step (.casOk _ 2 _ rfl rfl)
  replace r := r.step (.link _ 1 _ rfl)
  replace r := r.step (.casFail _ 1 _ 2 rfl)
  replace r := r.step (.construct _ 3 30 (by decide) rfl)
  replace r := r.step (.load _ 3 2 rfl)
  replace r := r.step (.link _ 3 _ rfl)
  replace r := r.step (.link _ 1 _ rfl)
  replace r := r.step (.casOk _ 1 _ rfl rfl)
  replace r := r.step (.exchange _ rfl)
  replace r := r.step (.revStep _ 1 0 rfl (by decide))
  replace r := r.step (.revStep _ 2 1 rfl (by decide))
  replace r := r.step (.revDone _ 2 rfl)
  replace r := r.step (.readNext _ 2 rfl (by decide))
  replace r := r.step (.invoke _ 2 _ rfl)
  replace r := r.step (.destroy _ 2 9 9 rfl)
  replace r := r.step (.construct _ 2 40 (by decide) rfl)
  replace r := r.step (.load _ 2 0 rfl)
  replace r := r.step (.link _ 2 _ rfl)
  replace r := r.step (.casOk _ 2 _ rfl rfl)
  replace r := r.step (.casOk _ 3 2 rfl rfl)
  replace r := r.step (.readNext _ 1 rfl (by decide))
  replace r := r.step (.invoke _ 1 _ rfl)
  replace r := r.step (.walkDone _ rfl)
  replace r := r.step (.exchange _ rfl)
  replace r := r.step (.revStep _ 3 0 rfl (by decide))
  replace r := r.step (.revStep _ 2 3 rfl (by decide))
  replace r := r.step (.revDone _ 2 rfl)
  replace r := r.step (.readNext _ 2 rfl (by decide))
  replace r := r.step (.invoke _ 2 _ rfl)
  replace r := r.step (.readNext _ 3 rfl (by decide))
  replace r := r.step (.invoke _ 3 _ rfl)
  replace r := r.step (.walkDone _ rfl)
  exact ⟨_, r, rfl, rfl, rfl⟩

end Verif.IList
