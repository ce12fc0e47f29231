import Verif.Stack.Props

/-!
C08: size arithmetic. `stack::allocate` rounds the request up in `size_t`, and `lf::co_new` multiplies the count by the size of
an element in `size_t`; neither checks for overflow. For requests close to 2^64 the property is false, which is proved here;
for requests of at most 2^64 - 4192 bytes it is true.
-/
namespace Verif.Stack

/-- The specification: the `size` bytes at `p` lie in one live block, behind its header. -/
def Holds (h : Heap) (p size : Nat) : Prop := ∃ a b, h a = some b ∧ a + hdr ≤ p ∧ p + size ≤ a + b.size

/-- awaitables.hpp:187-213 `alloc_awaitable::await_resume`: allocate `count` objects of `sz` bytes. `checked_cast` to the
signed difference type asserts that the count is less than 2^63. The constructors are not run here. -/
def coNew (m : Malloc) (fib count sz : Nat) : M (Nat × Nat) := do
  let r ← allocate m fib ((count * sz) % W)
  assert (decide (count < 9223372036854775808))
  pure r

/-- No allocation of an absurd size can be held by a block: blocks lie in the address space. -/
theorem not_holds {w : World} (h : Reach w) {p size : Nat} (hs : maxAddr < size) : ¬ Holds w.heap p size := by
  rintro ⟨a, b, h1, h2, h3⟩
  obtain ⟨G, hi⟩ := reach_inv h
  obtain ⟨i, o, ho, hm⟩ := hi.cov a b h1
  obtain ⟨b', hb', g⟩ := (hi.rep i o ho).block hm
  rw [h1] at hb'; cases hb'
  have := g.addr
  omega

theorem upd_self {h : Heap} {p : Nat} {b : Blk} (hp : h p = some b) : upd h p (some b) = h := by
  funext q
  rw [upd_apply]
  split
  · rename_i e; rw [e, hp]
  · rfl

theorem mod_wrap {x y : Nat} (e : x = y + W) (h : y < W) : x % W = y := by
  rw [e, Nat.add_mod_right]; exact Nat.mod_eq_of_lt h

/-- A request within 15 bytes of 2^64 is rounded up to zero. -/
theorem roundTo_zero {size : Nat} (h1 : W - 15 ≤ size) (h2 : size < W) : roundTo kAlign size = 0 := by
  have hW := W_eq
  unfold roundTo kAlign
  have e : (size + (16 - 1)) % W = size + 15 - W := mod_wrap (by omega) (by omega)
  rw [e]
  dsimp only
  omega

theorem allocate_zero {m : Malloc} {h : Heap} {fib size : Nat} {live : List (Nat × Nat)} {g : Ghost} (r : Rep h fib live g)
    (h0 : roundTo kAlign size = 0) : ∃ b, h fib = some b ∧ allocate m fib size h = .ok (fib, b.sp) h := by
  obtain ⟨b, al, rest, hsegs, hb, gb, _⟩ := r.unfold
  refine ⟨b, hb, ?_⟩
  unfold allocate
  rw [bind_ok (assert_true (by simpa using gb.nz)), bind_ok r.isTop, bind_ok (assert_true rfl), bind_ok (get_some hb),
    bind_ok (unused_ok gb h), h0]
  have e : pickTop m fib b (b.hi - b.sp) 0 h = .ok fib h := by
    unfold pickTop
    simp [pure_apply]
  rw [bind_ok e, bump_ok hb r.isTop]
  congr 1
  exact upd_self hb

/-- **C08 is false** (1). On every stack, in every reachable world, a request of 2^64 - 15 to 2^64 - 1 bytes succeeds without
reserving a single byte: nothing changes in the heap, the same pointer will be given to the next request, and the bytes asked
for are in no block. -/
theorem allocate_huge_violates {w : World} (h : Reach w) {i f : Nat} {live : List (Nat × Nat)}
    (ho : w.obj i = some ⟨f, true, live⟩) (m : Malloc) {size : Nat} (h1 : W - 15 ≤ size) (h2 : size < W) :
    ∃ p, allocate m f size w.heap = .ok (f, p) w.heap ∧ ¬ Holds w.heap p size := by
  obtain ⟨G, hi⟩ := reach_inv h
  obtain ⟨b, _, e⟩ := allocate_zero (m := m) (hi.rep i _ ho) (roundTo_zero h1 h2)
  have hW := W_eq
  exact ⟨b.sp, e, not_holds h (by unfold maxAddr; omega)⟩

theorem roundTo_align_near {size : Nat} (h2 : size ≤ W - 16) : roundTo kAlign size = up size := by
  have hW := W_eq
  unfold roundTo kAlign up
  have e : (size + (16 - 1)) % W = size + 15 := Nat.mod_eq_of_lt (by omega)
  rw [e]
  dsimp only
  omega

/-- What `allocate` does when the request is larger than any block: it asks for a new stacklet. -/
theorem allocate_big {m : Malloc} {h : Heap} {fib size : Nat} {live : List (Nat × Nat)} {g : Ghost} (r : Rep h fib live g)
    {e : Nat} (he : roundTo kAlign size = e) (hbig : 2 * maxAddr ≤ e) :
    allocate m fib size h = (do
      let fib' ← nextStacklet m e fib
      let t' ← isTop fib'
      assert t'
      let b' ← get fib'
      put fib' { b' with sp := b'.sp + e }
      pure (fib', b'.sp) : M (Nat × Nat)) h := by
  have hW := W_eq
  obtain ⟨b, al, rest, hsegs, hb, gb, _, hnext, _, _, _, _, hcache⟩ := r.unfold
  have hsz := gb.sz
  have haddr := gb.addr
  have hhi := gb.hi
  have hlo := gb.lo
  unfold allocate
  rw [bind_ok (assert_true (by simpa using gb.nz)), bind_ok r.isTop, bind_ok (assert_true rfl), bind_ok (get_some hb),
    bind_ok (unused_ok gb h), he]
  have hu : b.hi - b.sp < e := by omega
  have hcf : cachedFits b e h = .ok false h := by
    cases hg : g.cache with
    | none => exact cachedFits_none (by rw [hnext, hg]; rfl)
    | some c =>
      obtain ⟨_, _, n, k1, k2, _⟩ := hcache c hg
      have hn : b.next = c := by rw [hnext, hg]; rfl
      have := k2.addr; have := k2.hi; have := k2.lo
      rw [cachedFits_some (by rw [hn]; exact k2.nz) (by rw [hn]; exact k1) (by rw [hn]; exact k2)]
      congr 1
      simp
      omega
  have hpick : pickTop m fib b (b.hi - b.sp) e h = nextStacklet m e fib h := by
    unfold pickTop
    rw [if_pos hu, bind_ok hcf]
    simp only [Bool.false_eq_true, if_false]
    rw [bind_ok (capacity_ok gb h)]
    have : (2 * (b.hi - b.lo)) % W = 2 * (b.hi - b.lo) := Nat.mod_eq_of_lt (by unfold maxAddr at *; omega)
    rw [this, Nat.max_eq_right (by omega)]
  rw [bind_apply, bind_apply, hpick]

theorem nextStacklet_ub {m : Malloc} {h : Heap} {size prev : Nat} (h0 : prev ≠ 0) (ht : isTop prev h = .ok true h)
    (hu : roundUpToPageSize ((size + hdr) % W) h = .ub) : nextStacklet m size prev h = .ub := by
  unfold nextStacklet
  simp only [ne_eq, h0, not_false_eq_true, if_true]
  have e1 : (isTop prev >>= fun t => assert t) h = .ok () h := by
    rw [bind_ok ht]; exact assert_true rfl
  rw [bind_ok e1, bind_apply, hu]

theorem roundUp_bad {size mn rd : Nat} (hp : Heap) (e1 : mn = (size + metaSize) % W) (e2 : rd = roundTo pageSize mn)
    (h1 : rd < mn) : roundUpToPageSize size hp = .ub := by
  subst e2 e1
  unfold roundUpToPageSize
  rw [bind_apply]
  have : assert (decide ((size + metaSize) % W ≤ roundTo pageSize ((size + metaSize) % W))) hp = .ub := by
    simp [assert]; omega
  rw [this]

/-- **C08 is false** (2). A request of 2^64 - 4190 to 2^64 - 97 bytes (rounded up) fails an assertion of the size
computation, which in a release build is an assumption the optimiser may rely on: undefined behaviour. -/
theorem allocate_assert_violates {w : World} (h : Reach w) {i f : Nat} {live : List (Nat × Nat)}
    (ho : w.obj i = some ⟨f, true, live⟩) (m : Malloc) {size : Nat} (h1 : W - 4190 ≤ up size) (h2 : up size < W - 96) :
    allocate m f size w.heap = .ub := by
  have hW := W_eq
  obtain ⟨G, hi⟩ := reach_inv h
  have r := hi.rep i _ ho
  obtain ⟨b, al, rest, hsegs, hb, gb, _⟩ := r.unfold
  have hsz : size ≤ W - 16 := by have := up_ge size; omega
  rw [allocate_big r (roundTo_align_near hsz) (by unfold maxAddr; omega)]
  have hm1 : (up size + hdr) % W = up size + 48 := Nat.mod_eq_of_lt (by unfold hdr; omega)
  have hub : roundUpToPageSize ((up size + hdr) % W) w.heap = .ub := by
    rw [hm1]
    refine roundUp_bad (mn := up size + 96) (rd := 0) _ ?_ ?_ (by omega)
    · exact (Nat.mod_eq_of_lt (by omega)).symm
    · unfold roundTo pageSize
      have : (up size + 96 + (4096 - 1)) % W = up size + 4191 - W := mod_wrap (by omega) (by omega)
      rw [this]
      dsimp only
      omega
  rw [bind_apply, nextStacklet_ub gb.nz r.isTop hub]

theorem roundUp_small (s : Nat) (hs : s ≤ 32) (hp : Heap) : roundUpToPageSize s hp = .ok 4048 hp := by
  have hW := W_eq
  have e1 : (s + metaSize) % W = s + 48 := Nat.mod_eq_of_lt (by unfold metaSize; omega)
  refine roundUp_of (mn := s + 48) (rd := 4096) hp e1.symm ?_ ?_ (by omega) (by unfold pageSize; omega) (by omega)
  · rw [roundTo_page (by omega)]; omega
  · have : 4096 + W - metaSize = 4048 + W := by unfold metaSize; omega
    rw [this, Nat.add_mod_right]
    exact (Nat.mod_eq_of_lt (by omega)).symm

theorem wrapHdr {x : Nat} (h1 : W - 48 ≤ x) (h2 : x ≤ W - 16) : (x + hdr) % W = x + 48 - W ∧ x + 48 - W ≤ 32 := by
  have hW := W_eq
  exact ⟨mod_wrap (by unfold hdr; omega) (by omega), by omega⟩

/-- **C08 is false** (3). A request that rounds up to 2^64 - 48, 2^64 - 32 or 2^64 - 16 bytes gets a new stacklet of
4048 bytes, header included: the addition of the header size wraps. -/
theorem allocate_wrap_violates {w : World} (h : Reach w) {i f : Nat} {live : List (Nat × Nat)}
    (ho : w.obj i = some ⟨f, true, live⟩) {m : Malloc} (hm : GoodMalloc m) {size : Nat} (h1 : W - 48 ≤ up size)
    (h2 : up size ≤ W - 16) {a : Nat} (ha : m w.heap 4048 = some a) :
    ∃ h' b, allocate m f size w.heap = .ok (a, a + 48) h' ∧ h' a = some b ∧ b.size = 4048 ∧ ¬ Holds h' (a + 48) size := by
  have hW := W_eq
  obtain ⟨G, hi⟩ := reach_inv h
  have r := hi.rep i _ ho
  obtain ⟨b, al, rest, hsegs, hb, gb, _, hnext, _, _, _, _, hcache⟩ := r.unfold
  have hsz : size ≤ W - 16 := by have := up_ge size; omega
  have hsz' : maxAddr < size := by unfold up at *; unfold maxAddr; omega
  rw [allocate_big r (roundTo_align_near hsz) (by unfold maxAddr; omega)]
  obtain ⟨ha0, ha16, haM, hadis⟩ := hm _ _ _ ha
  have hfree := malloc_fresh hm hi.hok (by omega) ha
  have hn : b.next = 0 ∨ ∃ n, w.heap b.next = some n ∧ n.sp = n.lo ∧ n.next = 0 := by
    cases hg : (G i).cache with
    | none => left; rw [hnext, hg]; rfl
    | some c =>
      obtain ⟨_, _, n, k1, k2, _, k3, k4, _⟩ := hcache c hg
      right; rw [hnext, hg]; exact ⟨n, k1, k4, k3⟩
  have hne : b.next ≠ f := by
    cases hg : (G i).cache with
    | none => rw [hnext, hg]; exact fun e => gb.nz e.symm
    | some c =>
      obtain ⟨k0, _⟩ := hcache c hg
      rw [hnext, hg]; exact k0
  have haf : a ≠ f := fun e => by rw [e] at hfree; rw [hb] at hfree; cases hfree
  have han : a ≠ b.next := by
    rcases hn with h0 | ⟨n, k, _⟩
    · rw [h0]; exact ha0
    · intro e; rw [e, k] at hfree; cases hfree
  have hst : ∃ h', nextStacklet m (up size) f w.heap = .ok a (upd h' a (some ⟨4048, a + 48, a + 48, a + 4048, f, 0⟩)) ∧
      ∀ q, h' q = none ∨ ∃ x y, h' q = some x ∧ w.heap q = some y ∧ x.size = y.size ∨
        (q = a ∧ x.size = 4048 ∧ h' q = some x) := by
    refine ⟨freed (upd (upd w.heap a (some ⟨4048, 0, 0, 0, 0, 0⟩)) f (some { b with next := a })) b.next, ?_, ?_⟩
    · unfold nextStacklet
      simp only [ne_eq, gb.nz, not_false_eq_true, if_true]
      have e1 : (isTop f >>= fun t => assert t) w.heap = .ok () w.heap := by
        rw [bind_ok r.isTop]; exact assert_true rfl
      obtain ⟨hm1, hle⟩ := wrapHdr h1 h2
      have hm2 : (hdr + up size) % W = up size + 48 - W := by rw [Nat.add_comm]; exact hm1
      rw [bind_ok e1, hm1, bind_ok (roundUp_small _ hle _), hm2, bind_ok (assert_true (by simpa using Nat.le_trans hle (by decide))), bind_apply]
      unfold malloc
      rw [ha]
      dsimp only
      have e2 : (fun q => if q = a then some (⟨4048, 0, 0, 0, 0, 0⟩ : Blk) else w.heap q) =
        upd w.heap a (some ⟨4048, 0, 0, 0, 0, 0⟩) := rfl
      rw [e2]
      rw [bind_ok (setNext_ok (b := b) (by rw [upd_other _ _ _ haf.symm]; exact hb) ?_ hne)]
      · rw [bind_ok (put_some (b := ⟨4048, 0, 0, 0, 0, 0⟩) ?_), pure_apply]
        · rfl
        · simp only [freed_apply, upd_apply]
          grind
      · rcases hn with h0 | ⟨n, k1, k2⟩
        · exact Or.inl h0
        · exact Or.inr ⟨n, by rw [upd_other _ _ _ han.symm]; exact k1, k2⟩
    · intro q
      simp only [freed_apply, upd_apply]
      by_cases c1 : b.next ≠ 0 ∧ q = b.next
      · left; rw [if_pos c1]
      · rw [if_neg c1]
        by_cases c2 : q = f
        · right; rw [if_pos c2]; exact ⟨_, b, Or.inl ⟨rfl, by rw [c2]; exact hb, rfl⟩⟩
        · rw [if_neg c2]
          by_cases c3 : q = a
          · right; rw [if_pos c3]; exact ⟨_, b, Or.inr ⟨c3, rfl, rfl⟩⟩
          · rw [if_neg c3]
            cases e : w.heap q with
            | none => exact Or.inl rfl
            | some y => right; exact ⟨y, y, Or.inl ⟨rfl, rfl, rfl⟩⟩
  obtain ⟨h', hst, hh'⟩ := hst
  refine ⟨upd (upd h' a (some ⟨4048, a + 48, a + 48, a + 4048, f, 0⟩)) a (some ⟨4048, a + 48, a + 48 + up size, a + 4048, f, 0⟩),
    _, ?_, upd_same _ _ _, rfl, ?_⟩
  · rw [bind_ok hst, bump_ok (b := ⟨4048, a + 48, a + 48, a + 4048, f, 0⟩) (upd_same _ _ _)
      (isTop_ok (upd_same _ _ _) (Or.inl rfl))]
  · rintro ⟨c, x, k1, k2, k3⟩
    rw [upd_apply] at k1
    split at k1
    · cases k1
      simp only at k3
      unfold maxAddr at *
      omega
    · rw [upd_apply] at k1
      split at k1
      · cases k1
        simp only at k3
        unfold maxAddr at *
        omega
      · rcases hh' c with e | ⟨x', y, ⟨e1, e2, e3⟩ | ⟨e1, _⟩⟩
        · rw [e] at k1; cases k1
        · rw [e1] at k1; cases k1
          obtain ⟨j, o, hj, hjm⟩ := hi.cov c y e2
          obtain ⟨y', q1, q2⟩ := (hi.rep j o hj).block hjm
          rw [e2] at q1; cases q1
          have := q2.addr
          omega
        · contradiction

/-- **C08 is false** (4). When the count times the element size exceeds `size_t`, whatever `co_new` returns cannot hold the
objects. -/
theorem coNew_short_violates {w : World} (h : Reach w) {i f : Nat} {live : List (Nat × Nat)}
    (ho : w.obj i = some ⟨f, true, live⟩) {m : Malloc} (hm : GoodMalloc m) {count sz : Nat} (hov : W ≤ count * sz)
    (hs : (count * sz) % W ≤ maxSize) {f' p : Nat} {h' : Heap} (hok : coNew m f count sz w.heap = .ok (f', p) h') :
    ¬ Holds h' p (count * sz) := by
  have hW := W_eq
  have e : allocate m f ((count * sz) % W) w.heap = .ok (f', p) h' := by
    unfold coNew at hok
    rw [bind_apply] at hok
    cases hx : allocate m f ((count * sz) % W) w.heap with
    | ok a h1 =>
      rw [hx] at hok
      simp only [bind_apply, assert] at hok
      split at hok
      · rename_i h3
        split at h3
        · cases h3; exact hok
        · cases h3
      · cases hok
      · cases hok
    | badAlloc h1 => rw [hx] at hok; cases hok
    | ub => rw [hx] at hok; cases hok
  have hr : Reach (setObj w i (some ⟨f', true, (p, (count * sz) % W) :: live⟩) h') := by
    refine Reach.step m (.alloc i ((count * sz) % W)) h hm hs ?_
    simp only [exec]
    rw [ho]
    simp only
    rw [e]; rfl
  exact not_holds hr (by unfold maxAddr; omega)

/-- **C08 is false** (5). On every stack `co_new<T>(1 << 61)` with an 8-byte `T` succeeds, reserving nothing. -/
theorem coNew_zero_violates {w : World} (h : Reach w) {i f : Nat} {live : List (Nat × Nat)}
    (ho : w.obj i = some ⟨f, true, live⟩) (m : Malloc) :
    ∃ p, coNew m f 2305843009213693952 8 w.heap = .ok (f, p) w.heap ∧ ¬ Holds w.heap p (2305843009213693952 * 8) := by
  have hW := W_eq
  obtain ⟨G, hi⟩ := reach_inv h
  have hz : (2305843009213693952 * 8) % W = 0 := by
    have : (2305843009213693952 * 8) = W := by omega
    rw [this, Nat.mod_self]
  have hr : roundTo kAlign 0 = 0 := by rw [roundTo_align (by unfold maxSize; omega)]; rfl
  obtain ⟨b, _, e⟩ := allocate_zero (m := m) (hi.rep i _ ho) hr
  refine ⟨b.sp, ?_, not_holds h (by unfold maxAddr; omega)⟩
  unfold coNew
  simp only at e
  rw [hz, bind_ok e, bind_ok (assert_true (by decide))]
  rfl

/-- The full statement of C08 for `allocate` on one stack: a request of any size yields the bytes or fails. -/
def NeverShort (m : Malloc) (f : Nat) (h : Heap) : Prop :=
  ∀ size, size < W → (∃ f' p h', allocate m f size h = .ok (f', p) h' ∧ Holds h' p size) ∨ allocate m f size h = .badAlloc h

/-- It is false of every stack. -/
theorem never_short_violates {w : World} (h : Reach w) {i f : Nat} {live : List (Nat × Nat)}
    (ho : w.obj i = some ⟨f, true, live⟩) (m : Malloc) : ¬ NeverShort m f w.heap := by
  have hW := W_eq
  intro hn
  obtain ⟨p, e, hh⟩ := allocate_huge_violates h ho m (size := W - 1) (by omega) (by omega)
  rcases hn (W - 1) (by omega) with ⟨f', p', h', e', h1⟩ | e'
  · rw [e] at e'; cases e'; exact hh h1
  · rw [e] at e'; cases e'

/-- **C08**, the part that holds: requests of at most 2^64 - 4192 bytes. -/
theorem never_short_partial {w : World} (h : Reach w) {i f : Nat} {live : List (Nat × Nat)}
    (ho : w.obj i = some ⟨f, true, live⟩) {m : Malloc} (hm : GoodMalloc m) {size : Nat} (hs : size ≤ maxSize) :
    (∃ f' p h', allocate m f size w.heap = .ok (f', p) h' ∧ Holds h' p size) ∨ allocate m f size w.heap = .badAlloc w.heap := by
  obtain ⟨G, hi⟩ := reach_inv h
  rcases allocate_spec hm hi.hok (hi.rep i _ ho) hs with ⟨f', p, h', g', e, r', _⟩ | ⟨e, _⟩
  · left
    obtain ⟨a, _, b, h1, _, h2, h3⟩ := r'.alloc_in (p := p) (n := size) (by simp)
    exact ⟨f', p, h', e, a, b, h1, h2, h3⟩
  · exact Or.inr e

/-- **C08**, the part of `co_new` that holds. -/
theorem coNew_partial {w : World} (h : Reach w) {i f : Nat} {live : List (Nat × Nat)}
    (ho : w.obj i = some ⟨f, true, live⟩) {m : Malloc} (hm : GoodMalloc m) {count sz : Nat} (hc : count < 9223372036854775808)
    (hs : count * sz ≤ maxSize) :
    (∃ f' p h', coNew m f count sz w.heap = .ok (f', p) h' ∧ Holds h' p (count * sz)) ∨
      coNew m f count sz w.heap = .badAlloc w.heap := by
  have hW := W_eq
  have hmod : (count * sz) % W = count * sz := Nat.mod_eq_of_lt (by unfold maxSize at hs; omega)
  unfold coNew
  rw [hmod]
  rcases never_short_partial h ho hm hs with ⟨f', p, h', e, hh⟩ | e
  · left
    refine ⟨f', p, h', ?_, hh⟩
    rw [bind_ok e, bind_ok (assert_true (by simpa using hc))]
    rfl
  · right; rw [bind_apply, e]

/-! ### A concrete run

The hypotheses above are met: a stack is made, a small block allocated, then one that does not fit the first stacklet and
gets a second one. -/

open Classical in
/-- A `malloc` that answers one request in one heap, and fails in all others. -/
noncomputable def only (h0 : Heap) (r0 a : Nat) : Malloc := fun h r => if h = h0 ∧ r = r0 then some a else none

theorem only_eq (h0 : Heap) (r0 a : Nat) : only h0 r0 a h0 r0 = some a := by simp [only]

theorem only_good {h0 : Heap} {r0 a : Nat} (h1 : a ≠ 0) (h2 : 16 ∣ a) (h3 : a + r0 ≤ maxAddr)
    (h4 : ∀ b x, h0 b = some x → a + r0 ≤ b ∨ b + x.size ≤ a) : GoodMalloc (only h0 r0 a) := by
  intro h r a' e
  unfold only at e
  split at e
  · rename_i hh; obtain ⟨rfl, rfl⟩ := hh; cases e; exact ⟨h1, h2, h3, h4⟩
  · cases e

def exH0 : Heap := fun _ => none
def exH1 : Heap := upd exH0 16384 (some ⟨4048, 16432, 16432, 20432, 0, 0⟩)
def exH2 : Heap := upd exH1 16384 (some ⟨4048, 16432, 16544, 20432, 0, 0⟩)
def exH3 : Heap := upd (upd exH2 16384 (some ⟨4048, 16432, 16544, 20432, 0, 32768⟩)) 32768
  (some ⟨8144, 32816, 40816, 40912, 16384, 0⟩)

theorem ex_reach1 : Reach ⟨exH1, fun j => if j = 0 then some ⟨16384, true, []⟩ else none⟩ := by
  have hW := W_eq
  refine Reach.step (only exH0 4048 16384) (.new 0) .init (only_good (by decide) (by decide) (by decide) (by simp [exH0])) trivial ?_
  have e : new (only exH0 4048 16384) exH0 = .ok 16384 exH1 := by
    unfold new
    rw [nextStacklet_null (by unfold maxSize initSize; omega)]
    have : request initSize = 4048 := by decide
    rw [this, only_eq]
    simp only [newBlk, this]
    rfl
  simp only [exec, World.init]
  rw [show (fun _ => none : Heap) = exH0 from rfl, e]
  rfl

theorem ex_reach2 : Reach ⟨exH2, fun j => if j = 0 then some ⟨16384, true, [(16432, 100)]⟩ else none⟩ := by
  have hW := W_eq
  refine Reach.step (only exH0 0 16) (.alloc 0 100) ex_reach1 (only_good (by decide) (by decide) (by decide) (by simp [exH0])) (by show 100 ≤ maxSize; unfold maxSize; omega) ?_
  have hb : exH1 16384 = some ⟨4048, 16432, 16432, 20432, 0, 0⟩ := by simp [exH1, upd]
  have ht : isTop 16384 exH1 = .ok true exH1 := isTop_ok hb (Or.inl rfl)
  have e : allocate (only exH0 0 16) 16384 100 exH1 = .ok (16384, 16432) exH2 := by
    unfold allocate
    rw [bind_ok (assert_true (by decide)), bind_ok ht, bind_ok (assert_true rfl), bind_ok (get_some hb),
      roundTo_align (by unfold maxSize; omega)]
    have hu : unused ⟨4048, 16432, 16432, 20432, 0, 0⟩ exH1 = .ok 4000 exH1 := by simp [unused, bind_apply, assert, pure_apply]
    rw [bind_ok hu]
    have hp : pickTop (only exH0 0 16) 16384 ⟨4048, 16432, 16432, 20432, 0, 0⟩ 4000 (up 100) exH1 = .ok 16384 exH1 := by
      simp [pickTop, up, pure_apply]
    rw [bind_ok hp, bump_ok hb ht]
    rfl
  simp only [exec, if_true]
  rw [e]
  simp only [finish, setObj]
  congr 2
  funext j
  split <;> rfl

theorem ex_good : GoodMalloc (only exH2 8144 32768) := by
  refine only_good (by decide) (by decide) (by decide) ?_
  intro b x hx
  simp only [exH2, exH1, exH0, upd_apply] at hx
  grind

theorem ex_exec : exec (only exH2 8144 32768) (.alloc 0 8000)
    ⟨exH2, fun j => if j = 0 then some ⟨16384, true, [(16432, 100)]⟩ else none⟩ =
    .ok ⟨exH3, fun j => if j = 0 then some ⟨32768, true, [(32816, 8000), (16432, 100)]⟩ else none⟩ := by
  have hW := W_eq
  have hb : exH2 16384 = some ⟨4048, 16432, 16544, 20432, 0, 0⟩ := by simp [exH2, upd]
  have ht : isTop 16384 exH2 = .ok true exH2 := isTop_ok hb (Or.inl rfl)
  have e : allocate (only exH2 8144 32768) 16384 8000 exH2 = .ok (32768, 32816) exH3 := by
    unfold allocate
    rw [bind_ok (assert_true (by decide)), bind_ok ht, bind_ok (assert_true rfl), bind_ok (get_some hb),
      roundTo_align (by unfold maxSize; omega)]
    have hu : unused ⟨4048, 16432, 16544, 20432, 0, 0⟩ exH2 = .ok 3888 exH2 := by simp [unused, bind_apply, assert, pure_apply]
    rw [bind_ok hu]
    let H : Heap := upd (freed (upd exH2 16384 (some ⟨4048, 16432, 16544, 20432, 0, 32768⟩)) 0) 32768 (some (newBlk 32768 8000 16384))
    have hp : pickTop (only exH2 8144 32768) 16384 ⟨4048, 16432, 16544, 20432, 0, 0⟩ 3888 (up 8000) exH2 = .ok 32768 H := by
      have hmod : (2 * (20432 - 16432)) % W = 8000 := Nat.mod_eq_of_lt (by omega)
      have hreq : request 8000 = 8144 := by decide
      unfold pickTop
      rw [if_pos (by decide), bind_ok (cachedFits_none rfl)]
      simp only [Bool.false_eq_true, if_false]
      have hc : capacity ⟨4048, 16432, 16544, 20432, 0, 0⟩ exH2 = .ok (20432 - 16432) exH2 := by
        simp [capacity, bind_apply, assert, pure_apply]
      rw [bind_ok hc, hmod, show max 8000 (up 8000) = 8000 from rfl,
        nextStacklet_prev (only_good (by decide) (by decide) (by decide) (by
          intro b x hx
          simp only [exH2, exH1, exH0, upd_apply] at hx
          grind)) (b := ⟨4048, 16432, 16544, 20432, 0, 0⟩)
          ⟨by intro a x hx; simp only [exH2, exH1, exH0, upd_apply] at hx; grind,
           by intro a b x y hx hy; simp only [exH2, exH1, exH0, upd_apply] at hx hy; grind⟩
          (by unfold maxSize; omega) (by decide) hb (Or.inl rfl) (by decide), hreq, only_eq]
    have hbH : H 32768 = some (newBlk 32768 8000 16384) := upd_same _ _ _
    rw [bind_ok hp, bump_ok hbH (isTop_ok hbH (Or.inl rfl))]
    congr 1
    funext q
    have hreq : request 8000 = 8144 := by decide
    simp only [H, exH3, upd_apply, freed_apply, newBlk, hreq]
    have : up 8000 = 8000 := by decide
    rw [this]
    grind
  simp only [exec, if_true]
  rw [e]
  simp only [finish, setObj]
  congr 2
  funext j
  split <;> rfl


theorem ex_reach : Reach ⟨exH3, fun j => if j = 0 then some ⟨32768, true, [(32816, 8000), (16432, 100)]⟩ else none⟩ :=
  Reach.step _ (.alloc 0 8000) ex_reach2 ex_good (by have := W_eq; show 8000 ≤ maxSize; unfold maxSize; omega) ex_exec

/-- C06 on it: the second block is behind the first stacklet. -/
example : 16 ∣ 32816 ∧ ∃ a b, exH3 a = some b ∧ a + hdr ≤ 32816 ∧ 32816 + 8000 ≤ a + b.size :=
  alloc_in_bounds ex_reach (i := 0) rfl (by simp)

/-- C07 on it: taking the second block back gives the stack that was there before. -/
example : ∃ w' o', Lifo 0 [(16432, 100)] ⟨exH2, fun j => if j = 0 then some ⟨16384, true, [(16432, 100)]⟩ else none⟩ w' ∧
    w'.obj 0 = some o' ∧ o'.live = [(16432, 100)] ∧ o'.fib = 16384 := by
  have hs : SizeOk (.alloc 0 8000) := by have := W_eq; show 8000 ≤ maxSize; unfold maxSize; omega
  have l1 := Lifo.step (o := ⟨32768, true, [(32816, 8000), (16432, 100)]⟩) _ (.alloc 0 8000) (Lifo.refl (i := 0) (base := [(16432, 100)]) _)
    ex_good hs ⟨by simp, by simp, by simp⟩ ex_exec rfl ⟨[(32816, 8000)], rfl⟩
  obtain ⟨w', f', h1, h2⟩ := dealloc_ok ex_reach (only exH2 8144 32768) (i := 0) rfl
  have l2 := l1.step _ (.dealloc 0) ex_good trivial ⟨by simp, by simp, by simp⟩ h1 h2 ⟨[], rfl⟩
  exact ⟨w', _, l2, h2, rfl, (lifo_restores (i := 0) (o := ⟨16384, true, [(16432, 100)]⟩) ex_reach2 rfl rfl l2 h2 rfl).1⟩

/-- C08 on it. -/
example (m : Malloc) : ∃ p, allocate m 32768 (W - 1) exH3 = .ok (32768, p) exH3 ∧ ¬ Holds exH3 p (W - 1) :=
  allocate_huge_violates ex_reach (i := 0) rfl m (by omega) (by have := W_eq; omega)

end Verif.Stack
