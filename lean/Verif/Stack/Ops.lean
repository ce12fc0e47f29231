import Verif.Stack.Rep

/-!
What every operation does to the representation of its stack.
-/
namespace Verif.Stack

/-- The chain after the most recent allocation is taken back. -/
def popSegs : List Seg → List Seg
  | (a, _ :: al) :: r => if al = [] ∧ r ≠ [] then r else (a, al) :: r
  | l => l

theorem good_sp {a : Nat} {b : Blk} (g : Good a b) {sp : Nat} (h : sp ≤ b.hi) : Good a { b with sp := sp } :=
  ⟨g.nz, g.al, g.lo, g.hi, g.sz, h, g.addr⟩

theorem good_next {a : Nat} {b : Blk} (g : Good a b) (n : Nat) : Good a { b with next := n } :=
  ⟨g.nz, g.al, g.lo, g.hi, g.sz, g.sp, g.addr⟩

theorem cachedFits_none {b : Blk} {e : Nat} {h : Heap} (hn : b.next = 0) : cachedFits b e h = .ok false h := by
  simp [cachedFits, hn, pure_apply]

theorem cachedFits_some {b n : Blk} {e : Nat} {h : Heap} (h0 : b.next ≠ 0) (hn : h b.next = some n) (g : Good b.next n) :
    cachedFits b e h = .ok (decide (n.hi - n.lo ≥ e)) h := by
  unfold cachedFits
  simp only [ne_eq, h0, not_false_eq_true, if_true]
  rw [bind_ok (get_some hn), bind_ok (capacity_ok g h)]
  rfl

theorem mem_map_fst {l : List Seg} {a : Nat} : a ∈ l.map (·.1) ↔ ∃ s ∈ l, s.1 = a := by simp

/-- The last part of `allocate`, on the stacklet chosen. -/
theorem bump_ok {h : Heap} {fib e : Nat} {b : Blk} (hb : h fib = some b) (ht : isTop fib h = .ok true h) :
    (do
      let t' ← isTop fib
      assert t'
      let b' ← get fib
      put fib { b' with sp := b'.sp + e }
      pure (fib, b'.sp) : M (Nat × Nat)) h = .ok (fib, b.sp) (upd h fib (some { b with sp := b.sp + e })) := by
  rw [bind_ok ht, bind_ok (assert_true rfl), bind_ok (get_some hb), bind_ok (put_some hb)]
  rfl

/-- Where `allocate` put a block: on the top stacklet, on the spare, or, if it fits neither, on a new stacklet. -/
def Grow (h : Heap) (fib size : Nat) (g : Ghost) (h' : Heap) (fib' p : Nat) (g' : Ghost) : Prop :=
  (g'.cache = g.cache ∧ ∃ al r, g.segs = (fib, al) :: r ∧ g'.segs = (fib, (p, size) :: al) :: r) ∨
  (g'.cache = none ∧ g'.segs = (fib', [(p, size)]) :: g.segs ∧ (g.cache = some fib' ∨
    ((∀ c, g.cache = some c → capOf h c < up size) ∧ capOf h' fib' ≤ max (2 * capOf h fib) (up size) + 4095)))

/-- The block fits neither on the top stacklet nor on the spare. -/
def NoRoom (h : Heap) (fib size : Nat) (g : Ghost) : Prop :=
  (∀ al r, g.segs = (fib, al) :: r → capOf h fib < used al + up size) ∧ ∀ c, g.cache = some c → capOf h c < up size

/-- The effect of `allocate`: on success the returned block is the newest allocation of a well-formed stack, and nothing
outside the stack's footprint has changed; on failure nothing has changed at all. -/
theorem allocate_full {m : Malloc} (hm : GoodMalloc m) {h : Heap} (hk : HeapOk h) {fib size : Nat}
    {live : List (Nat × Nat)} {g : Ghost} (r : Rep h fib live g) (hs : size ≤ maxSize) :
    (∃ fib' p h' g', allocate m fib size h = .ok (fib', p) h' ∧ Rep h' fib' ((p, size) :: live) g' ∧
      Local h (foot g) h' (foot g') ∧ HeapOk h' ∧ popSegs g'.segs = g.segs ∧ Grow h fib size g h' fib' p g') ∨
    (allocate m fib size h = .badAlloc h ∧ m h (request (max (2 * capOf h fib) (up size))) = none ∧ NoRoom h fib size g) := by
  obtain ⟨b, al, rest, hsegs, hb, gb, hprev, hnext, htile, hbot, hchain, hnot, hcache⟩ := r.unfold
  have htop := r.isTop
  have hlive := r.live_eq
  have hnd := r.nodup
  rw [hsegs] at hlive
  unfold allocate
  rw [bind_ok (assert_true (by simpa using gb.nz)), bind_ok htop, bind_ok (assert_true rfl), bind_ok (get_some hb),
    bind_ok (unused_ok gb h), roundTo_align hs]
  by_cases hfit : b.hi - b.sp < up size
  case neg =>
    -- it fits on the top stacklet
    left
    have e1 : pickTop m fib b (b.hi - b.sp) (up size) h = .ok fib h := by
      unfold pickTop; rw [if_neg hfit]; rfl
    rw [bind_ok e1, bump_ok hb htop]
    have hsp := gb.sp
    have hrest : ∀ a ∈ rest.map (·.1), upd h fib (some { b with sp := b.sp + up size }) a = h a := by
      intro a ha; exact upd_other _ _ _ fun e => hnot (e ▸ ha)
    have hcapu : ∀ a, capOf (upd h fib (some { b with sp := b.sp + up size })) a = capOf h a := by
      intro a
      by_cases e : a = fib
      · simp only [capOf, e, upd_same, hb]
      · simp only [capOf, upd_other _ _ _ e]
    refine ⟨fib, b.sp, _, ⟨(fib, (b.sp, size) :: al) :: rest, g.cache⟩, rfl, ⟨⟨_, _, rfl⟩, ⟨?_, ?_, hchain.frame hrest⟩, ?_, ?_, ?_, ?_, ?_⟩, ?_, ?_, ?_, Or.inl ⟨rfl, al, rest, hsegs, rfl⟩⟩
    · refine ⟨_, upd_same _ _ _, good_sp gb (by omega), hprev, hnext, rfl, htile⟩
    · intro hr
      have := hbot hr
      cases al with
      | nil => exact this.elim
      | cons x l => exact this
    · intro c hc
      have hc' := r.cached c hc
      obtain ⟨hne, _, n, hn, _⟩ := hcache c hc
      refine ⟨hc'.1.frame (upd_other _ _ _ hne), ?_⟩
      have := hc'.2
      simp only [capOf, upd_other _ _ _ hne, upd_same, hb, hn] at this ⊢
      exact this
    · simpa [foot, hsegs] using hnd
    · rw [hlive]; simp
    · have hsn := r.snug
      rw [hsegs] at hsn
      refine (hsn.top fun hr => bot_cons ?_).congr fun a _ => hcapu a
      intro e
      have := hbot hr
      rw [e] at this; exact this.elim
    · intro c hc
      rw [hcapu, hcapu]
      exact r.spare c hc
    · refine ⟨fun a h1 _ => upd_other _ _ _ fun e => h1 (by simp [foot, hsegs, e]), fun a ha => Or.inl (by simpa [foot, hsegs] using ha),
        fun a ha hn => absurd (by simpa [foot, hsegs] using ha) (by simpa [foot, hsegs] using hn), fun a _ _ => by rw [upd_apply]; split; (rename_i e; rw [e, hb]; rfl); rfl⟩
    · refine hk.mono fun a x hx => ?_
      rw [upd_apply] at hx
      split at hx
      · subst_vars; cases hx; exact ⟨b, hb, rfl⟩
      · exact ⟨x, hx, rfl⟩
    · simp only [popSegs, hsegs]
      split
      · rename_i hh; have := hbot hh.2; rw [hh.1] at this; exact this.elim
      · rfl
  case pos =>
    have hpos : 0 < size := by
      rcases Nat.eq_zero_or_pos size with h0 | h0
      · subst h0; simp [up] at hfit
      · exact h0
    have hlo := gb.lo
    have hhi := gb.hi
    have hsz := gb.sz
    have hsp := gb.sp
    have hadr := gb.addr
    -- the spare stacklet, if it is large enough
    by_cases hcf : ∃ c n, g.cache = some c ∧ h c = some n ∧ n.hi - n.lo ≥ up size
    · obtain ⟨c, n, hc, hn, hbig⟩ := hcf
      obtain ⟨hne, hcr, n', hn', gn, np, nn, nsp, _⟩ := hcache c hc
      rw [hn] at hn'; cases hn'
      have hbn : b.next = c := by rw [hnext, hc]; rfl
      left
      have e1 : pickTop m fib b (b.hi - b.sp) (up size) h = .ok c h := by
        unfold pickTop
        rw [if_pos hfit, bind_ok (cachedFits_some (n := n) (by rw [hbn]; exact gn.nz) (by rw [hbn]; exact hn) (by rw [hbn]; exact gn))]
        simp only [hbig, decide_true, if_true, hbn]
        rfl
      rw [bind_ok e1, bump_ok hn (isTop_ok hn (Or.inl nn))]
      have hrest : ∀ a ∈ ((fib, al) :: rest).map (·.1), upd h c (some { n with sp := n.sp + up size }) a = h a := by
        intro a ha
        refine upd_other _ _ _ fun e => ?_
        subst e
        simp only [List.map_cons, List.mem_cons] at ha
        exact ha.elim (fun e => hne e) hcr
      have gnlo := gn.lo
      have hcapu : ∀ a, capOf (upd h c (some { n with sp := n.sp + up size })) a = capOf h a := by
        intro a
        by_cases e : a = c
        · simp only [capOf, e, upd_same, hn]
        · simp only [capOf, upd_other _ _ _ e]
      refine ⟨c, n.sp, _, ⟨(c, [(n.sp, size)]) :: (fib, al) :: rest, none⟩, rfl, ⟨⟨_, _, rfl⟩, ⟨?_, ?_, Chain.frame ?_ hrest⟩, ?_, ?_, ?_, ?_, ?_⟩, ?_, ?_, ?_, Or.inr ⟨rfl, by rw [hsegs], Or.inl hc⟩⟩
      · refine ⟨_, upd_same _ _ _, good_sp gn (by omega), np, nn, rfl, ?_⟩
        show n.sp = c + 48
        omega
      · intro _; exact hpos
      · have := r.chain
        rw [hsegs, hc] at this
        exact this
      · intro c' hc'; simp at hc'
      · simp only [foot, hsegs, hc, List.map_cons, Option.toList_some, Option.toList_none, List.append_nil, List.nodup_cons,
          List.nodup_append, List.cons_append, List.mem_cons, List.mem_append] at hnd ⊢
        grind
      · rw [hlive]; simp
      · refine Snug.congr (cap := capOf h) ⟨?_, hsegs ▸ r.snug⟩ fun a _ => hcapu a
        have k1 := r.spare c hc
        have k2 := (r.cached c hc).2
        have k3 := htile.sp_eq
        have k4 : capOf h fib = b.hi - b.lo := by simp only [capOf, hb]
        refine ⟨k1, ?_, by simp only [bot]; omega⟩
        show capOf h fib < used al + up size
        omega
      · intro c' hc'; simp at hc'
      · have hfe : ∀ a, a ∈ foot ⟨(c, [(n.sp, size)]) :: (fib, al) :: rest, none⟩ ↔ a ∈ foot g := by
          intro a; simp only [foot, hsegs, hc]; simp; grind
        refine ⟨fun a h1 _ => upd_other _ _ _ fun e => h1 (by simp [foot, hc, e]), fun a ha => Or.inl ((hfe a).1 ha),
          fun a ha hn => absurd ((hfe a).2 ha) hn, fun a _ _ => by rw [upd_apply]; split; (rename_i e; rw [e, hn]; rfl); rfl⟩
      · refine hk.mono fun a x hx => ?_
        rw [upd_apply] at hx
        split at hx
        · subst_vars; cases hx; exact ⟨n, hn, rfl⟩
        · exact ⟨x, hx, rfl⟩
      · simp [popSegs, hsegs]
    · -- a new stacklet
      have hno : ∀ c, g.cache = some c → capOf h c < up size := by
        intro c hc
        obtain ⟨_, _, n, h1, _⟩ := hcache c hc
        have h2 : ¬ (n.hi - n.lo ≥ up size) := fun hb => hcf ⟨c, n, hc, h1, hb⟩
        simp only [capOf, h1]
        exact Nat.lt_of_not_le h2
      have hW := W_eq
      have hcap : (2 * (b.hi - b.lo)) % W = 2 * (b.hi - b.lo) := Nat.mod_eq_of_lt (by unfold maxAddr at hadr; omega)
      have hms : max (2 * (b.hi - b.lo)) (up size) ≤ maxSize := by
        have := up_le hs
        unfold maxAddr at hadr
        unfold maxSize at *
        omega
      have hn : b.next = 0 ∨ ∃ n, h b.next = some n ∧ n.sp = n.lo ∧ n.next = 0 := by
        cases hg : g.cache with
        | none => left; rw [hnext, hg]; rfl
        | some c =>
          obtain ⟨_, _, n, h1, _, _, h2, h3, _⟩ := hcache c hg
          right; rw [hnext, hg]; exact ⟨n, h1, h3, h2⟩
      have hne : b.next ≠ fib := by
        cases hg : g.cache with
        | none => rw [hnext, hg]; exact fun e => gb.nz e.symm
        | some c => rw [hnext, hg]; exact (hcache c hg).1
      have e1 : pickTop m fib b (b.hi - b.sp) (up size) h = nextStacklet m (max (2 * (b.hi - b.lo)) (up size)) fib h := by
        have e0 : cachedFits b (up size) h = .ok false h := by
          cases hg : g.cache with
          | none => exact cachedFits_none (by rw [hnext, hg]; rfl)
          | some c =>
            obtain ⟨_, _, n, h1, gn, _, h2, h3, _⟩ := hcache c hg
            have hbn : b.next = c := by rw [hnext, hg]; rfl
            rw [cachedFits_some (n := n) (by rw [hbn]; exact gn.nz) (by rw [hbn]; exact h1) (by rw [hbn]; exact gn)]
            congr 1
            rw [decide_eq_false_iff_not]
            exact fun hb => hcf ⟨c, n, hg, h1, hb⟩
        unfold pickTop
        rw [if_pos hfit, bind_ok e0]
        simp only [Bool.false_eq_true, if_false]
        rw [bind_ok (capacity_ok gb h), hcap]
      rw [bind_apply, e1, nextStacklet_prev hm hk hms gb.nz hb hn hne]
      cases hx : m h (request (max (2 * (b.hi - b.lo)) (up size))) with
      | none =>
        right
        refine ⟨rfl, by simpa [capOf, hb] using hx, fun al' r' e => ?_, hno⟩
        rw [hsegs] at e
        cases e
        have k3 := htile.sp_eq
        have k4 : capOf h fib = b.hi - b.lo := by simp only [capOf, hb]
        clear hn
        omega
      | some a =>
        left
        dsimp only
        have hgm := hm _ _ _ hx
        have hfresh : h a = none := malloc_fresh hm hk (by have := request_pos (max (2 * (b.hi - b.lo)) (up size)); omega) hx
        have hrq := request_ge (max (2 * (b.hi - b.lo)) (up size))
        have hnew := newBlk_good (prev := fib) hm hx
        generalize hR : max (2 * (b.hi - b.lo)) (up size) = R at *
        have hR' : up size ≤ R := by omega
        rw [bump_ok (upd_same _ _ _) (isTop_ok (upd_same _ _ _) (Or.inl rfl))]
        have haf : a ≠ fib := fun e => by simp_all
        have har : a ∉ rest.map (·.1) := by
          intro hmem
          have : ∀ (l : List Seg) (nx : Nat), Chain h nx l → a ∈ l.map (·.1) → False := by
            intro l
            induction l with
            | nil => simp
            | cons s r ih =>
              intro nx hc hm
              simp only [List.map_cons, List.mem_cons] at hm
              rcases hm with e | hm
              · obtain ⟨b', h1, _⟩ := hc.1; rw [← e, hfresh] at h1; cases h1
              · exact ih _ hc.2.2 hm
          exact this rest fib hchain hmem
        have hacn : ∀ c, g.cache = some c → c ≠ a := by
          intro c hc e
          obtain ⟨_, _, n, h1, _⟩ := hcache c hc
          rw [e, hfresh] at h1; cases h1
        -- the final heap, pointwise
        have hH : ∀ q, upd (upd (freed (upd h fib (some { b with next := a })) b.next) a (some (newBlk a R fib))) a
              (some { newBlk a R fib with sp := (newBlk a R fib).sp + up size }) q =
            if q = a then some { newBlk a R fib with sp := a + 48 + up size }
            else if g.cache = some q then none
            else if q = fib then some { b with next := a } else h q := by
          intro q
          simp only [upd_apply, freed_apply]
          by_cases hqa : q = a
          · simp only [hqa, if_true]; rfl
          · simp only [hqa, if_false]
            have : (b.next ≠ 0 ∧ q = b.next) ↔ g.cache = some q := by
              cases hg : g.cache with
              | none => simp [hnext, hg]
              | some c =>
                have := (hcache c hg).2.2
                obtain ⟨n, _, gn, _⟩ := this
                have := gn.nz
                simp [hnext, hg, this]
                constructor <;> exact fun e => e.symm
            simp only [this]
        generalize upd (upd (freed (upd h fib (some { b with next := a })) b.next) a (some (newBlk a R fib))) a
              (some { newBlk a R fib with sp := (newBlk a R fib).sp + up size }) = H at hH
        have hrest : ∀ q ∈ rest.map (·.1), H q = h q := by
          intro q hq
          have h1 : q ≠ a := fun e => har (e ▸ hq)
          have h2 : q ≠ fib := fun e => hnot (e ▸ hq)
          have h3 : g.cache ≠ some q := fun e => (hcache q e).2.1 hq
          rw [hH]; simp [h1, h2, h3]
        have hfibc : g.cache ≠ some fib := fun e => (hcache fib e).1 rfl
        refine ⟨a, (newBlk a R fib).sp, H, ⟨(a, [((newBlk a R fib).sp, size)]) :: (fib, al) :: rest, none⟩, rfl,
          ⟨⟨_, _, rfl⟩, ⟨?_, ?_, ?_, ?_, hchain.frame hrest⟩, ?_, ?_, ?_, ?_, ?_⟩, ?_, ?_, ?_, Or.inr ⟨rfl, by rw [hsegs], Or.inr ⟨hno, ?_⟩⟩⟩
        · refine ⟨_, by rw [hH]; simp; rfl, good_sp hnew ?_, rfl, rfl, rfl, rfl⟩
          simp only [newBlk]; omega
        · intro _; exact hpos
        · refine ⟨_, by rw [hH]; simp [haf.symm, hfibc], good_next gb a, hprev, rfl, htile⟩
        · exact hbot
        · intro c hc; simp at hc
        · simp only [foot, hsegs, List.map_cons, Option.toList_none, List.append_nil, List.nodup_cons,
            List.nodup_append, List.cons_append, List.mem_cons, List.mem_append] at hnd ⊢
          grind
        · rw [hlive]; simp
        · clear hn
          have k3 := htile.sp_eq
          have k4 : capOf h fib = b.hi - b.lo := by simp only [capOf, hb]
          have kf : capOf H fib = b.hi - b.lo := by unfold capOf; rw [hH]; simp [haf.symm, hfibc]
          have ka : capOf H a = request R - 48 := by unfold capOf; rw [hH]; simp [newBlk]; omega
          have kr : request R ≤ R + 4095 + 48 := by unfold request; omega
          have k5 : 4000 ≤ b.hi - b.lo := by rw [← k4]; exact Snug.large (hsegs ▸ r.snug)
          refine ⟨⟨?_, ?_, ?_⟩, ?_⟩
          · show 2 * capOf H fib ≤ capOf H a
            omega
          · show capOf H fib < used al + up size
            omega
          · show capOf H a ≤ max (8 * capOf H fib) (up size + 4095)
            omega
          · refine Snug.congr (hsegs ▸ r.snug) fun q hq => ?_
            simp only [List.map_cons, List.mem_cons] at hq
            rcases hq with e | hq
            · rw [e, kf, k4]
            · unfold capOf; rw [hrest q hq]
        · intro c hc; simp at hc
        · have hmemf : ∀ q, q ∈ foot g ↔ q = fib ∨ q ∈ rest.map (·.1) ∨ g.cache = some q := by
            intro q; simp only [foot, hsegs, List.map_cons, List.mem_append, List.mem_cons, Option.mem_toList]; grind
          have hmemf' : ∀ q, q ∈ foot ⟨(a, [((newBlk a R fib).sp, size)]) :: (fib, al) :: rest, none⟩ ↔ q = a ∨ q = fib ∨ q ∈ rest.map (·.1) := by
            intro q; simp [foot]
          refine ⟨fun q h1 h2 => ?_, fun q h1 => ?_, fun q h1 h2 => ?_, fun q h1 h2 => ?_⟩
          · rw [hmemf] at h1; rw [hmemf'] at h2; rw [hH]; grind
          · rw [hmemf'] at h1; rw [hmemf]; grind
          · rw [hmemf] at h1; rw [hmemf'] at h2; rw [hH]; grind
          · rw [hmemf] at h1
            have k1 : q ≠ a := by
              rintro rfl
              rcases h1 with e | e | e
              · exact haf e
              · exact har e
              · exact hacn q e rfl
            have k2 : g.cache ≠ some q := by
              intro e
              rw [hmemf'] at h2
              have := hcache q e
              grind
            rw [hH, if_neg k1, if_neg k2]
            split
            · rename_i e; rw [e, hb]; rfl
            · rfl
        · refine hk.insert (n := a) (r := request R) (by have := request_pos R; omega) hgm.2.2.2 fun q x hq => ?_
          rw [hH] at hq
          split at hq
          · rename_i e; cases hq; exact Or.inl ⟨e, rfl⟩
          · split at hq
            · cases hq
            · split at hq
              · rename_i e; subst e; cases hq; exact Or.inr ⟨b, hb, rfl⟩
              · exact Or.inr ⟨x, hq, rfl⟩
        · simp [popSegs, hsegs]
        · clear hn
          have k4 : capOf h fib = b.hi - b.lo := by simp only [capOf, hb]
          have ka : capOf H a = request R - 48 := by unfold capOf; rw [hH]; simp [newBlk]; omega
          have kr : request R ≤ R + 4095 + 48 := by unfold request; omega
          omega

theorem allocate_spec {m : Malloc} (hm : GoodMalloc m) {h : Heap} (hk : HeapOk h) {fib size : Nat}
    {live : List (Nat × Nat)} {g : Ghost} (r : Rep h fib live g) (hs : size ≤ maxSize) :
    (∃ fib' p h' g', allocate m fib size h = .ok (fib', p) h' ∧ Rep h' fib' ((p, size) :: live) g' ∧
      Local h (foot g) h' (foot g') ∧ HeapOk h' ∧ popSegs g'.segs = g.segs) ∨
    (allocate m fib size h = .badAlloc h ∧ m h (request (max (2 * capOf h fib) (up size))) = none) := by
  rcases allocate_full hm hk r hs with ⟨f, p, h', g', e, h1, h2, h3, h4, _⟩ | ⟨e, h1, _⟩
  · exact Or.inl ⟨f, p, h', g', e, h1, h2, h3, h4⟩
  · exact Or.inr ⟨e, h1⟩

theorem leave_root {h : Heap} {fib : Nat} {b : Blk} (hp : b.prev = 0) : leave fib b h = .ok fib h := by
  simp [leave, hp, pure_apply]

theorem trim_small {h : Heap} {fib : Nat} {b : Blk} (hb : h fib = some b) (gb : Good fib b)
    (hn : b.next = 0 ∨ ∃ n, h b.next = some n ∧ Good b.next n ∧ n.hi - n.lo ≤ 8 * (b.hi - b.lo)) :
    trim fib h = .ok () h := by
  unfold trim
  rw [bind_ok (get_some hb)]
  by_cases h0 : b.next = 0
  · simp only [h0, ne_eq, not_true_eq_false, if_false]; rfl
  · simp only [ne_eq, h0, not_false_eq_true, if_true]
    rcases hn with hn | ⟨n, h1, gn, h2⟩
    · exact absurd hn h0
    · rw [bind_ok (get_some h1), bind_ok (capacity_ok gn h), bind_ok (capacity_ok gb h)]
      have hW := W_eq
      have := gb.addr
      have := gb.hi
      have e : 8 * (b.hi - b.lo) % W = 8 * (b.hi - b.lo) := Nat.mod_eq_of_lt (by unfold maxAddr at *; omega)
      rw [e, if_neg (by omega)]
      rfl

theorem trim_big {h : Heap} {fib : Nat} {b n : Blk} (hb : h fib = some b) (gb : Good fib b) (h1 : h b.next = some n)
    (gn : Good b.next n) (hsp : n.sp = n.lo) (hnx : n.next = 0) (hne : b.next ≠ fib) (h2 : n.hi - n.lo > 8 * (b.hi - b.lo)) :
    trim fib h = .ok () (freed (upd h fib (some { b with next := 0 })) b.next) := by
  unfold trim
  rw [bind_ok (get_some hb)]
  simp only [ne_eq, gn.nz, not_false_eq_true, if_true]
  rw [bind_ok (get_some h1), bind_ok (capacity_ok gn h), bind_ok (capacity_ok gb h)]
  have hW := W_eq
  have := gb.addr
  have := gb.hi
  have e : 8 * (b.hi - b.lo) % W = 8 * (b.hi - b.lo) := Nat.mod_eq_of_lt (by unfold maxAddr at *; omega)
  rw [e, if_pos (by omega)]
  exact setNext_ok hb (Or.inr ⟨n, h1, hsp, hnx⟩) hne

theorem BotPos.tail {x : Nat × Nat} {l : List (Nat × Nat)} (h : BotPos (x :: l)) (hl : l ≠ []) : BotPos l := by
  cases l with
  | nil => exact absurd rfl hl
  | cons y l => exact h

theorem dealloc_end {h h' : Heap} {fib fib' : Nat} (e : shrink fib h = .ok fib' h') (ht : isTop fib' h' = .ok true h') :
    (do
      let fib' ← shrink fib
      let t' ← isTop fib'
      assert t'
      pure fib' : M Nat) h = .ok fib' h' := by
  rw [bind_ok e, bind_ok ht, bind_ok (assert_true rfl)]
  rfl

/-- Where `deallocate` leaves the stack: on the same stacklet, or on the one below with the emptied one as the spare, or on
the one below with the emptied one freed because it is more than eight times as large. -/
def Drop (h : Heap) (fib : Nat) (g : Ghost) (fib' : Nat) (g' : Ghost) : Prop :=
  (g'.cache = g.cache ∧ ∃ x al r, g.segs = (fib, x :: al) :: r ∧ g'.segs = (fib, al) :: r) ∨
  ∃ al, g.segs = (fib, al) :: g'.segs ∧
    (g'.cache = some fib ∨ (g'.cache = none ∧ ∃ al' r, g'.segs = (fib', al') :: r ∧ 8 * capOf h fib' < capOf h fib))

/-- The effect of `deallocate` of the most recent allocation. -/
theorem deallocate_full {h : Heap} (hk : HeapOk h) {fib p n : Nat} {live : List (Nat × Nat)} {g : Ghost}
    (r : Rep h fib ((p, n) :: live) g) :
    ∃ fib' h' g', deallocate fib p h = .ok fib' h' ∧ Rep h' fib' live g' ∧ Local h (foot g) h' (foot g') ∧ HeapOk h' ∧
      g'.segs = popSegs g.segs ∧ Drop h fib g fib' g' := by
  obtain ⟨b, al, rest, hsegs, hb, gb, hprev, hnext, htile, hbot, hchain, hnot, hcache⟩ := r.unfold
  have htop := r.isTop
  have hlive := r.live_eq
  have hnd := r.nodup
  rw [hsegs] at hlive
  obtain ⟨al', rfl, hlive'⟩ : ∃ al', al = (p, n) :: al' ∧ live = al' ++ rest.flatMap (·.2) := by
    cases al with
    | nil =>
      cases rest with
      | nil => simp at hlive
      | cons s r => exact (hbot (by simp)).elim
    | cons x l =>
      simp only [List.flatMap_cons, List.cons_append, List.cons.injEq] at hlive
      exact ⟨l, by rw [← hlive.1], hlive.2⟩
  have htile' : Tiles (fib + 48) al' p := htile.2
  have hbsp : b.sp = p + up n := htile.1
  have hpeq := htile'.sp_eq
  have hlo := gb.lo
  have hhi := gb.hi
  have hsp := gb.sp
  have gb1 : Good fib { b with sp := p } := good_sp gb (by omega)
  unfold deallocate
  rw [bind_ok (assert_true (by simpa using gb.nz)), bind_ok htop, bind_ok (assert_true rfl), bind_ok (get_some hb),
    bind_ok (put_some hb)]
  have hb1 : upd h fib (some { b with sp := p }) fib = some { b with sp := p } := upd_same _ _ _
  have ho1 : ∀ q, q ≠ fib → upd h fib (some { b with sp := p }) q = h q := fun q hq => upd_other _ _ _ hq
  have hk1 : HeapOk (upd h fib (some { b with sp := p })) := by
    refine hk.mono fun a x hx => ?_
    rw [upd_apply] at hx
    split at hx
    · rename_i e; subst e; cases hx; exact ⟨b, hb, rfl⟩
    · exact ⟨x, hx, rfl⟩
  generalize upd h fib (some { b with sp := p }) = h1 at hb1 ho1 hk1 ⊢
  have hcapu : ∀ a, capOf h1 a = capOf h a := by
    intro a
    by_cases e : a = fib
    · simp only [capOf, e, hb1, hb]
    · simp only [capOf, ho1 _ e]
  -- the spare stacklet
  have hn1 : b.next = 0 ∨ ∃ n, h1 b.next = some n ∧ Good b.next n ∧ n.sp = n.lo ∧ n.next = 0 ∧ n.hi - n.lo ≤ 8 * (b.hi - b.lo) := by
    cases hg : g.cache with
    | none => left; rw [hnext, hg]; rfl
    | some c =>
      obtain ⟨hne, _, n, k1, k2, _, k3, k4, k5⟩ := hcache c hg
      right; rw [hnext, hg]
      exact ⟨n, by rw [Option.getD_some, ho1 c hne]; exact k1, k2, k4, k3, k5⟩
  have hnne : b.next ≠ fib := by
    cases hg : g.cache with
    | none => rw [hnext, hg]; exact fun e => gb.nz e.symm
    | some c => rw [hnext, hg]; exact (hcache c hg).1
  have htop1 : isTop fib h1 = .ok true h1 :=
    isTop_ok hb1 (hn1.elim Or.inl fun ⟨n, k1, _, k2, k3, _⟩ => Or.inr ⟨n, k1, k2, k3⟩)
  have hrest1 : ∀ a ∈ rest.map (·.1), h1 a = h a := fun a ha => ho1 a fun e => hnot (e ▸ ha)
  have hmemf : ∀ q, q ∈ foot g ↔ q = fib ∨ q ∈ rest.map (·.1) ∨ g.cache = some q := by
    intro q; simp only [foot, hsegs, List.map_cons, List.mem_append, List.mem_cons, Option.mem_toList]; grind
  -- staying on the same stacklet
  have stay : (rest ≠ [] → BotPos al') → shrink fib h1 = .ok fib h1 →
      ∃ fib' h' g', (do
        let fib' ← shrink fib
        let t' ← isTop fib'
        assert t'
        pure fib' : M Nat) h1 = .ok fib' h' ∧ Rep h' fib' live g' ∧ Local h (foot g) h' (foot g') ∧ HeapOk h' ∧
        g'.segs = popSegs g.segs ∧ Drop h fib g fib' g' := by
    intro hbp hsh
    refine ⟨fib, h1, ⟨(fib, al') :: rest, g.cache⟩, dealloc_end hsh htop1, ⟨⟨_, _, rfl⟩,
      ⟨⟨_, hb1, gb1, hprev, hnext, htile'⟩, hbp, hchain.frame hrest1⟩, ?_, ?_, ?_, ?_, ?_⟩, ?_, hk1, ?_,
      Or.inl ⟨rfl, (p, n), al', rest, hsegs, rfl⟩⟩
    · intro c hc
      have hc' := r.cached c hc
      obtain ⟨hne, _, n, hn, _⟩ := hcache c hc
      refine ⟨hc'.1.frame (ho1 c hne), ?_⟩
      have := hc'.2
      simp only [capOf, ho1 c hne, hb1, hb, hn] at this ⊢
      exact this
    · simpa [foot, hsegs] using hnd
    · rw [hlive']; simp
    · have hsn := r.snug
      rw [hsegs] at hsn
      refine (hsn.top fun hr => (bot_cons ?_).symm).congr fun a _ => hcapu a
      intro e
      have := hbp hr
      rw [e] at this; exact this.elim
    · intro c hc
      rw [hcapu, hcapu]
      exact r.spare c hc
    · refine ⟨fun a k1 _ => ho1 a fun e => k1 (by simp [hmemf, e]), fun a ha => Or.inl (by simpa [foot, hsegs] using ha),
        fun a ha hn => absurd (by simpa [foot, hsegs] using ha) (by simpa [foot, hsegs] using hn), fun a _ _ => ?_⟩
      by_cases e : a = fib
      · rw [e, hb1, hb]; rfl
      · rw [ho1 a e]
    · simp only [popSegs, hsegs]
      split
      · rename_i hh; have := hbp hh.2; rw [hh.1] at this; exact this.elim
      · rfl
  by_cases hempty : p = b.lo
  case neg =>
    apply stay
    · intro hr
      refine (hbot hr).tail fun e => hempty ?_
      rw [e] at hpeq; simp [used] at hpeq; omega
    · unfold shrink
      rw [bind_ok (get_some hb1)]
      simp only [Blk.isEmpty, hempty, decide_false, Bool.false_eq_true, if_false]
      rfl
  case pos =>
    have hem : ({ b with sp := p } : Blk).isEmpty = true := by simp [Blk.isEmpty, hempty]
    cases rest with
    | nil =>
      apply stay
      · intro hr; exact absurd rfl hr
      · unfold shrink
        rw [bind_ok (get_some hb1), hem]
        simp only [if_true]
        rw [bind_ok (leave_root (b := { b with sp := p }) hprev), bind_ok (assert_true (by simpa using gb.nz)), bind_ok (trim_small hb1 gb1 ?_)]
        · rfl
        · exact hn1.elim Or.inl fun ⟨n, k1, k2, _, _, k3⟩ => Or.inr ⟨n, k1, k2, k3⟩
    | cons s rest =>
      have hal : al' = [] := by
        rcases al' with _ | ⟨y, l⟩
        · rfl
        · have := ((hbot (by simp)).tail (by simp)).used
          omega
      subst hal
      obtain ⟨f, al2⟩ := s
      have hff : fib ≠ f := fun e => hnot (by simp [e])
      have hfr : fib ∉ rest.map (·.1) := fun hm => hnot (by simp only [List.map_cons, List.mem_cons]; exact Or.inr hm)
      obtain ⟨⟨c, hc, gc, hcp, hcn, hct⟩, hcb, hcr⟩ := hchain
      have hfrest : f ∉ rest.map (·.1) := by
        simp only [foot, hsegs, List.map_cons, List.cons_append, List.nodup_cons, List.mem_append, not_or] at hnd
        exact hnd.2.1.1
      have hgf : g.cache ≠ some f := fun e => (hcache f e).2.1 (by simp)
      have hgfib : g.cache ≠ some fib := fun e => (hcache fib e).1 rfl
      -- after `set_next(nullptr)` on the emptied stacklet
      have e1 : leave fib { b with sp := p } h1 =
          .ok f (freed (upd h1 fib (some { b with sp := p, next := 0 })) b.next) := by
        unfold leave
        have hp0 : b.prev = f := hprev
        rw [if_pos (show b.prev ≠ 0 by rw [hp0]; exact gc.nz), ← hp0]
        rw [bind_ok (setNext_ok hb1 (hn1.elim Or.inl fun ⟨n, k1, _, k2, k3, _⟩ => Or.inr ⟨n, k1, k2, k3⟩) hnne)]
        rfl
      have hH : ∀ q, freed (upd h1 fib (some { b with sp := p, next := 0 })) b.next q =
          if g.cache = some q then none else if q = fib then some { b with sp := p, next := 0 } else h q := by
        intro q
        simp only [upd_apply, freed_apply]
        have : (b.next ≠ 0 ∧ q = b.next) ↔ g.cache = some q := by
          cases hg : g.cache with
          | none => simp [hnext, hg]
          | some c =>
            obtain ⟨n, _, gn, _⟩ := (hcache c hg).2.2
            have := gn.nz
            simp [hnext, hg, this]
            constructor <;> exact fun e => e.symm
        simp only [this]
        split
        · rfl
        · split
          · rfl
          · rename_i hq; exact ho1 q hq
      generalize freed (upd h1 fib (some { b with sp := p, next := 0 })) b.next = h2 at e1 hH
      have gb2 : Good fib { b with sp := p, next := 0 } := good_next gb1 0
      have hb2 : h2 fib = some { b with sp := p, next := 0 } := by rw [hH]; simp [hgfib]
      have hc2 : h2 f = some c := by rw [hH]; simp [hgf, hff.symm, hc]
      have hrest2 : ∀ a ∈ rest.map (·.1), h2 a = h a := by
        intro a ha
        have k1 : a ≠ fib := fun e => hfr (e ▸ ha)
        have k2 : g.cache ≠ some a := fun e => (hcache a e).2.1 (by simp only [List.map_cons, List.mem_cons]; exact Or.inr ha)
        rw [hH]; simp [k1, k2]
      have hk2 : HeapOk h2 := by
        refine hk.mono fun a x hx => ?_
        rw [hH] at hx
        split at hx
        · cases hx
        · split at hx
          · rename_i e; subst e; cases hx; exact ⟨b, hb, rfl⟩
          · exact ⟨x, hx, rfl⟩
      have hpop : popSegs g.segs = (f, al2) :: rest := by simp [popSegs, hsegs]
      have hcn' : h2 c.next = some { b with sp := p, next := 0 } := by rw [hcn]; exact hb2
      have hshrink : ∀ h3, trim f h2 = .ok () h3 → shrink fib h1 = .ok f h3 := by
        intro h3 e3
        unfold shrink
        rw [bind_ok (get_some hb1), hem]
        simp only [if_true]
        rw [bind_ok e1, bind_ok (assert_true (by simpa using gc.nz)), bind_ok e3]
        rfl
      by_cases hbig : b.hi - b.lo > 8 * (c.hi - c.lo)
      · -- the emptied stacklet is freed
        have e3 := trim_big hc2 gc hcn' (by rw [hcn]; exact gb2) hempty rfl (by rw [hcn]; exact hff) hbig
        have hH3 : ∀ q, freed (upd h2 f (some { c with next := 0 })) c.next q =
            if q = fib then none else if q = f then some { c with next := 0 } else h2 q := by
          intro q
          simp only [upd_apply, freed_apply, hcn]
          have := gb.nz
          simp [this]
        generalize freed (upd h2 f (some { c with next := 0 })) c.next = h3 at e3 hH3
        have hc3 : h3 f = some { c with next := 0 } := by rw [hH3]; simp [hff.symm]
        have hrest3 : ∀ a ∈ rest.map (·.1), h3 a = h a := by
          intro a ha
          have k1 : a ≠ fib := fun e => hfr (e ▸ ha)
          have k2 : a ≠ f := fun e => hfrest (e ▸ ha)
          rw [hH3, if_neg k1, if_neg k2, hrest2 a ha]
        refine ⟨f, h3, ⟨(f, al2) :: rest, none⟩, dealloc_end (hshrink _ e3) (isTop_ok hc3 (Or.inl rfl)),
          ⟨⟨_, _, rfl⟩, ⟨⟨_, hc3, good_next gc 0, hcp, rfl, hct⟩, hcb, hcr.frame hrest3⟩, ?_, ?_, ?_, ?_, ?_⟩, ?_, ?_, hpop.symm,
          Or.inr ⟨_, hsegs, Or.inr ⟨rfl, al2, rest, rfl, by simp only [capOf, hb, hc]; omega⟩⟩⟩
        · intro c' hc'; simp at hc'
        · simp only [foot, hsegs, List.map_cons, Option.toList_none, List.append_nil, List.nodup_cons,
            List.nodup_append, List.cons_append, List.mem_cons, List.mem_append] at hnd ⊢
          grind
        · rw [hlive']; simp
        · have hsn := r.snug
          rw [hsegs] at hsn
          refine Snug.congr hsn.2 fun q hq => ?_
          simp only [List.map_cons, List.mem_cons] at hq
          rcases hq with e | hq
          · simp only [capOf, e, hc3, hc]
          · unfold capOf; rw [hrest3 q hq]
        · intro c' hc'; simp at hc'
        · have hmemf' : ∀ q, q ∈ foot ⟨(f, al2) :: rest, none⟩ ↔ q = f ∨ q ∈ rest.map (·.1) := by
            intro q; simp [foot]
          simp only [List.map_cons, List.mem_cons] at hmemf
          refine ⟨fun q k1 k2 => ?_, fun q k1 => ?_, fun q k1 k2 => ?_, fun q k1 k2 => ?_⟩
          · rw [hmemf] at k1; rw [hmemf'] at k2; rw [hH3, hH]; grind
          · rw [hmemf'] at k1; rw [hmemf]; grind
          · rw [hmemf] at k1; rw [hmemf'] at k2; rw [hH3, hH]; grind
          · rw [hmemf'] at k2
            have k3 : q ≠ fib := by grind
            have k4 : g.cache ≠ some q := fun e => by
              have := (hcache q e).2.1
              simp only [List.map_cons, List.mem_cons] at this
              exact this k2
            rw [hH3, if_neg k3]
            split
            · rename_i e; rw [e, hc]; rfl
            · rw [hH, if_neg k4, if_neg k3]
        · refine hk2.mono fun a x hx => ?_
          rw [hH3] at hx
          split at hx
          · cases hx
          · split at hx
            · rename_i e; subst e; cases hx; exact ⟨c, hc2, rfl⟩
            · exact ⟨x, hx, rfl⟩
      · -- the emptied stacklet is kept as the spare
        have e3 := trim_small hc2 gc (Or.inr ⟨_, hcn', by rw [hcn]; exact gb2, by simp only; omega⟩)
        refine ⟨f, h2, ⟨(f, al2) :: rest, some fib⟩, dealloc_end (hshrink _ e3) (isTop_ok hc2 (Or.inr ⟨_, hcn', hempty, rfl⟩)),
          ⟨⟨_, _, rfl⟩, ⟨⟨_, hc2, gc, hcp, hcn, hct⟩, hcb, hcr.frame hrest2⟩, ?_, ?_, ?_, ?_, ?_⟩, ?_, hk2, hpop.symm, Or.inr ⟨_, hsegs, Or.inl rfl⟩⟩
        · intro c' hc'
          cases hc'
          refine ⟨⟨_, hb2, gb2, hprev, rfl, ?_⟩, ?_⟩
          · show p = fib + 48; omega
          · simp only [capOf, hb2, hc2]; omega
        · simp only [foot, hsegs, List.map_cons, Option.toList_some, List.nodup_cons, List.nodup_append, List.cons_append,
            List.mem_cons, List.mem_append] at hnd ⊢
          grind
        · rw [hlive']; simp
        · have hsn := r.snug
          rw [hsegs] at hsn
          refine Snug.congr hsn.2 fun q hq => ?_
          simp only [List.map_cons, List.mem_cons] at hq
          rcases hq with e | hq
          · simp only [capOf, e, hc2, hc]
          · unfold capOf; rw [hrest2 q hq]
        · intro c' hc'
          cases hc'
          have hsn := r.snug
          rw [hsegs] at hsn
          have := hsn.1.1
          simp only [capOf, hb2, hc2, hb, hc] at this ⊢
          exact this
        · have hmemf' : ∀ q, q ∈ foot ⟨(f, al2) :: rest, some fib⟩ ↔ q = f ∨ q ∈ rest.map (·.1) ∨ q = fib := by
            intro q; simp [foot]
          simp only [List.map_cons, List.mem_cons] at hmemf
          refine ⟨fun q k1 k2 => ?_, fun q k1 => ?_, fun q k1 k2 => ?_, fun q k1 k2 => ?_⟩
          · rw [hmemf] at k1; rw [hmemf'] at k2; rw [hH]; grind
          · rw [hmemf'] at k1; rw [hmemf]; grind
          · rw [hmemf] at k1; rw [hmemf'] at k2; rw [hH]; grind
          · rw [hmemf'] at k2
            have k4 : g.cache ≠ some q := fun e => by
              have := hcache q e
              simp only [List.map_cons, List.mem_cons] at this
              grind
            rw [hH, if_neg k4]
            split
            · rename_i e; rw [e, hb]; rfl
            · rfl

theorem deallocate_spec {h : Heap} (hk : HeapOk h) {fib p n : Nat} {live : List (Nat × Nat)} {g : Ghost}
    (r : Rep h fib ((p, n) :: live) g) :
    ∃ fib' h' g', deallocate fib p h = .ok fib' h' ∧ Rep h' fib' live g' ∧ Local h (foot g) h' (foot g') ∧ HeapOk h' ∧
      g'.segs = popSegs g.segs := by
  obtain ⟨f, h', g', e, h1, h2, h3, h4, _⟩ := deallocate_full hk r
  exact ⟨f, h', g', e, h1, h2, h3, h4⟩

/-- The effect of constructing a stack. -/
theorem new_spec {m : Malloc} (hm : GoodMalloc m) {h : Heap} (hk : HeapOk h) :
    (∃ fib h', new m h = .ok fib h' ∧ Rep h' fib [] ⟨[(fib, [])], none⟩ ∧ Local h [] h' [fib] ∧ HeapOk h') ∨
    new m h = .badAlloc h := by
  have hs : initSize ≤ maxSize := by have := W_eq; unfold maxSize initSize; omega
  unfold new
  rw [nextStacklet_null hs]
  cases e : m h (request initSize) with
  | none => right; rfl
  | some a =>
    left
    have hf := malloc_fresh hm hk (by have := request_pos initSize; omega) e
    have hg := newBlk_good (prev := 0) hm e
    refine ⟨a, _, rfl, ⟨⟨_, _, rfl⟩, ⟨⟨_, upd_same _ _ _, hg, rfl, rfl, rfl⟩, fun h => absurd rfl h, trivial⟩, ?_, ?_, rfl, ⟨?_, trivial⟩, ?_⟩, ⟨?_, ?_, ?_, ?_⟩, ?_⟩
    · intro c hc; simp at hc
    · simp [foot]
    · simp only [capOf, upd_same, newBlk, request, initSize]; omega
    · intro c hc; simp at hc
    · intro q _ h2; exact upd_other _ _ _ (by simpa using h2)
    · intro q hq; right; simp at hq; rw [hq]; exact hf
    · simp
    · simp
    · refine hk.insert (n := a) (r := request initSize) (by have := request_pos initSize; omega) (hm _ _ _ e).2.2.2 fun q x hq => ?_
      rw [upd_apply] at hq
      split at hq
      · rename_i k; cases hq; exact Or.inl ⟨k, rfl⟩
      · exact Or.inr ⟨x, hq, rfl⟩

/-- The effect of destroying a stack with no allocations: all its blocks are freed. -/
theorem destroy_spec {h : Heap} (hk : HeapOk h) {fib : Nat} {g : Ghost} (r : Rep h fib [] g) :
    ∃ h', destroy fib h = .ok () h' ∧ Local h (foot g) h' [] ∧ HeapOk h' := by
  obtain ⟨b, al, rest, hsegs, hb, gb, hprev, hnext, htile, hbot, hchain, hnot, hcache⟩ := r.unfold
  have hlive := r.live_eq
  rw [hsegs] at hlive
  have hrest : rest = [] := by
    cases rest with
    | nil => rfl
    | cons s l =>
      have := hbot (by simp)
      have e : al = [] := by
        cases al with
        | nil => rfl
        | cons x l => simp at hlive
      rw [e] at this; exact this.elim
  subst hrest
  have hn : b.next = 0 ∨ ∃ n, h b.next = some n ∧ n.sp = n.lo ∧ n.next = 0 := by
    cases hg : g.cache with
    | none => left; rw [hnext, hg]; rfl
    | some c =>
      obtain ⟨_, _, n, h1, _, _, h2, h3, _⟩ := hcache c hg
      right; rw [hnext, hg]; exact ⟨n, h1, h3, h2⟩
  have hne : b.next ≠ fib := by
    cases hg : g.cache with
    | none => rw [hnext, hg]; exact fun e => gb.nz e.symm
    | some c => rw [hnext, hg]; exact (hcache c hg).1
  have hgfib : g.cache ≠ some fib := fun e => (hcache fib e).1 rfl
  have hH : ∀ q, freed (freed (upd h fib (some { b with next := 0 })) b.next) fib q =
      if q = fib ∨ g.cache = some q then none else h q := by
    intro q
    simp only [upd_apply, freed_apply]
    have : (b.next ≠ 0 ∧ q = b.next) ↔ g.cache = some q := by
      cases hg : g.cache with
      | none => simp [hnext, hg]
      | some c =>
        obtain ⟨n, _, gn, _⟩ := (hcache c hg).2.2
        have := gn.nz
        simp [hnext, hg, this]
        constructor <;> exact fun e => e.symm
    simp only [this]
    have := gb.nz
    grind
  refine ⟨freed (freed (upd h fib (some { b with next := 0 })) b.next) fib, ?_, ⟨?_, ?_, ?_, ?_⟩, ?_⟩
  · unfold destroy
    rw [bind_ok (assert_true (by simpa using gb.nz)), bind_ok (get_some hb), bind_ok (assert_true (by simpa [prevOf] using hprev)),
      bind_ok (setNext_ok hb hn hne)]
    refine free_some (b := { b with next := 0 }) ?_ gb.nz
    simp only [freed_apply, upd_apply]
    grind
  · intro a h1 _
    rw [hH]
    simp only [foot, hsegs] at h1
    simp at h1
    grind
  · simp
  · intro a h1 _
    rw [hH]
    simp only [foot, hsegs] at h1
    simp at h1
    grind
  · simp
  · refine hk.mono fun a x hx => ?_
    rw [hH] at hx
    split at hx
    · cases hx
    · exact ⟨x, hx, rfl⟩

theorem adopt_spec {h : Heap} {fib : Nat} {live : List (Nat × Nat)} {g : Ghost} (r : Rep h fib live g) :
    adopt fib h = .ok fib h := by
  obtain ⟨b, al, rest, hsegs, hb, gb, _⟩ := r.unfold
  unfold adopt
  rw [bind_ok (assert_true (by simpa using gb.nz)), bind_ok r.isTop, bind_ok (assert_true rfl)]
  rfl

theorem release_spec {m : Malloc} {h : Heap} {fib : Nat} {live : List (Nat × Nat)} {g : Ghost} (r : Rep h fib live g) :
    release m fib h = match new m h with
      | .ok n h' => .ok (fib, n) h'
      | .badAlloc h' => .badAlloc h'
      | .ub => .ub := by
  obtain ⟨b, al, rest, hsegs, hb, gb, _⟩ := r.unfold
  unfold release
  rw [bind_ok (assert_true (by simpa using gb.nz)), bind_apply]
  unfold new
  cases nextStacklet m initSize 0 h <;> rfl

theorem used_zero_iff (l : List (Nat × Nat)) : used l = 0 ↔ ∀ x ∈ l, x.2 = 0 := by
  induction l with
  | nil => simp [used]
  | cons x l ih =>
    simp only [used, Nat.add_eq_zero_iff, ih, List.mem_cons, forall_eq_or_imp]
    have : up x.2 = 0 ↔ x.2 = 0 := by unfold up; omega
    rw [this]

/-- `empty` tells whether no byte is allocated. -/
theorem empty_spec {h : Heap} {fib : Nat} {live : List (Nat × Nat)} {g : Ghost} (r : Rep h fib live g) :
    empty fib h = .ok (decide (∀ x ∈ live, x.2 = 0)) h := by
  obtain ⟨b, al, rest, hsegs, hb, gb, hprev, hnext, htile, hbot, hchain, hnot, hcache⟩ := r.unfold
  have hlive := r.live_eq
  rw [hsegs] at hlive
  unfold empty
  rw [bind_ok (assert_true (by simpa using gb.nz)), bind_ok r.isTop, bind_ok (assert_true rfl), bind_ok (get_some hb), pure_apply]
  congr 1
  rw [Bool.eq_iff_iff]
  have hsp := htile.sp_eq
  have hlo := gb.lo
  simp only [Blk.isEmpty, Bool.and_eq_true, decide_eq_true_eq]
  cases rest with
  | nil =>
    simp only [hprev, prevOf, and_true]
    have : live = al := by simpa using hlive
    rw [this, ← used_zero_iff]
    omega
  | cons s l =>
    have h1 := (hbot (by simp)).used
    obtain ⟨⟨c, _, gc, _⟩, _⟩ := hchain
    constructor
    · rintro ⟨_, k⟩
      rw [hprev] at k
      exact absurd k gc.nz
    · intro k
      have : ∀ x ∈ al, x.2 = 0 := fun x hx => k x (by rw [hlive]; simp [hx])
      rw [← used_zero_iff] at this
      omega

end Verif.Stack
