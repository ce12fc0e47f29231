import Verif.Stack.Model

/-!
The representation invariant of a stack, and what every operation does to it.
-/
namespace Verif.Stack

/-! ### Running programs -/

theorem bind_apply {α β : Type} (x : M α) (f : α → M β) (h : Heap) :
    (x >>= f) h = match x h with
      | .ok a h' => f a h'
      | .badAlloc h' => .badAlloc h'
      | .ub => .ub := rfl

theorem bind_ok {α β : Type} {x : M α} {f : α → M β} {h h' : Heap} {a : α} (e : x h = .ok a h') :
    (x >>= f) h = f a h' := by
  rw [bind_apply, e]

theorem pure_apply {α : Type} (a : α) (h : Heap) : (pure a : M α) h = .ok a h := rfl

theorem ite_apply' {α : Type} (c : Prop) [Decidable c] (x y : M α) (h : Heap) :
    (if c then x else y) h = if c then x h else y h := by split <;> rfl

theorem assert_true {c : Bool} {h : Heap} (hc : c = true) : assert c h = .ok () h := by simp [assert, hc]

theorem get_some {p : Nat} {b : Blk} {h : Heap} (hp : h p = some b) : get p h = .ok b h := by simp [get, hp]

/-- The heap with the block at `p` set. -/
def upd (h : Heap) (p : Nat) (b : Option Blk) : Heap := fun q => if q = p then b else h q

theorem upd_same (h : Heap) (p : Nat) (b : Option Blk) : upd h p b p = b := by simp [upd]
theorem upd_other (h : Heap) (p : Nat) (b : Option Blk) {q : Nat} (hq : q ≠ p) : upd h p b q = h q := by simp [upd, hq]

theorem put_some {p : Nat} {b b' : Blk} {h : Heap} (hp : h p = some b) : put p b' h = .ok () (upd h p (some b')) := by
  simp [put, hp]; rfl

/-- Free a block, or nothing. -/
def freed (h : Heap) (c : Nat) : Heap := if c = 0 then h else upd h c none

theorem upd_apply (h : Heap) (p : Nat) (b : Option Blk) (q : Nat) : upd h p b q = if q = p then b else h q := rfl

theorem freed_apply (h : Heap) (c q : Nat) : freed h c q = if c ≠ 0 ∧ q = c then none else h q := by
  unfold freed
  split
  · simp_all
  · simp [upd_apply, *]

theorem free_some {p : Nat} {b : Blk} {h : Heap} (hp : h p = some b) (h0 : p ≠ 0) : free p h = .ok () (freed h p) := by
  simp [free, hp, freed, h0]; rfl

theorem free_null {h : Heap} : free 0 h = .ok () (freed h 0) := by simp [free, freed]

/-! ### Size arithmetic -/

theorem W_eq : W = 18446744073709551616 := by unfold W; rfl

/-- A request rounded up to the alignment. -/
def up (n : Nat) : Nat := (n + 15) / 16 * 16

theorem up_ge (n : Nat) : n ≤ up n := by unfold up; omega
theorem up_dvd (n : Nat) : 16 ∣ up n := by unfold up; omega

/-- The largest request for which no computation wraps. -/
def maxSize : Nat := W - 4192

theorem roundTo_align {n : Nat} (h : n ≤ maxSize) : roundTo kAlign n = up n := by
  have hW := W_eq
  unfold maxSize at h
  unfold roundTo kAlign up
  have e : (n + (16 - 1)) % W = n + 15 := Nat.mod_eq_of_lt (by omega)
  rw [e]
  dsimp only
  omega

theorem up_le {n : Nat} (h : n ≤ maxSize) : up n ≤ maxSize := by
  have hW := W_eq
  unfold up maxSize at *
  omega

/-- What is asked of `malloc` for a stacklet of `size` bytes. -/
def request (size : Nat) : Nat := (size + 96 + 4095) / 4096 * 4096 - 48

theorem request_ge (size : Nat) : size + 48 ≤ request size := by unfold request; omega

theorem roundUp_aux (size req mn rd : Nat) (hp : Heap) (h1 : mn ≤ rd) (h2 : rd % pageSize = 0) (h3 : size ≤ req) :
    (do
      assert (decide (mn ≤ rd))
      assert (decide (rd % pageSize = 0))
      assert (decide (size ≤ req))
      pure req : M Nat) hp = .ok req hp := by
  rw [bind_ok (assert_true (by simpa using h1)), bind_ok (assert_true (by simpa using h2)),
    bind_ok (assert_true (by simpa using h3))]
  rfl

theorem roundUp_of {size mn rd req : Nat} (hp : Heap) (e1 : mn = (size + metaSize) % W) (e2 : rd = roundTo pageSize mn)
    (e3 : req = (rd + W - metaSize) % W) (h1 : mn ≤ rd) (h2 : rd % pageSize = 0) (h3 : size ≤ req) :
    roundUpToPageSize size hp = .ok req hp := by
  subst e3 e2 e1
  exact roundUp_aux size _ _ _ hp h1 h2 h3

theorem roundTo_page {x : Nat} (h : x + 4095 < W) : roundTo pageSize x = (x + 4095) / 4096 * 4096 := by
  unfold roundTo pageSize
  have e : (x + (4096 - 1)) % W = x + 4095 := Nat.mod_eq_of_lt (by omega)
  rw [e]
  dsimp only
  omega

theorem roundUp_ok {size : Nat} (h : size ≤ maxSize) (hp : Heap) :
    roundUpToPageSize ((size + hdr) % W) hp = .ok (request size) hp := by
  have hW := W_eq
  unfold maxSize at h
  have e1 : (size + hdr) % W = size + 48 := Nat.mod_eq_of_lt (by unfold hdr; omega)
  rw [e1]
  apply roundUp_of (mn := size + 96) (rd := (size + 96 + 4095) / 4096 * 4096)
  · exact (Nat.mod_eq_of_lt (by omega)).symm
  · rw [roundTo_page (by omega)]
  · have : (size + 96 + 4095) / 4096 * 4096 + W - metaSize = request size + W := by
      unfold request metaSize; omega
    rw [this, Nat.add_mod_right]
    exact (Nat.mod_eq_of_lt (by unfold request; omega)).symm
  · omega
  · unfold pageSize; omega
  · exact request_ge size

/-! ### The representation -/

/-- The allocations of one stacklet, most recent first, fill the bytes from `lo` to `sp` without gaps. -/
def Tiles (lo : Nat) : List (Nat × Nat) → Nat → Prop
  | [], sp => sp = lo
  | (p, n) :: l, sp => sp = p + up n ∧ Tiles lo l p

/-- The bytes taken by allocations. -/
def used : List (Nat × Nat) → Nat
  | [] => 0
  | (_, n) :: l => up n + used l

theorem Tiles.sp_eq {lo : Nat} {l : List (Nat × Nat)} {sp : Nat} (h : Tiles lo l sp) : sp = lo + used l := by
  induction l generalizing sp with
  | nil => exact h
  | cons x l ih => have := ih h.2; have := h.1; simp only [used]; omega

/-- The oldest allocation is not empty. -/
def BotPos : List (Nat × Nat) → Prop
  | [] => False
  | [x] => 0 < x.2
  | _ :: l => BotPos l

theorem up_pos {n : Nat} (h : 0 < n) : 0 < up n := by unfold up; omega

theorem BotPos.used {l : List (Nat × Nat)} (h : BotPos l) : 0 < used l := by
  induction l with
  | nil => exact h.elim
  | cons x l ih =>
    cases l with
    | nil => have := up_pos h; simp only [Stack.used]; omega
    | cons y l => have := ih h; simp only [Stack.used] at *; omega

/-- The largest address: 57 bits (five-level paging). -/
def maxAddr : Nat := 144115188075855872

/-- A well-formed stacklet. -/
structure Good (a : Nat) (b : Blk) : Prop where
  nz : a ≠ 0
  al : 16 ∣ a
  lo : b.lo = a + 48
  hi : b.hi = a + b.size
  sz : 48 < b.size
  sp : b.sp ≤ b.hi
  addr : a + b.size ≤ maxAddr

def SegOk (h : Heap) (a : Nat) (al : List (Nat × Nat)) (prev next : Nat) : Prop :=
  ∃ b, h a = some b ∧ Good a b ∧ b.prev = prev ∧ b.next = next ∧ Tiles (a + 48) al b.sp

/-- A stacklet of the chain: its address and its allocations. -/
abbrev Seg := Nat × List (Nat × Nat)

def prevOf : List Seg → Nat
  | [] => 0
  | t :: _ => t.1

/-- The chain of stacklets from the top one, whose `m_next` is `nx`, to the root; only the root may be empty. -/
def Chain (h : Heap) : Nat → List Seg → Prop
  | _, [] => True
  | nx, s :: r => SegOk h s.1 s.2 (prevOf r) nx ∧ (r ≠ [] → BotPos s.2) ∧ Chain h s.1 r

structure Ghost where
  segs : List Seg
  cache : Option Nat

def foot (g : Ghost) : List Nat := g.segs.map (·.1) ++ g.cache.toList

/-- The capacity of the stacklet at `a`. -/
def capOf (h : Heap) (a : Nat) : Nat := match h a with | some b => b.hi - b.lo | none => 0

/-- The bytes of the oldest allocation. -/
def bot : List (Nat × Nat) → Nat
  | [] => 0
  | [x] => up x.2
  | _ :: l => bot l

/-- Why the stacklets of a chain are there (`cap` gives their capacities): the root has the size of the first one, every other
one is at least twice as large as the one below it, was entered by an allocation that did not fit there, and is at most eight
times as large as the one below, or fits that allocation to a page. -/
def Snug (cap : Nat → Nat) : List Seg → Prop
  | [] => True
  | s :: r => (match r with
    | [] => cap s.1 = 4000
    | t :: _ => 2 * cap t.1 ≤ cap s.1 ∧ cap t.1 < used t.2 + bot s.2 ∧ cap s.1 ≤ max (8 * cap t.1) (bot s.2 + 4095)) ∧ Snug cap r

theorem Snug.congr {cap cap' : Nat → Nat} {l : List Seg} (h : Snug cap l) (e : ∀ a ∈ l.map (·.1), cap' a = cap a) : Snug cap' l := by
  induction l with
  | nil => trivial
  | cons s r ih =>
    refine ⟨?_, ih h.2 fun a ha => e a (by simp only [List.map_cons, List.mem_cons]; exact Or.inr ha)⟩
    have h1 := h.1
    have e1 := e s.1 (by simp)
    cases r with
    | nil => show cap' s.1 = 4000; rw [e1]; exact h1
    | cons t r =>
      have e2 := e t.1 (by simp)
      show 2 * cap' t.1 ≤ cap' s.1 ∧ cap' t.1 < used t.2 + bot s.2 ∧ cap' s.1 ≤ max (8 * cap' t.1) (bot s.2 + 4095)
      rw [e1, e2]; exact h1

/-- The newest allocation of the top stacklet does not matter, unless it is the one that opened it. -/
theorem Snug.top {cap : Nat → Nat} {f : Nat} {al al' : List (Nat × Nat)} {r : List Seg} (h : Snug cap ((f, al) :: r))
    (e : r ≠ [] → bot al' = bot al) : Snug cap ((f, al') :: r) := by
  refine ⟨?_, h.2⟩
  have h1 := h.1
  cases r with
  | nil => exact h1
  | cons t r =>
    have := e (by simp)
    show 2 * cap t.1 ≤ cap f ∧ cap t.1 < used t.2 + bot al' ∧ cap f ≤ max (8 * cap t.1) (bot al' + 4095)
    rw [this]; exact h1

theorem Snug.large {cap : Nat → Nat} {s : Seg} {r : List Seg} (h : Snug cap (s :: r)) : 4000 ≤ cap s.1 := by
  induction r generalizing s with
  | nil => exact Nat.le_of_eq h.1.symm
  | cons t r ih =>
    have := ih h.2
    have := h.1.1
    omega

theorem bot_cons {x : Nat × Nat} {l : List (Nat × Nat)} (h : l ≠ []) : bot (x :: l) = bot l := by
  cases l with
  | nil => exact absurd rfl h
  | cons y l => rfl

structure Rep (h : Heap) (fib : Nat) (live : List (Nat × Nat)) (g : Ghost) : Prop where
  top : ∃ al r, g.segs = (fib, al) :: r
  chain : Chain h (g.cache.getD 0) g.segs
  cached : ∀ c, g.cache = some c → SegOk h c [] fib 0 ∧ capOf h c ≤ 8 * capOf h fib
  nodup : (foot g).Nodup
  live_eq : live = g.segs.flatMap (·.2)
  snug : Snug (capOf h) g.segs
  spare : ∀ c, g.cache = some c → 2 * capOf h fib ≤ capOf h c

/-- All blocks are disjoint. -/
structure HeapOk (h : Heap) : Prop where
  pos : ∀ a x, h a = some x → 0 < x.size
  dis : ∀ a b x y, h a = some x → h b = some y → a ≠ b → a + x.size ≤ b ∨ b + y.size ≤ a

theorem HeapOk.mono {h h' : Heap} (hk : HeapOk h)
    (e : ∀ a x, h' a = some x → ∃ y, h a = some y ∧ y.size = x.size) : HeapOk h' := by
  refine ⟨fun a x hx => ?_, fun a b x y hx hy hab => ?_⟩
  · obtain ⟨y, h1, h2⟩ := e a x hx
    have := hk.pos a y h1; omega
  · obtain ⟨x', h1, h2⟩ := e a x hx
    obtain ⟨y', h3, h4⟩ := e b y hy
    have := hk.dis a b x' y' h1 h3 hab; omega

theorem HeapOk.insert {h h' : Heap} (hk : HeapOk h) {n r : Nat} (hr : 0 < r)
    (hn : ∀ b x, h b = some x → n + r ≤ b ∨ b + x.size ≤ n)
    (e : ∀ a x, h' a = some x → (a = n ∧ x.size = r) ∨ ∃ y, h a = some y ∧ y.size = x.size) : HeapOk h' := by
  refine ⟨fun a x hx => ?_, fun a b x y hx hy hab => ?_⟩
  · rcases e a x hx with ⟨_, h2⟩ | ⟨y, h1, h2⟩
    · omega
    · have := hk.pos a y h1; omega
  · rcases e a x hx with ⟨ha, h2⟩ | ⟨x', h1, h2⟩ <;> rcases e b y hy with ⟨hb, h4⟩ | ⟨y', h3, h4⟩
    · omega
    · have := hn b y' h3; omega
    · have := hn a x' h1; omega
    · have := hk.dis a b x' y' h1 h3 hab; omega

/-- `h'` differs from `h` only on the footprint, which goes from `F` to `F'`: new blocks were free, lost blocks are free,
the others are still the same blocks. -/
structure Local (h : Heap) (F : List Nat) (h' : Heap) (F' : List Nat) : Prop where
  out : ∀ a, a ∉ F → a ∉ F' → h' a = h a
  new : ∀ a ∈ F', a ∈ F ∨ h a = none
  gone : ∀ a ∈ F, a ∉ F' → h' a = none
  keep : ∀ a ∈ F, a ∈ F' → (h' a).map (·.size) = (h a).map (·.size)

/-- What the C library guarantees of `malloc`: a non-null block, aligned for any type, inside the address space, and
disjoint from every live one. -/
def GoodMalloc (m : Malloc) : Prop :=
  ∀ h r a, m h r = some a → a ≠ 0 ∧ 16 ∣ a ∧ a + r ≤ maxAddr ∧
    ∀ b x, h b = some x → a + r ≤ b ∨ b + x.size ≤ a

theorem SegOk.frame {h h' : Heap} {a : Nat} {al : List (Nat × Nat)} {p n : Nat} (s : SegOk h a al p n) (e : h' a = h a) :
    SegOk h' a al p n := by
  obtain ⟨b, h1, h2⟩ := s
  exact ⟨b, e ▸ h1, h2⟩

theorem Chain.frame {h h' : Heap} {nx : Nat} {l : List Seg} (c : Chain h nx l) (e : ∀ a ∈ l.map (·.1), h' a = h a) :
    Chain h' nx l := by
  induction l generalizing nx with
  | nil => trivial
  | cons s r ih =>
    exact ⟨c.1.frame (e _ (by simp)), c.2.1, ih c.2.2 fun a ha => e a (by simp at ha ⊢; exact Or.inr ha)⟩

theorem Rep.frame {h h' : Heap} {fib : Nat} {live : List (Nat × Nat)} {g : Ghost} (r : Rep h fib live g)
    (e : ∀ a ∈ foot g, h' a = h a) : Rep h' fib live g := by
  obtain ⟨al, rest, hs⟩ := r.top
  have ec : ∀ a ∈ foot g, capOf h' a = capOf h a := fun a ha => by unfold capOf; rw [e a ha]
  refine ⟨r.top, r.chain.frame fun a ha => e a (by simp [foot] at ha ⊢; exact Or.inl ha), fun c hc => ?_, r.nodup, r.live_eq,
    r.snug.congr fun a ha => ec a (by simp [foot] at ha ⊢; exact Or.inl ha), fun c hc => ?_⟩
  · have ⟨h1, h2⟩ := r.cached c hc
    refine ⟨h1.frame (e c (by simp [foot, hc])), ?_⟩
    rw [ec c (by simp [foot, hc]), ec fib (by simp [foot, hs])]
    exact h2
  · rw [ec c (by simp [foot, hc]), ec fib (by simp [foot, hs])]
    exact r.spare c hc

theorem isTop_ok {h : Heap} {p : Nat} {b : Blk} (hp : h p = some b)
    (hn : b.next = 0 ∨ ∃ n, h b.next = some n ∧ n.sp = n.lo ∧ n.next = 0) : isTop p h = .ok true h := by
  rcases hn with hn | ⟨n, h1, h2, h3⟩
  · simp [isTop, bind_apply, get_some hp, hn, pure_apply]
  · by_cases h0 : b.next = 0
    · simp [isTop, bind_apply, get_some hp, h0, pure_apply]
    · simp [isTop, bind_apply, get_some hp, h0, pure_apply, get_some h1, Blk.isEmpty, h2, h3]

/-- What a representation says about the top stacklet and its spare. -/
theorem Rep.unfold {h : Heap} {fib : Nat} {live : List (Nat × Nat)} {g : Ghost} (r : Rep h fib live g) :
    ∃ b al rest, g.segs = (fib, al) :: rest ∧ h fib = some b ∧ Good fib b ∧ b.prev = prevOf rest ∧
      b.next = g.cache.getD 0 ∧ Tiles (fib + 48) al b.sp ∧ (rest ≠ [] → BotPos al) ∧ Chain h fib rest ∧
      fib ∉ rest.map (·.1) ∧
      (∀ c, g.cache = some c → c ≠ fib ∧ c ∉ rest.map (·.1) ∧ ∃ n, h c = some n ∧ Good c n ∧ n.prev = fib ∧ n.next = 0 ∧
        n.sp = n.lo ∧ n.hi - n.lo ≤ 8 * (b.hi - b.lo)) := by
  obtain ⟨al, rest, hs⟩ := r.top
  have hc := r.chain
  rw [hs] at hc
  obtain ⟨⟨b, h1, h2, h3, h4, h5⟩, h6, h7⟩ := hc
  have nd := r.nodup
  simp only [foot, hs, List.map_cons, List.cons_append, List.nodup_cons, List.mem_append, not_or] at nd
  refine ⟨b, al, rest, hs, h1, h2, h3, h4, h5, h6, h7, nd.1.1, fun c hg => ?_⟩
  obtain ⟨⟨n, k1, k2, k3, k4, k5⟩, k6⟩ := r.cached c hg
  simp only [hg, Option.toList_some, List.mem_singleton, List.nodup_append] at nd
  refine ⟨fun e => nd.1.2 e.symm, fun hm => nd.2.2.2 c hm c (by simp) rfl, n, k1, k2, k3, k4, ?_, ?_⟩
  · rw [k2.lo]; exact k5
  · simpa [capOf, k1, h1] using k6

theorem Rep.isTop {h : Heap} {fib : Nat} {live : List (Nat × Nat)} {g : Ghost} (r : Rep h fib live g) :
    isTop fib h = .ok true h := by
  obtain ⟨b, al, rest, _, hb, _, _, hn, _, _, _, _, hc⟩ := r.unfold
  apply isTop_ok hb
  cases hg : g.cache with
  | none => left; simpa [hg] using hn
  | some c =>
    obtain ⟨_, _, n, h1, _, _, h2, h3, _⟩ := hc c hg
    right
    rw [hn, hg]
    exact ⟨n, h1, h3, h2⟩

theorem setNext_ok {h : Heap} {p nn : Nat} {b : Blk} (hp : h p = some b)
    (hn : b.next = 0 ∨ ∃ n, h b.next = some n ∧ n.sp = n.lo ∧ n.next = 0) (hne : b.next ≠ p) :
    setNext p nn h = .ok () (freed (upd h p (some { b with next := nn })) b.next) := by
  unfold setNext
  rw [bind_ok (isTop_ok hp hn), bind_ok (assert_true rfl), bind_ok (get_some hp), bind_ok (put_some hp)]
  by_cases h0 : b.next = 0
  · rw [h0]; exact free_null
  · rcases hn with hn | ⟨n, h1, _⟩
    · exact absurd hn h0
    · exact free_some (b := n) (by rw [upd_other _ _ _ hne]; exact h1) h0

/-- The header of a new stacklet. -/
def newBlk (a size prev : Nat) : Blk := ⟨request size, a + 48, a + 48, a + request size, prev, 0⟩

theorem request_pos (size : Nat) : 48 < request size := by unfold request; omega

theorem malloc_fresh {m : Malloc} (hm : GoodMalloc m) {h : Heap} (hk : HeapOk h) {r a : Nat} (hr : 0 < r)
    (e : m h r = some a) : h a = none := by
  cases hx : h a with
  | none => rfl
  | some x => have := (hm h r a e).2.2.2 a x hx; have := hk.pos a x hx; omega

theorem newBlk_good {m : Malloc} (hm : GoodMalloc m) {h : Heap} {size a prev : Nat} (e : m h (request size) = some a) :
    Good a (newBlk a size prev) := by
  obtain ⟨h1, h2, h3, _⟩ := hm _ _ _ e
  have := request_pos size
  refine ⟨h1, h2, rfl, rfl, this, ?_, h3⟩
  simp only [newBlk]; omega

theorem hdr_le {size : Nat} (hs : size ≤ maxSize) : (hdr + size) % W ≤ request size := by
  have hW := W_eq
  unfold maxSize at hs
  have : (hdr + size) % W = size + 48 := by
    have : hdr + size = size + 48 := by unfold hdr; omega
    rw [this]; exact Nat.mod_eq_of_lt (by omega)
  rw [this]; exact request_ge size

theorem nextStacklet_null {m : Malloc} {h : Heap} {size : Nat} (hs : size ≤ maxSize) :
    nextStacklet m size 0 h = match m h (request size) with
      | some a => .ok a (upd h a (some (newBlk a size 0)))
      | none => .badAlloc h := by
  unfold nextStacklet
  simp only [ne_eq, not_true_eq_false, if_false]
  rw [bind_ok (pure_apply _ _), bind_ok (roundUp_ok hs h), bind_ok (assert_true (by simpa using hdr_le hs)), bind_apply]
  unfold malloc
  cases e : m h (request size) with
  | none => rfl
  | some a =>
    dsimp only
    rw [bind_ok (pure_apply _ _), bind_ok (put_some (b := ⟨request size, 0, 0, 0, 0, 0⟩) (by simp))]
    rw [pure_apply]
    congr 1
    funext q
    simp only [upd, newBlk, hdr]
    split <;> rfl

theorem nextStacklet_prev {m : Malloc} (hm : GoodMalloc m) {h : Heap} (hk : HeapOk h) {size prev : Nat}
    (hs : size ≤ maxSize) {b : Blk} (h0 : prev ≠ 0) (hp : h prev = some b)
    (hn : b.next = 0 ∨ ∃ n, h b.next = some n ∧ n.sp = n.lo ∧ n.next = 0) (hne : b.next ≠ prev) :
    nextStacklet m size prev h = match m h (request size) with
      | some a => .ok a (upd (freed (upd h prev (some { b with next := a })) b.next) a (some (newBlk a size prev)))
      | none => .badAlloc h := by
  unfold nextStacklet
  simp only [ne_eq, h0, not_false_eq_true, if_true]
  have e1 : (isTop prev >>= fun t => assert t) h = .ok () h := by
    rw [bind_ok (isTop_ok hp hn)]; exact assert_true rfl
  rw [bind_ok e1, bind_ok (roundUp_ok hs h), bind_ok (assert_true (by simpa using hdr_le hs)), bind_apply]
  unfold malloc
  cases e : m h (request size) with
  | none => rfl
  | some a =>
    dsimp only
    have ha : h a = none := malloc_fresh hm hk (by have := request_pos size; omega) e
    have hap : prev ≠ a := fun e => by simp_all
    have hba : b.next ≠ a ∨ b.next = 0 := by
      rcases hn with hn | ⟨n, h1, _⟩
      · exact Or.inr hn
      · exact Or.inl fun e => by simp_all
    have hnz := (hm h _ a e).1
    rw [bind_ok (setNext_ok (b := b) (by simp [hap, hp]) ?_ hne)]
    · rw [bind_ok (put_some (b := ⟨request size, 0, 0, 0, 0, 0⟩) ?_), pure_apply]
      · congr 1
        funext q
        simp only [upd_apply, newBlk, hdr, freed_apply]
        grind
      · simp only [freed_apply, upd_apply]
        grind
    · rcases hn with hn | ⟨n, h1, h2⟩
      · exact Or.inl hn
      · refine Or.inr ⟨n, ?_, h2⟩
        rcases hba with h | h
        · simp [h, h1]
        · simp only [h, hnz.symm, if_false]; rw [← h]; exact h1

theorem capacity_ok {b : Blk} {a : Nat} (g : Good a b) (h : Heap) : capacity b h = .ok (b.hi - b.lo) h := by
  unfold capacity
  rw [bind_ok (assert_true (by have := g.lo; have := g.hi; have := g.sz; simp; omega))]
  rfl

theorem unused_ok {b : Blk} {a : Nat} (g : Good a b) (h : Heap) : unused b h = .ok (b.hi - b.sp) h := by
  unfold unused
  rw [bind_ok (assert_true (by have := g.sp; simp; omega))]
  rfl

end Verif.Stack
