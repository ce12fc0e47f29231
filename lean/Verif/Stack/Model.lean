/-
Model of include/libfork/core/impl/stack.hpp (`lf::impl::stack`, the segmented stack on which coroutine frames and
`lf::co_new` arrays live) and of the size computation of include/libfork/core/impl/awaitables.hpp:187-225.

The heap is a partial map from addresses to the blocks got from `malloc`, every block holding a stacklet header at its start.
Addresses and sizes are natural numbers; `size_t` arithmetic that can wrap does wrap (modulo 2^64). Reading or writing
through a dead pointer, freeing a dead block and a false LF_ASSERT (which is `LF_ASSUME` in release builds, macro.hpp:189-193)
are all the outcome `ub`; an exception is the outcome `badAlloc`. `malloc` is an arbitrary function of the heap and the request.
Platform constants: 64-bit, `k_new_align` = 16, so `sizeof(stacklet)` = 48 (five pointers, aligned to 16).
-/
namespace Verif.Stack

/-- 2^64. No code: the range of `std::size_t` in stack.hpp. -/
@[irreducible] def W : Nat := 18446744073709551616
/-- `k_new_align`, `__STDCPP_DEFAULT_NEW_ALIGNMENT__`. utility.hpp:92, used in stack.hpp:90. -/
def kAlign : Nat := 16
/-- stack.hpp:52. -/
def pageSize : Nat := 4096
/-- stack.hpp:53: `6 * sizeof(void *)`. -/
def metaSize : Nat := 48
/-- `sizeof(stacklet)`. stack.hpp:90,178-200. -/
def hdr : Nat := 48

/-- stack.hpp:176-195: a live block of `size` bytes with the fields of the stacklet in its first bytes. -/
structure Blk where
  size : Nat
  lo : Nat
  sp : Nat
  hi : Nat
  prev : Nat
  next : Nat
  deriving DecidableEq

/-- No code: the stacklets in existence (stack.hpp:90-200), by address. -/
abbrev Heap := Nat → Option Blk

/-- `malloc`: the address for a request in a heap, `none` for the null pointer. Used in stack.hpp:148. -/
abbrev Malloc := Heap → Nat → Option Nat

/-- No code: the outcome; `ub` is undefined behaviour or a failed LF_ASSERT. -/
inductive Res (α : Type) where
  | ok (a : α) (h : Heap)
  | badAlloc (h : Heap)
  | ub

/-- Programs over the heap. No code. -/
def M (α : Type) := Heap → Res α

/-- No code: the monad. -/
def M.pure {α : Type} (a : α) : M α := fun h => .ok a h

/-- No code: the monad. -/
def M.bind {α β : Type} (x : M α) (f : α → M β) : M β := fun h =>
  match x h with
  | .ok a h' => f a h'
  | .badAlloc h' => .badAlloc h'
  | .ub => .ub

instance : Monad M where
  pure := M.pure
  bind := M.bind

/-- Read the stacklet at `p`. No code: a read through a pointer in stack.hpp. -/
def get (p : Nat) : M Blk := fun h => match h p with | some b => .ok b h | none => .ub

/-- Write the stacklet at `p`. No code: a write through a pointer in stack.hpp. -/
def put (p : Nat) (b : Blk) : M Unit := fun h =>
  match h p with
  | some _ => .ok () (fun q => if q = p then some b else h q)
  | none => .ub

/-- `LF_ASSERT`. core/macro.hpp. -/
def assert (c : Bool) : M Unit := fun h => if c then .ok () h else .ub

/-- `std::free`. Used in stack.hpp:130,252. -/
def free (p : Nat) : M Unit := fun h =>
  if p = 0 then .ok () h
  else match h p with
    | some _ => .ok () (fun q => if q = p then none else h q)
    | none => .ub

/-- `std::malloc` and the throw of `std::bad_alloc` (stack.hpp:148-152); the fields of the new header are not initialised,
here all zero. -/
def malloc (m : Malloc) (req : Nat) : M Nat := fun h =>
  match m h req with
  | some a => .ok a (fun q => if q = a then some ⟨req, 0, 0, 0, 0, 0⟩ else h q)
  | none => .badAlloc h

/-- `(x + k - 1) & ~(k - 1)` in `size_t`, for `k` a power of two. stack.hpp:45-66. -/
def roundTo (k x : Nat) : Nat :=
  let y := (x + (k - 1)) % W
  y - y % k

/-- stack.hpp:45-67 `round_up_to_page_size`. -/
def roundUpToPageSize (size : Nat) : M Nat := do
  let minimum := (size + metaSize) % W
  let rounded := roundTo pageSize minimum
  let request := (rounded + W - metaSize) % W
  assert (decide (minimum ≤ rounded))
  assert (decide (rounded % pageSize = 0))
  assert (decide (size ≤ request))
  pure request

/-- stack.hpp:97-100 `capacity`. -/
def capacity (b : Blk) : M Nat := do
  assert (decide (b.lo ≤ b.hi))
  pure (b.hi - b.lo)

/-- stack.hpp:104-107 `unused`. -/
def unused (b : Blk) : M Nat := do
  assert (decide (b.sp ≤ b.hi))
  pure (b.hi - b.sp)

/-- stack.hpp:111 `stacklet::empty`. -/
def Blk.isEmpty (b : Blk) : Bool := decide (b.sp = b.lo)

/-- stack.hpp:115-121 `is_top`. -/
def isTop (p : Nat) : M Bool := do
  let b ← get p
  if b.next ≠ 0 then do
    let n ← get b.next
    pure (n.isEmpty && decide (n.next = 0))
  else
    pure true

/-- stack.hpp:128-131 `set_next`. -/
def setNext (p newNext : Nat) : M Unit := do
  let t ← isTop p
  assert t
  let b ← get p
  put p { b with next := newNext }
  free b.next

/-- stack.hpp:138-167 `next_stacklet(size, prev)`. -/
def nextStacklet (m : Malloc) (size prev : Nat) : M Nat := do
  (if prev ≠ 0 then do
    let t ← isTop prev
    assert t
  else pure ())
  let request ← roundUpToPageSize ((size + hdr) % W)
  assert (decide ((hdr + size) % W ≤ request))
  let next ← malloc m request
  (if prev ≠ 0 then setNext prev next else pure ())
  put next ⟨request, next + hdr, next + hdr, next + request, prev, 0⟩
  pure next

/-- stack.hpp:35: `LF_FIBRE_INIT_SIZE`. -/
def initSize : Nat := 1

/-- stack.hpp:172-174, 208 `stack()`. -/
def new (m : Malloc) : M Nat := nextStacklet m initSize 0

/-- stack.hpp:213-216 `stack(stacklet *)`. -/
def adopt (frag : Nat) : M Nat := do
  assert (decide (frag ≠ 0))
  let t ← isTop frag
  assert t
  pure frag

/-- stack.hpp:248-253 `~stack`. -/
def destroy (fib : Nat) : M Unit := do
  assert (decide (fib ≠ 0))
  let b ← get fib
  assert (decide (b.prev = 0))
  setNext fib 0
  free fib

/-- stack.hpp:258-261 `empty`. -/
def empty (fib : Nat) : M Bool := do
  assert (decide (fib ≠ 0))
  let t ← isTop fib
  assert t
  let b ← get fib
  pure (b.isEmpty && decide (b.prev = 0))

/-- stack.hpp:268-272 `release`: the old top stacklet and the new one. -/
def release (m : Malloc) (fib : Nat) : M (Nat × Nat) := do
  assert (decide (fib ≠ 0))
  let n ← nextStacklet m initSize 0
  pure (fib, n)

/-- stack.hpp:289-292: is there a spare stacklet that is large enough? -/
def cachedFits (b : Blk) (extSize : Nat) : M Bool :=
  if b.next ≠ 0 then do
    let n ← get b.next
    let c ← capacity n
    pure (decide (c ≥ extSize))
  else pure false

/-- stack.hpp:288-294: the stacklet to allocate on. -/
def pickTop (m : Malloc) (fib : Nat) (b : Blk) (u extSize : Nat) : M Nat :=
  if u < extSize then do
    let useCached ← cachedFits b extSize
    if useCached then
      pure b.next
    else do
      let c ← capacity b
      nextStacklet m (max ((2 * c) % W) extSize) fib
  else
    pure fib

/-- stack.hpp:281-301 `allocate`: the new top stacklet and the pointer returned. -/
def allocate (m : Malloc) (fib size : Nat) : M (Nat × Nat) := do
  assert (decide (fib ≠ 0))
  let t ← isTop fib
  assert t
  let b ← get fib
  let u ← unused b
  let fib' ← pickTop m fib b u (roundTo kAlign size)
  let t' ← isTop fib'
  assert t'
  let b' ← get fib'
  put fib' { b' with sp := b'.sp + roundTo kAlign size }
  pure (fib', b'.sp)

/-- stack.hpp:318-323: leave an emptied stacklet that is not the root. -/
def leave (fib : Nat) (b : Blk) : M Nat :=
  if b.prev ≠ 0 then do
    setNext fib 0
    pure b.prev
  else pure fib

/-- stack.hpp:327-332: guard against over-caching. -/
def trim (fib : Nat) : M Unit := do
  let c ← get fib
  if c.next ≠ 0 then do
    let n ← get c.next
    let cn ← capacity n
    let cc ← capacity c
    if cn > (8 * cc) % W then setNext fib 0 else pure ()
  else pure ()

/-- stack.hpp:316-333: what follows an update of the stack pointer. -/
def shrink (fib : Nat) : M Nat := do
  let b ← get fib
  if b.isEmpty then do
    let fib' ← leave fib b
    assert (decide (fib' ≠ 0))
    trim fib'
    pure fib'
  else pure fib

/-- stack.hpp:308-337 `deallocate`: the new top stacklet. -/
def deallocate (fib ptr : Nat) : M Nat := do
  assert (decide (fib ≠ 0))
  let t ← isTop fib
  assert t
  let b ← get fib
  put fib { b with sp := ptr }
  let fib' ← shrink fib
  let t' ← isTop fib'
  assert t'
  pure fib'

/-! ### Clients

A world of stack objects and released stacklets (`stack::release` gives a bare stacklet, from which a stack is made again
later) over one heap. A client frees in last-in first-out order, and destroys a stack only when nothing is allocated on it.
`live` records the allocations of each stack, most recent first: the pointer and the number of bytes asked for. -/

/-- stack.hpp:76: a stack object and who has it. -/
structure Obj where
  fib : Nat
  /-- False for a released stacklet that no stack object owns. -/
  owned : Bool
  live : List (Nat × Nat)

/-- No code: all the stacks of a program. -/
structure World where
  heap : Heap
  obj : Nat → Option Obj

/-- No code. -/
def World.init : World := ⟨fun _ => none, fun _ => none⟩

/-- No code: function update. -/
def setObj (w : World) (i : Nat) (o : Option Obj) (h : Heap) : World :=
  ⟨h, fun j => if j = i then o else w.obj j⟩

/-- What a client may do. stack.hpp:208-345: the public operations. -/
inductive Op where
  | new (i : Nat)
  | destroy (i : Nat)
  | alloc (i size : Nat)
  | dealloc (i : Nat)
  /-- Release stack `i`; the released stacklet is called `j`. -/
  | release (i j : Nat)
  /-- Construct stack object `i` from the released stacklet `i`. -/
  | adopt (i : Nat)
  /-- stack.hpp:227-243: `swap`, move construction and move assignment all exchange the `m_fib` of two stacks. -/
  | swap (i j : Nat)

/-- The result of an operation on a world. `misuse` is the client breaking its discipline. No code. -/
inductive Outcome where
  | ok (w : World)
  | badAlloc (w : World)
  | ub
  | misuse

/-- No code. -/
def finish {α : Type} (r : Res α) (w : World) (k : α → Heap → World) : Outcome :=
  match r with
  | .ok a h => .ok (k a h)
  | .badAlloc h => .badAlloc { w with heap := h }
  | .ub => .ub

/-- stack.hpp:208-345: one operation. -/
def exec (m : Malloc) (op : Op) (w : World) : Outcome :=
  match op with
  | .new i =>
    match w.obj i with
    | some _ => .misuse
    | none => finish (new m w.heap) w fun f h => setObj w i (some ⟨f, true, []⟩) h
  | .destroy i =>
    match w.obj i with
    | some ⟨f, true, []⟩ => finish (destroy f w.heap) w fun _ h => setObj w i none h
    | _ => .misuse
  | .alloc i size =>
    match w.obj i with
    | some ⟨f, true, live⟩ =>
      finish (allocate m f size w.heap) w fun r h => setObj w i (some ⟨r.1, true, (r.2, size) :: live⟩) h
    | _ => .misuse
  | .dealloc i =>
    match w.obj i with
    | some ⟨f, true, (p, _) :: live⟩ =>
      finish (deallocate f p w.heap) w fun f' h => setObj w i (some ⟨f', true, live⟩) h
    | _ => .misuse
  | .release i j =>
    match w.obj i, w.obj j with
    | some ⟨f, true, live⟩, none =>
      finish (release m f w.heap) w fun r h =>
        setObj (setObj w j (some ⟨r.1, false, live⟩) h) i (some ⟨r.2, true, []⟩) h
    | _, _ => .misuse
  | .adopt i =>
    match w.obj i with
    | some ⟨f, false, live⟩ => finish (adopt f w.heap) w fun f' h => setObj w i (some ⟨f', true, live⟩) h
    | _ => .misuse
  | .swap i j =>
    match w.obj i, w.obj j with
    | some ⟨f, true, l⟩, some ⟨f', true, l'⟩ =>
      .ok (setObj (setObj w i (some ⟨f', true, l'⟩) w.heap) j (some ⟨f, true, l⟩) w.heap)
    | _, _ => .misuse

end Verif.Stack
