import Verif.Deque.Spec

/-
Model of include/libfork/core/ext/deque.hpp: one owner, any number of thieves (a type `ι`), every interleaving of the
individual atomic accesses.

Simplifications: sequentially consistent memory (the fences and memory orders of the source are not modelled);
`ptrdiff_t` indices are unbounded integers (overflow needs 2^63 pushes); the copy loop of `resize` is one step (it reads
a buffer that only the owner writes, and writes a buffer nobody else has seen); the emplace into the garbage vector is
part of that step. `LF_ASSERT`s set `bad`.
-/
namespace Verif.Deque

/-- deque.hpp:77-144 `atomic_ring_buf`. -/
structure Buf (V : Type) where
  cap : Nat
  slot : Nat → V

/-- `std::has_single_bit` (deque.hpp:85). -/
def hasSingleBit (c : Nat) : Bool := c != 0 && (c &&& (c - 1)) == 0

/-- deque.hpp:101-104 `load(index)`: slot `index & m_mask`. -/
def Buf.get {V : Type} (b : Buf V) (i : Int) : V := b.slot (i.toNat &&& (b.cap - 1))

/-- deque.hpp:94-97 `store(index, val)`. -/
def Buf.set {V : Type} (b : Buf V) (i : Int) (v : V) : Buf V :=
  { b with slot := fun j => if j = (i.toNat &&& (b.cap - 1)) then v else b.slot j }

/-- deque.hpp:118-120: the loop of `resize`, `k` iterations left. -/
def copyLoop {V : Type} (old : Buf V) : Buf V → Int → Nat → Buf V
  | new, _, 0 => new
  | new, i, k + 1 => copyLoop old (new.set i (old.get i)) (i + 1) k

/-- deque.hpp:114-123 `resize(bot, top)`; `fresh` is the uninitialised content of the new buffer. -/
def Buf.resize {V : Type} (b : Buf V) (fresh : Nat → V) (bot top : Int) : Buf V :=
  copyLoop b { cap := 2 * b.cap, slot := fresh } top (bot - top).toNat

/-- Where the owner is. The comment gives the access about to be performed. deque.hpp:382-437. -/
inductive OPc (V : Type) where
  | idle
  | ret (r : ORet V)                       -- about to return
  | push0 (v : V)                          -- :383 bottom = m_bottom.load
  | push1 (v : V) (b : Int)                -- :384 top = m_top.load
  | push2 (v : V) (b t : Int)              -- :385 buf = m_buf.load, and the test of :387
  | push3 (v : V) (b t : Int) (buf : Nat)  -- :389-394 resize and emplace_back
  | push4 (v : V) (b : Int) (nb : Nat)     -- :395 m_buf.store
  | push5 (v : V) (b : Int) (buf : Nat)    -- :400 buf->store(bottom, val)
  | push6 (v : V) (b : Int)                -- :403 m_bottom.store(bottom + 1)
  | pop0                                   -- :412 bottom = m_bottom.load - 1
  | pop1 (b : Int)                         -- :413 buf = m_buf.load
  | pop2 (b : Int) (buf : Nat)             -- :414 m_bottom.store(bottom)
  | pop3 (b : Int) (buf : Nat)             -- :418 top = m_top.load
  | pop4 (b : Int) (buf : Nat)             -- :424 CAS (top = bottom)
  | pop5 (b : Int)                         -- :426 / :435 m_bottom.store(bottom + 1), then empty
  | pop6 (b : Int) (buf : Nat)             -- :429 m_bottom.store(bottom + 1)
  | pop7 (b : Int) (buf : Nat)             -- :433 buf->load(bottom)
  | size0                                  -- :364 bottom = m_bottom.load
  | size1 (b : Int)                        -- :365 top = m_top.load

/-- Where a thief is. deque.hpp:440-462. -/
inductive TPc (V : Type) where
  | idle
  | ret (r : SRet V)
  | st0                                    -- :441 top = m_top.load
  | st1 (t : Int)                          -- :443 bottom = m_bottom.load, and the test of :445
  | st2 (t : Int)                          -- :451 m_buf.load
  | st3 (t : Int) (buf : Nat)              -- :451 ->load(top)
  | st4 (t : Int) (v : V)                  -- :455 CAS

/-- deque.hpp:336-340, the members, and where each thread is. -/
structure St (ι V : Type) where
  top : Int
  bottom : Int
  cur : Nat                                -- m_buf: number of the current buffer
  bufs : Nat → Buf V                       -- all buffers ever allocated; retired ones stay alive in m_garbage
  garbage : Nat                            -- m_garbage.size()
  opc : OPc V
  tpc : ι → TPc V
  bad : Bool                               -- some LF_ASSERT has failed

variable {ι V : Type} [DecidableEq ι]

/-- deque.hpp:350-355 constructor; `cap` must be a power of 2 (documented, and asserted in line 85). -/
def St.init (b : Nat → Buf V) : St ι V :=
  { top := 0, bottom := 0, cur := 0, bufs := b, garbage := 0, opc := .idle, tpc := fun _ => .idle,
    bad := !hasSingleBit (b 0).cap }

/-- Replace one buffer. No code. -/
def setB (f : Nat → Buf V) (i : Nat) (x : Buf V) : Nat → Buf V := fun j => if j = i then x else f j

/-- One atomic access of one thread. `maxCap` is the largest array the allocator can deliver. deque.hpp:350-472. -/
inductive Step (maxCap : Nat) : St ι V → Option (Ev ι V) → St ι V → Prop where
  -- calls and returns of the owner
  | oinvPush {s} (v : V) : s.opc = .idle → Step maxCap s (some (.oinv (.push v))) { s with opc := .push0 v }
  | oinvPop {s} : s.opc = .idle → Step maxCap s (some (.oinv .pop)) { s with opc := .pop0 }
  | oinvSize {s} : s.opc = .idle → Step maxCap s (some (.oinv .size)) { s with opc := .size0 }
  | oret {s r} : s.opc = .ret r → Step maxCap s (some (.ores r)) { s with opc := .idle }
  -- push, deque.hpp:382-404
  | push0 {s v} : s.opc = .push0 v → Step maxCap s none { s with opc := .push1 v s.bottom }
  | push1 {s v b} : s.opc = .push1 v b → Step maxCap s none { s with opc := .push2 v b s.top }
  | push2full {s v b t} : s.opc = .push2 v b t → ((s.bufs s.cur).cap : Int) < (b - t) + 1 →
      Step maxCap s none { s with opc := .push3 v b t s.cur }
  | push2 {s v b t} : s.opc = .push2 v b t → ¬ ((s.bufs s.cur).cap : Int) < (b - t) + 1 →
      Step maxCap s none { s with opc := .push5 v b s.cur }
  | push3 {s v b t buf} (fresh : Nat → V) : s.opc = .push3 v b t buf → 2 * (s.bufs buf).cap ≤ maxCap →
      Step maxCap s none { s with
        bufs := setB s.bufs (s.cur + 1) ((s.bufs buf).resize fresh b t), garbage := s.garbage + 1,
        opc := .push4 v b (s.cur + 1),
        bad := s.bad || !hasSingleBit (2 * (s.bufs buf).cap) || decide (t < 0) || decide (b < t) }
  | push3throw {s v b t buf} : s.opc = .push3 v b t buf → Step maxCap s none { s with opc := .ret (.threw v) }
  | push4 {s v b nb} : s.opc = .push4 v b nb → Step maxCap s none { s with cur := nb, opc := .push5 v b nb }
  | push5 {s v b buf} : s.opc = .push5 v b buf →
      Step maxCap s none { s with
        bufs := setB s.bufs buf ((s.bufs buf).set b v), opc := .push6 v b, bad := s.bad || decide (b < 0) }
  | push6 {s v b} : s.opc = .push6 v b → Step maxCap s none { s with bottom := b + 1, opc := .ret .pushed }
  -- pop, deque.hpp:406-437
  | pop0 {s} : s.opc = .pop0 → Step maxCap s none { s with opc := .pop1 (s.bottom - 1) }
  | pop1 {s b} : s.opc = .pop1 b → Step maxCap s none { s with opc := .pop2 b s.cur }
  | pop2 {s b buf} : s.opc = .pop2 b buf → Step maxCap s none { s with bottom := b, opc := .pop3 b buf }
  | pop3lt {s b buf} : s.opc = .pop3 b buf → s.top < b → Step maxCap s none { s with opc := .pop7 b buf }
  | pop3eq {s b buf} : s.opc = .pop3 b buf → s.top = b → Step maxCap s none { s with opc := .pop4 b buf }
  | pop3gt {s b buf} : s.opc = .pop3 b buf → ¬ s.top ≤ b → Step maxCap s none { s with opc := .pop5 b }
  | pop4ok {s b buf} : s.opc = .pop4 b buf → s.top = b →
      Step maxCap s none { s with top := b + 1, opc := .pop6 b buf }
  | pop4fail {s b buf} : s.opc = .pop4 b buf → s.top ≠ b → Step maxCap s none { s with opc := .pop5 b }
  | pop5 {s b} : s.opc = .pop5 b → Step maxCap s none { s with bottom := b + 1, opc := .ret .none }
  | pop6 {s b buf} : s.opc = .pop6 b buf → Step maxCap s none { s with bottom := b + 1, opc := .pop7 b buf }
  | pop7 {s b buf} : s.opc = .pop7 b buf →
      Step maxCap s none { s with opc := .ret (.got ((s.bufs buf).get b)), bad := s.bad || decide (b < 0) }
  -- size, deque.hpp:357-367 (called by the owner)
  | size0 {s} : s.opc = .size0 → Step maxCap s none { s with opc := .size1 s.bottom }
  | size1 {s b} : s.opc = .size1 b →
      Step maxCap s none { s with opc := .ret (.size (max (b - s.top) 0).toNat) }
  -- steal, deque.hpp:439-461
  | sinv {s} {i : ι} : s.tpc i = .idle → Step maxCap s (some (.sinv i)) { s with tpc := setT s.tpc i .st0 }
  | sret {s} {i : ι} {r} : s.tpc i = .ret r → Step maxCap s (some (.sres i r)) { s with tpc := setT s.tpc i .idle }
  | st0 {s} {i : ι} : s.tpc i = .st0 → Step maxCap s none { s with tpc := setT s.tpc i (.st1 s.top) }
  | st1 {s} {i : ι} {t} : s.tpc i = .st1 t → t < s.bottom →
      Step maxCap s none { s with tpc := setT s.tpc i (.st2 t) }
  | st1empty {s} {i : ι} {t} : s.tpc i = .st1 t → ¬ t < s.bottom →
      Step maxCap s none { s with tpc := setT s.tpc i (.ret .empty) }
  | st2 {s} {i : ι} {t} : s.tpc i = .st2 t → Step maxCap s none { s with tpc := setT s.tpc i (.st3 t s.cur) }
  | st3 {s} {i : ι} {t buf} : s.tpc i = .st3 t buf →
      Step maxCap s none { s with
        tpc := setT s.tpc i (.st4 t ((s.bufs buf).get t)), bad := s.bad || decide (t < 0) }
  | st4ok {s} {i : ι} {t v} : s.tpc i = .st4 t v → s.top = t →
      Step maxCap s none { s with top := t + 1, tpc := setT s.tpc i (.ret (.got v)) }
  | st4fail {s} {i : ι} {t v} : s.tpc i = .st4 t v → s.top ≠ t →
      Step maxCap s none { s with tpc := setT s.tpc i (.ret .lost) }

/-- `Reach maxCap cap h s`: starting from an empty deque of capacity `cap`, some interleaving of calls produces the
history `h` and ends in `s`. No code: reachability. -/
inductive Reach (maxCap cap : Nat) : List (Ev ι V) → St ι V → Prop where
  | init (b : Nat → Buf V) (h : (b 0).cap = cap) : Reach maxCap cap [] (.init b)
  | tau {h s s'} : Reach maxCap cap h s → Step maxCap s none s' → Reach maxCap cap h s'
  | vis {h s e s'} : Reach maxCap cap h s → Step maxCap s (some e) s' → Reach maxCap cap (h ++ [e]) s'

end Verif.Deque
