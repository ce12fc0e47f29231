import Verif.Deque.Spec
import Verif.Weak.Mem

/-!
Model of include/libfork/core/ext/deque.hpp on the view machine of `Weak/Mem.lean`: one owner, any number of thieves (a
type `ι`), every access with the memory order written in the source.

Parameters: `cap` is the initial capacity, `relBuf` says whether the store of the new buffer in line 395 is a release
store. In the source it is relaxed: the program is `relBuf = false`.

Simplifications: `ptrdiff_t` values are unbounded integers (overflow needs 2^63 pushes); `index & m_mask` is
`index % capacity`, the same for a power of two; buffers are numbered, and the pointer to buffer `n` is the number `n`; the
elements are integers; the load and the store of one iteration of the copy loop are one step (both buffers are written by
the owner only); `consume` is treated as acquire, as all compilers do; the non-atomic members `m_cap` and `m_mask` of a
buffer are taken to be constants (in C++ an unsynchronised read of them would in itself be undefined behaviour).
Between calls a thread may learn about any messages (`osync`, `tsync`): the callers may synchronise in other ways. Between calls
the threads may write to memory cells `data n` of their own (`odata`, `tdata`).
-/
namespace Verif.Weak
open Verif.Deque (Ev OOp ORet SRet setT)

/-- The atomics: m_top, m_bottom, m_buf (deque.hpp:333-335) and slot `i` of buffer `b` (deque.hpp:139); and the memory cells of the
clients. -/
inductive Loc where
  | top | bot | ptr | cell (b i : Nat) | data (n : Nat)
  deriving DecidableEq

/-- Capacity of buffer `b`: each `resize` doubles it (deque.hpp:116). -/
def capOf (cap b : Nat) : Nat := cap * 2 ^ b

/-- The slot of index `i` in buffer `b` (deque.hpp:96, :103). -/
def slot (cap b : Nat) (i : Int) : Loc := .cell b (i.toNat % capOf cap b)

/-- Where the owner is. The comment gives the access about to be performed. deque.hpp:382-437. -/
inductive OPc where
  | idle
  | ret (r : ORet Int)
  | push0 (v : Int)                          -- :383 bottom = m_bottom.load(relaxed)
  | push1 (v b : Int)                        -- :384 top = m_top.load(acquire)
  | push2 (v b t : Int)                      -- :385 buf = m_buf.load(relaxed), and the test of :387
  | copy (v b t i : Int) (buf : Nat)         -- :118-120 next iteration of the loop of resize
  | push4 (v b : Int) (nb : Nat)             -- :395 m_buf.store(buf, relaxed)
  | push5 (v b : Int) (buf : Nat)            -- :400 buf->store(bottom, val)
  | push6 (v b : Int)                        -- :402 fence(release)
  | push7 (v b : Int)                        -- :403 m_bottom.store(bottom + 1, relaxed)
  | pop0                                     -- :412 bottom = m_bottom.load(relaxed) - 1
  | pop1 (b : Int)                           -- :413 buf = m_buf.load(relaxed)
  | pop2 (b : Int) (buf : Nat)               -- :414 m_bottom.store(bottom, relaxed)
  | popF (b : Int) (buf : Nat)               -- :416 fence(seq_cst)
  | pop3 (b : Int) (buf : Nat)               -- :418 top = m_top.load(relaxed)
  | pop4 (b : Int) (buf : Nat)               -- :424 CAS(top, top + 1, seq_cst, relaxed), top = bottom
  | pop5 (b : Int)                           -- :426 / :435 m_bottom.store(bottom + 1, relaxed), then empty
  | pop6 (b : Int) (buf : Nat)               -- :429 m_bottom.store(bottom + 1, relaxed)
  | pop7 (b : Int) (buf : Nat)               -- :433 buf->load(bottom)

/-- Where a thief is. `k` in `st2 …` records which message of m_bottom was read (used by the proofs only). deque.hpp:440-462. -/
inductive TPc where
  | idle
  | ret (r : SRet Int)
  | st0                                      -- :441 top = m_top.load(acquire)
  | stF (t : Int)                            -- :442 fence(seq_cst)
  | st1 (t : Int)                            -- :443 bottom = m_bottom.load(acquire), and the test of :445
  | st2 (t : Int) (k : Nat)                  -- :451 m_buf.load(consume)
  | st3 (t : Int) (k : Nat) (buf : Nat)      -- :451 ->load(top)
  | st4 (t : Int) (k : Nat) (v : Int)        -- :455 CAS(top, top + 1, seq_cst, relaxed)

/-- deque.hpp:336-340, memory, and where each thread is. -/
structure St (ι : Type) where
  mem : Mem Loc
  opc : OPc
  otv : TV Loc
  tpc : ι → TPc
  ttv : ι → TV Loc

variable {ι : Type} [DecidableEq ι]

/-- deque.hpp:350-355 constructor: m_top = m_bottom = 0, m_buf = buffer 0; `junk b i` is the content of a fresh slot. -/
def St.init (junk : Nat → Nat → Int) : St ι :=
  { mem := .init (fun l => match l with | .cell b i => junk b i | _ => 0)
    opc := .idle, otv := .init, tpc := fun _ => .idle, ttv := fun _ => .init }

/-- One atomic access of one thread. deque.hpp:350-472. -/
inductive Step (relBuf : Bool) (cap : Nat) : St ι → Option (Ev ι Int) → St ι → Prop where
  -- the client
  | oinvPush {s} (v : Int) : s.opc = .idle → Step relBuf cap s (some (.oinv (.push v))) { s with opc := .push0 v }
  | oinvPop {s} : s.opc = .idle → Step relBuf cap s (some (.oinv .pop)) { s with opc := .pop0 }
  | oret {s r} : s.opc = .ret r → Step relBuf cap s (some (.ores r)) { s with opc := .idle }
  | osync {s} (w : View Loc) : s.opc = .idle → s.mem.Valid w →
      Step relBuf cap s none { s with otv := { s.otv with cur := join s.otv.cur w, acq := join s.otv.acq w } }
  | sinv {s} {i : ι} : s.tpc i = .idle → Step relBuf cap s (some (.sinv i)) { s with tpc := setT s.tpc i .st0 }
  | sret {s} {i : ι} {r} : s.tpc i = .ret r → Step relBuf cap s (some (.sres i r)) { s with tpc := setT s.tpc i .idle }
  | tsync {s} {i : ι} (w : View Loc) : s.tpc i = .idle → s.mem.Valid w →
      Step relBuf cap s none { s with
        ttv := setT s.ttv i { s.ttv i with cur := join (s.ttv i).cur w, acq := join (s.ttv i).acq w } }
  | odata {s} (n : Nat) (v : Int) : s.opc = .idle →
      Step relBuf cap s none { s with mem := s.mem.store s.otv (.data n) v false, otv := s.otv.bump s.mem (.data n) }
  | tdata {s} {i : ι} (n : Nat) (v : Int) : s.tpc i = .idle →
      Step relBuf cap s none { s with
        mem := s.mem.store (s.ttv i) (.data n) v false, ttv := setT s.ttv i ((s.ttv i).bump s.mem (.data n)) }
  -- push, deque.hpp:382-404
  | push0 {s v i} : s.opc = .push0 v → CanRead s.mem s.otv .bot i →
      Step relBuf cap s none { s with otv := s.otv.read s.mem .bot i false, opc := .push1 v (s.mem.val .bot i) }
  | push1 {s v b i} : s.opc = .push1 v b → CanRead s.mem s.otv .top i →
      Step relBuf cap s none { s with otv := s.otv.read s.mem .top i true, opc := .push2 v b (s.mem.val .top i) }
  | push2 {s v b t i} : s.opc = .push2 v b t → CanRead s.mem s.otv .ptr i →
      ¬ (capOf cap (s.mem.val .ptr i).toNat : Int) < (b - t) + 1 →
      Step relBuf cap s none { s with
        otv := s.otv.read s.mem .ptr i false, opc := .push5 v b (s.mem.val .ptr i).toNat }
  | push2full {s v b t i} : s.opc = .push2 v b t → CanRead s.mem s.otv .ptr i →
      (capOf cap (s.mem.val .ptr i).toNat : Int) < (b - t) + 1 →
      Step relBuf cap s none { s with
        otv := s.otv.read s.mem .ptr i false, opc := .copy v b t t (s.mem.val .ptr i).toNat }
  | push2throw {s v b t i} : s.opc = .push2 v b t → CanRead s.mem s.otv .ptr i →
      (capOf cap (s.mem.val .ptr i).toNat : Int) < (b - t) + 1 →
      Step relBuf cap s none { s with otv := s.otv.read s.mem .ptr i false, opc := .ret (.threw v) }
  | copy {s v b t i buf j} : s.opc = .copy v b t i buf → i ≠ b → CanRead s.mem s.otv (slot cap buf i) j →
      Step relBuf cap s none { s with
        mem := s.mem.store (s.otv.read s.mem (slot cap buf i) j false) (slot cap (buf + 1) i)
          (s.mem.val (slot cap buf i) j) false
        otv := (s.otv.read s.mem (slot cap buf i) j false).bump s.mem (slot cap (buf + 1) i)
        opc := .copy v b t (i + 1) buf }
  | copied {s v b t i buf} : s.opc = .copy v b t i buf → i = b →
      Step relBuf cap s none { s with opc := .push4 v b (buf + 1) }
  | push4 {s v b} {nb : Nat} : s.opc = .push4 v b nb →
      Step relBuf cap s none { s with
        mem := s.mem.store s.otv .ptr (nb : Nat) relBuf, otv := s.otv.bump s.mem .ptr, opc := .push5 v b nb }
  | push5 {s v b buf} : s.opc = .push5 v b buf →
      Step relBuf cap s none { s with
        mem := s.mem.store s.otv (slot cap buf b) v false, otv := s.otv.bump s.mem (slot cap buf b), opc := .push6 v b }
  | push6 {s v b} : s.opc = .push6 v b → Step relBuf cap s none { s with otv := s.otv.fenceRel, opc := .push7 v b }
  | push7 {s v b} : s.opc = .push7 v b →
      Step relBuf cap s none { s with
        mem := s.mem.store s.otv .bot (b + 1) false, otv := s.otv.bump s.mem .bot, opc := .ret .pushed }
  -- pop, deque.hpp:406-437
  | pop0 {s i} : s.opc = .pop0 → CanRead s.mem s.otv .bot i →
      Step relBuf cap s none { s with otv := s.otv.read s.mem .bot i false, opc := .pop1 (s.mem.val .bot i - 1) }
  | pop1 {s b i} : s.opc = .pop1 b → CanRead s.mem s.otv .ptr i →
      Step relBuf cap s none { s with otv := s.otv.read s.mem .ptr i false, opc := .pop2 b (s.mem.val .ptr i).toNat }
  | pop2 {s b buf} : s.opc = .pop2 b buf →
      Step relBuf cap s none { s with
        mem := s.mem.store s.otv .bot b false, otv := s.otv.bump s.mem .bot, opc := .popF b buf }
  | popF {s b buf} : s.opc = .popF b buf →
      Step relBuf cap s none { s with mem := s.mem.fenceSC s.otv, otv := s.otv.fenceSC s.mem, opc := .pop3 b buf }
  | pop3lt {s b buf i} : s.opc = .pop3 b buf → CanRead s.mem s.otv .top i → s.mem.val .top i < b →
      Step relBuf cap s none { s with otv := s.otv.read s.mem .top i false, opc := .pop7 b buf }
  | pop3eq {s b buf i} : s.opc = .pop3 b buf → CanRead s.mem s.otv .top i → s.mem.val .top i = b →
      Step relBuf cap s none { s with otv := s.otv.read s.mem .top i false, opc := .pop4 b buf }
  | pop3gt {s b buf i} : s.opc = .pop3 b buf → CanRead s.mem s.otv .top i → ¬ s.mem.val .top i ≤ b →
      Step relBuf cap s none { s with otv := s.otv.read s.mem .top i false, opc := .pop5 b }
  | pop4ok {s b buf} : s.opc = .pop4 b buf → s.mem.val .top (s.mem.last .top) = b →
      Step relBuf cap s none { s with
        mem := s.mem.rmw s.otv .top (b + 1), otv := s.otv.rmw s.mem .top, opc := .pop6 b buf }
  | pop4fail {s b buf i} : s.opc = .pop4 b buf → CanRead s.mem s.otv .top i → s.mem.val .top i ≠ b →
      Step relBuf cap s none { s with otv := s.otv.read s.mem .top i false, opc := .pop5 b }
  | pop5 {s b} : s.opc = .pop5 b →
      Step relBuf cap s none { s with
        mem := s.mem.store s.otv .bot (b + 1) false, otv := s.otv.bump s.mem .bot, opc := .ret .none }
  | pop6 {s b buf} : s.opc = .pop6 b buf →
      Step relBuf cap s none { s with
        mem := s.mem.store s.otv .bot (b + 1) false, otv := s.otv.bump s.mem .bot, opc := .pop7 b buf }
  | pop7 {s b buf i} : s.opc = .pop7 b buf → CanRead s.mem s.otv (slot cap buf b) i →
      Step relBuf cap s none { s with
        otv := s.otv.read s.mem (slot cap buf b) i false, opc := .ret (.got (s.mem.val (slot cap buf b) i)) }
  -- steal, deque.hpp:439-461
  | st0 {s} {i : ι} {j} : s.tpc i = .st0 → CanRead s.mem (s.ttv i) .top j →
      Step relBuf cap s none { s with
        ttv := setT s.ttv i ((s.ttv i).read s.mem .top j true), tpc := setT s.tpc i (.stF (s.mem.val .top j)) }
  | stF {s} {i : ι} {t} : s.tpc i = .stF t →
      Step relBuf cap s none { s with
        mem := s.mem.fenceSC (s.ttv i), ttv := setT s.ttv i ((s.ttv i).fenceSC s.mem), tpc := setT s.tpc i (.st1 t) }
  | st1 {s} {i : ι} {t k} : s.tpc i = .st1 t → CanRead s.mem (s.ttv i) .bot k → t < s.mem.val .bot k →
      Step relBuf cap s none { s with
        ttv := setT s.ttv i ((s.ttv i).read s.mem .bot k true), tpc := setT s.tpc i (.st2 t k) }
  | st1empty {s} {i : ι} {t k} : s.tpc i = .st1 t → CanRead s.mem (s.ttv i) .bot k → ¬ t < s.mem.val .bot k →
      Step relBuf cap s none { s with
        ttv := setT s.ttv i ((s.ttv i).read s.mem .bot k true), tpc := setT s.tpc i (.ret .empty) }
  | st2 {s} {i : ι} {t k j} : s.tpc i = .st2 t k → CanRead s.mem (s.ttv i) .ptr j →
      Step relBuf cap s none { s with
        ttv := setT s.ttv i ((s.ttv i).read s.mem .ptr j true)
        tpc := setT s.tpc i (.st3 t k (s.mem.val .ptr j).toNat) }
  | st3 {s} {i : ι} {t k buf j} : s.tpc i = .st3 t k buf → CanRead s.mem (s.ttv i) (slot cap buf t) j →
      Step relBuf cap s none { s with
        ttv := setT s.ttv i ((s.ttv i).read s.mem (slot cap buf t) j false)
        tpc := setT s.tpc i (.st4 t k (s.mem.val (slot cap buf t) j)) }
  | st4ok {s} {i : ι} {t k v} : s.tpc i = .st4 t k v → s.mem.val .top (s.mem.last .top) = t →
      Step relBuf cap s none { s with
        mem := s.mem.rmw (s.ttv i) .top (t + 1), ttv := setT s.ttv i ((s.ttv i).rmw s.mem .top)
        tpc := setT s.tpc i (.ret (.got v)) }
  | st4fail {s} {i : ι} {t k v j} : s.tpc i = .st4 t k v → CanRead s.mem (s.ttv i) .top j → s.mem.val .top j ≠ t →
      Step relBuf cap s none { s with
        ttv := setT s.ttv i ((s.ttv i).read s.mem .top j false), tpc := setT s.tpc i (.ret .lost) }

/-- `Reach relBuf cap h s`: starting from an empty deque of capacity `cap`, some execution of the view machine produces the
history `h` and ends in `s`. No code: reachability. -/
inductive Reach (relBuf : Bool) (cap : Nat) : List (Ev ι Int) → St ι → Prop where
  | init (junk : Nat → Nat → Int) : Reach relBuf cap [] (.init junk)
  | tau {h s s'} : Reach relBuf cap h s → Step relBuf cap s none s' → Reach relBuf cap h s'
  | vis {h s e s'} : Reach relBuf cap h s → Step relBuf cap s (some e) s' → Reach relBuf cap (h ++ [e]) s'

end Verif.Weak
