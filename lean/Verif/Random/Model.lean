/-
Model of `lf::xoshiro` (include/libfork/schedule/ext/random.hpp:76-203).

The four 64-bit words are `BitVec 64`; C++ `std::uint64_t` arithmetic is arithmetic modulo 2^64, which is
what `BitVec` does, so nothing is simplified.
-/
namespace Verif.Random

/-- random.hpp:172-177 `std::array<result_type, 4> m_state`. -/
@[ext] structure St where
  s0 : BitVec 64
  s1 : BitVec 64
  s2 : BitVec 64
  s3 : BitVec 64
deriving DecidableEq, Repr

/-- random.hpp:172-177: the default seed. -/
def defaultSeed : St :=
  ⟨0x8D0B73B52EA17D89, 0x2AA426A407C2B04F, 0xF513614E4798928A, 0xA65E479EC5B49D41⟩

/-- random.hpp:182-184 `rotl`: `(val << bits) | (val >> (64 - bits))`. -/
def rotl (val : BitVec 64) (bits : Nat) : BitVec 64 := (val <<< bits) ||| (val >>> (64 - bits))

/-- random.hpp:130-145: the value returned by `operator()` (computed from the state before the update). -/
def output (m : St) : BitVec 64 := rotl (m.s1 * 5) 7 * 9

/-- random.hpp:130-145: the state update of `operator()`, statement by statement. -/
def next (m : St) : St :=
  let temp := m.s1 <<< 17
  let m : St := { m with s2 := m.s2 ^^^ m.s0 }
  let m : St := { m with s3 := m.s3 ^^^ m.s1 }
  let m : St := { m with s1 := m.s1 ^^^ m.s2 }
  let m : St := { m with s0 := m.s0 ^^^ m.s3 }
  let m : St := { m with s2 := m.s2 ^^^ temp }
  { m with s3 := rotl m.s3 45 }

/-- random.hpp:191-197: the conditional `s[i] ^= m_state[i]`, for one value of `bit`, followed by the call
`std::invoke(*this)` of line 198. The pair is (accumulator `s`, `m_state`). -/
def jumpBit (jump : BitVec 64) (p : St × St) (bit : Nat) : St × St :=
  let acc := if jump &&& (1#64 <<< bit) ≠ 0
    then ⟨p.1.s0 ^^^ p.2.s0, p.1.s1 ^^^ p.2.s1, p.1.s2 ^^^ p.2.s2, p.1.s3 ^^^ p.2.s3⟩ else p.1
  (acc, next p.2)

/-- random.hpp:190-199: the inner loop `for (int bit = 0; bit < 64; ++bit)`. -/
def jumpWord (p : St × St) (jump : BitVec 64) : St × St := (List.range 64).foldl (jumpBit jump) p

/-- random.hpp:186-202 `jump_impl`. -/
def jumpImpl (arr : List (BitVec 64)) (m : St) : St := (arr.foldl jumpWord (⟨0, 0, 0, 0⟩, m)).1

/-- random.hpp:153-155 `jump`. -/
def jump (m : St) : St :=
  jumpImpl [0x180ec6d33cfd0aba, 0xd5a61266f0c9392c, 0xa9582618e03fc9aa, 0x39abdc4529b1661c] m

/-- random.hpp:164-166 `long_jump`. -/
def longJump (m : St) : St :=
  jumpImpl [0x76e15d3efefdcbbf, 0xc5004e441c522fb3, 0x77710069854ee241, 0x39109bb02acbe635] m

end Verif.Random
