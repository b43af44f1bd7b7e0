import Mathlib.Data.BitVec
import Mathlib.Data.Nat.Notation

/-! Bit tricks: yacl/utils/platform_utils.cc (bit deposit and extract without the BMI2 instructions) and
yacl/utils/hamming.h.  Property C140. -/

namespace Yacl.Bits

/-- `__builtin_popcountl`: the number of one bits. -/
def popcount (m : BitVec 64) : ℕ := ((List.range 64).filter fun i => m.getLsbD i).length

/-- `__builtin_clzl`: the number of zero bits above the highest one bit; undefined for 0. -/
def clz (m : BitVec 64) : ℕ := 63 - Nat.log2 m.toNat

/-- platform_utils.cc L37, L67 `mask`. -/
def topBit : BitVec 64 := 0x8000000000000000#64

/-- platform_utils.cc L49-55, the loop of `pdep_u64_impl`.  `none` stands for undefined behaviour (a shift by 64 or
more, also after `p - c` wraps around) and for a loop that does not end within the given number of rounds. -/
def pdepLoop : ℕ → BitVec 64 → BitVec 64 → ℕ → BitVec 64 → Option (BitVec 64)
  | 0, _, _, _, _ => none
  | n + 1, x, m, p, result =>
    if m ≠ 0 then
      let c := clz m
      let s := (p + 2 ^ 64 - c) % 2 ^ 64
      if s ≥ 64 then none
      else
        let t := x <<< s
        pdepLoop n x (m ^^^ (topBit >>> c)) (p + 1) (result ||| (t &&& (topBit >>> c)))
    else some result

/-- platform_utils.cc L31-57 `pdep_u64_impl`. -/
def pdepImpl (x m : BitVec 64) : Option (BitVec 64) := pdepLoop 65 x m (64 - popcount m) 0

/-- platform_utils.cc L78-85, the loop of `pext_u64_impl`; `none` as above. -/
def pextLoop : ℕ → BitVec 64 → BitVec 64 → ℕ → BitVec 64 → Option (BitVec 64)
  | 0, _, _, _, _ => none
  | n + 1, x, m, p, result =>
    if m ≠ 0 then
      let c := clz m
      let s := (p + 2 ^ 64 - c) % 2 ^ 64
      if s ≥ 64 then none
      else
        let t := (x &&& (topBit >>> c)) >>> s
        pextLoop n x (m ^^^ (topBit >>> c)) (p + 1) (result ||| t)
    else some result

/-- platform_utils.cc L60-87 `pext_u64_impl`. -/
def pextImpl (x m : BitVec 64) : Option (BitVec 64) := pextLoop 65 x m (64 - popcount m) 0

/-- platform_utils.cc L108-115 `pdep_u64`: `hw` is the instruction, used on processors that have it. -/
def pdep (hw : BitVec 64 → BitVec 64 → BitVec 64) (hasBmi2 : Bool) (a b : BitVec 64) : Option (BitVec 64) :=
  if hasBmi2 then some (hw a b) else pdepImpl a b

/-- platform_utils.cc L117-124 `pext_u64`. -/
def pext (hw : BitVec 64 → BitVec 64 → BitVec 64) (hasBmi2 : Bool) (a b : BitVec 64) : Option (BitVec 64) :=
  if hasBmi2 then some (hw a b) else pextImpl a b

/-- hamming.h L24-35 `HammingWeight` of a 128 bit number: two halves. -/
def weight128 (i : BitVec 128) : ℕ :=
  let low64 := (i &&& 0xFFFFFFFFFFFFFFFF#128).setWidth 64
  let high64 := (i >>> 64).setWidth 64
  popcount low64 + popcount high64

/-- hamming.h L37-40 `HammingDistance` of 128 bit numbers. -/
def distance128 (x y : BitVec 128) : ℕ := weight128 (x ^^^ y)

end Yacl.Bits
