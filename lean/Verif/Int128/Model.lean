/-! Model of yacl/base/int128.{h,cc}.

A C++ `uint128_t`/`int128_t` is its 128-bit pattern, a `uint64_t`/`int64_t` its 64-bit pattern; the signed value of a pattern
is `BitVec.toInt` (two's complement, which GCC and clang use). -/
namespace Yacl.Int128

/-- int128.h L39-48 `BitCastToSigned`: `v & (1<<127) ? ~(int128)(~v) : (int128)v`. -/
def bitCastToSigned (v : BitVec 128) : BitVec 128 :=
  if v &&& ((1 : BitVec 128) <<< 127) ≠ 0 then ~~~(~~~v) else v

/-- int128.h L52-55 `MakeInt128(hi, lo)`: `static_cast<unsigned __int128>(hi)` sign-extends the `int64_t`; `lo` is
zero-extended. -/
def makeInt128 (hi lo : BitVec 64) : BitVec 128 :=
  bitCastToSigned ((hi.signExtend 128) <<< 64) ||| lo.setWidth 128

/-- int128.h L57-59 `MakeUint128(hi, lo)`. -/
def makeUint128 (hi lo : BitVec 64) : BitVec 128 := (hi.setWidth 128) <<< 64 ||| lo.setWidth 128

/-- int128.cc L37-40 `DecomposeInt128`: `absl::Int128High64`, `absl::Int128Low64`. -/
def decomposeInt128 (v : BitVec 128) : BitVec 64 × BitVec 64 := ((v.sshiftRight 64).setWidth 64, v.setWidth 64)

/-- int128.cc L42-45 `DecomposeUInt128`. -/
def decomposeUInt128 (v : BitVec 128) : BitVec 64 × BitVec 64 := ((v >>> 64).setWidth 64, v.setWidth 64)

/-- `absl::countl_zero` on a `uint64_t` (library function): the number of zero bits above the highest set bit. -/
def countlZero64 (x : BitVec 64) : Nat := if x = 0 then 64 else 63 - Nat.log2 x.toNat

/-- int128.h L80-83 `CountLZ`. -/
def countLZ (v : BitVec 128) : Nat :=
  let (hi, lo) := decomposeUInt128 v
  if hi = 0 then countlZero64 lo + 64 else countlZero64 hi

/-- int128.h L85-87 `CountBitWidth`: `128 - CountLZ(v)`. -/
def countBitWidth (v : BitVec 128) : Int := (128 : Int) - countLZ v

/-- int128.h L61-64 `Int128Max()`. -/
def int128Max : BitVec 128 := makeInt128 (BitVec.ofNat 64 (2 ^ 63 - 1)) (BitVec.ofNat 64 (2 ^ 64 - 1))
/-- int128.h L66-68 `Int128Min()`. -/
def int128Min : BitVec 128 := makeInt128 (BitVec.ofNat 64 (2 ^ 63)) 0
/-- int128.h L70-73 `Uint128Max()`. -/
def uint128Max : BitVec 128 := makeUint128 (BitVec.ofNat 64 (2 ^ 64 - 1)) (BitVec.ofNat 64 (2 ^ 64 - 1))

/-- int128.h L127 `std::abs(int128_t)`: `x >= 0 ? x : -x`; `-x` of the minimum overflows, which is undefined (`none`). -/
def abs128 (x : BitVec 128) : Option (BitVec 128) :=
  if 0 ≤ x.toInt then some x else if x = int128Min then none else some (-x)

end Yacl.Int128
