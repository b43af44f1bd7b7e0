import Verif.Matrix.Model
/-! Model of the AVX2 transpose (yacl/utils/matrix_utils.cc L362-523), the one that is compiled in with `YACL_ENABLE_BMI2`.

The 128 rows of 128 bits are seen as 64 vectors of 256 bits: vector `v` holds row `2 v` in its low half and row `2 v + 1` in its
high half (`(__m256i*)inOut`, little-endian). The template recursions are the lists of the loop bodies they unroll to, in the order
in which these run. -/
namespace Yacl.Matrix

abbrev V256 := BitVec 256
abbrev Vecs := Nat → V256

/-- The vector with the given bits. -/
def ofBits (f : Nat → Bool) : V256 := (List.range 256).foldl (fun t k => t ||| ((BitVec.ofBool (f k)).setWidth 256 <<< k)) 0

/-- `_mm256_slli_epi64` (`w = 64`), `_mm256_slli_epi16` (`w = 16`): every `w`-bit lane is shifted left. -/
def sllLanes (w : Nat) (x : V256) (s : Nat) : V256 := ofBits fun k => decide (s ≤ k % w) && x.getLsbD (k - s)

/-- `_mm256_srli_epi64` (`w = 64`), `_mm256_srli_epi16` (`w = 16`): every `w`-bit lane is shifted right. -/
def srlLanes (w : Nat) (x : V256) (s : Nat) : V256 := ofBits fun k => decide (k % w + s < w) && x.getLsbD (k + s)

/-- `_mm256_set1_epi64x` (`w = 64`), `_mm256_set1_epi16` (`w = 16`): the same value in every lane. -/
def set1 (w : Nat) (v : Nat) : V256 := ofBits fun k => v.testBit (k % w)

/-- `_mm256_permute2x128_si256(x, y, 0x20)`: the low halves of `x` and `y`. -/
def permLow (x y : V256) : V256 := ofBits fun k => if k < 128 then x.getLsbD k else y.getLsbD (k - 128)

/-- `_mm256_permute2x128_si256(x, y, 0x31)`: the high halves of `x` and `y`. -/
def permHigh (x y : V256) : V256 := ofBits fun k => if k < 128 then x.getLsbD (k + 128) else y.getLsbD k

/-- `_mm256_unpacklo_epi64`: in each 128-bit half, the low quarter of `x`, then that of `y`. -/
def unpackLo (x y : V256) : V256 := ofBits fun k => if k % 128 < 64 then x.getLsbD k else y.getLsbD (k - 64)

/-- `_mm256_unpackhi_epi64`: in each 128-bit half, the high quarter of `x`, then that of `y`. -/
def unpackHi (x y : V256) : V256 := ofBits fun k => if k % 128 < 64 then x.getLsbD (k + 64) else y.getLsbD k

/-- matrix_utils.cc L396-398: the loop from `k = 4` down to `blockSizeShift`; `uint64_t`. -/
def avxMask (bs : Nat) : Nat :=
  ((List.range (5 - bs)).map (4 - ·)).foldl (fun mask k => mask ^^^ (mask >>> (1 <<< k))) ((2 ^ 64 - 1) <<< 32 % 2 ^ 64)

/-- matrix_utils.cc L405-419: the part for `blockSizeShift == 1`. -/
def pairStep (x y : V256) : V256 × V256 :=
  let u := permLow x y
  let v := permHigh x y
  let diff := (u ^^^ sllLanes 16 v 1) &&& set1 16 0xaaaa
  let u := u ^^^ diff
  let v := v ^^^ srlLanes 16 diff 1
  (permLow u v, permHigh u v)

/-- matrix_utils.cc L421-426: the exchange between two vectors. -/
def blockStep (bs : Nat) (x y : V256) : V256 × V256 :=
  let diff := (x ^^^ sllLanes 64 y (1 <<< bs)) &&& set1 64 (avxMask bs)
  (x ^^^ diff, y ^^^ srlLanes 64 diff (1 <<< bs))

/-- The body of `avx_transpose_block_iter1` without its recursive call (matrix_utils.cc L394-426, L437-442), at vector `a`
(`inOut + j / 2`). -/
def avxBody (m : Vecs) (s : Nat × Nat) : Vecs :=
  let bs := s.1
  let a := s.2
  let x := m a
  let y := m (a + 2 ^ (bs - 1))
  let r := if bs = 6 then (unpackLo x y, unpackHi x y)
    else let p := if bs = 1 then pairStep x y else (x, y)
      blockStep bs p.1 p.2
  Function.update (Function.update m a r.1) (a + 2 ^ (bs - 1)) r.2

/-- matrix_utils.cc L370-372, L381-443 `avx_transpose_block_iter1<bs, br>(inOut + off)`: the recursive call for
`j + 2 ^ br` comes first. -/
def iter1 (bs br off : Nat) : List (Nat × Nat) :=
  ((List.range (2 ^ bs / 2 ^ br)).map fun t => (bs, off + t * 2 ^ br / 2)).reverse

/-- matrix_utils.cc L446-470 `avx_transpose_block_iter2<bs, br, nRows>(inOut + off)`. -/
def iter2 (bs br nRows off : Nat) : List (Nat × Nat) :=
  (List.range (nRows / 2 ^ (bs + 1))).flatMap fun t => iter1 bs br (off + t * 2 ^ (bs + 1) / 2)

/-- matrix_utils.cc L472-492 `avx_transpose_block<bs, ms, br, mr>(inOut + off)`; `n = ms - bs` is the depth of the recursion. -/
def block (n bs br rows off : Nat) : List (Nat × Nat) :=
  match n with
  | 0 => []
  | n + 1 => iter2 bs br rows off ++ block n (bs + 1) br rows off

/-- matrix_utils.cc L494-503: `avx_transpose<3>(inOut)`: for `i = 0, 16, 32, 48`
`avx_transpose_block<1, 3, 1, 2>(inOut + i)`, with `1 << (2 + 3)` rows. -/
def avxSmall : List (Nat × Nat) := (List.range 4).flatMap fun t => block (3 - 1) 1 1 (2 ^ (2 + 3)) (t * 16)

/-- matrix_utils.cc L505-523: `avx_transpose<7>(inOut)`: after `avx_transpose<3>`, for `i = 0, 1, 2, 3`
`avx_transpose_block<3, 7, 3, 0>(inOut + i)`, with `1 << 7` rows. (The other form of the loop, for `iter ≠ 7`, is never
instantiated.) -/
def avxSchedule : List (Nat × Nat) := avxSmall ++ (List.range (2 ^ (3 - 1))).flatMap fun i => block (7 - 3) 3 3 (2 ^ 7) i

/-- Rows as vectors. -/
def toVecs (m : Mat) : Vecs := fun v => ofBits fun k => if k < 128 then (m (2 * v)).getLsbD k else (m (2 * v + 1)).getLsbD (k - 128)

/-- Vectors as rows. -/
def ofVecs (w : Vecs) : Mat := fun r => (w (r / 2)).extractLsb' (128 * (r % 2)) 128

/-- matrix_utils.cc L525-527 `AvxTranspose128` of the array at address `addr`: `none` if the address is not a multiple of 32. Then
the assertion of L512 fails; and without assertions the aligned loads and stores that a `__m256i&` stands for fault. -/
def avxTranspose (addr : Nat) (m : Mat) : Option Mat :=
  if addr % 32 = 0 then some (ofVecs (avxSchedule.foldl avxBody (toVecs m))) else none

/-- matrix_utils.cc L343-352 `MatrixTranspose128` with and without `YACL_ENABLE_BMI2`. -/
def matrixTranspose128' (bmi2 sse2 : Bool) (addr : Nat) (junk : (BitVec 128 × BitVec 128) × (BitVec 128 × BitVec 128)) (m : Mat) :
    Option Mat :=
  if bmi2 then avxTranspose addr m else some (matrixTranspose128 sse2 junk m)

end Yacl.Matrix
