import Verif.Math.Gadget
/-! GF(2^64) and GF(2^128) arithmetic: yacl/math/galois_field/gf_intrinsic.{h,cc}. Properties C59, C73. -/
namespace Yacl.Gf

/-- `_mm_clmulepi64_si128` on two selected 64-bit halves: the xor of `a << i` over the set bits `i` of `b` (Intel manual, PCLMULQDQ). -/
def clmul (a b : BitVec 64) : BitVec 128 :=
  (List.range 64).foldl (fun acc i => acc ^^^ (if b.getLsbD i then (a.setWidth 128) <<< i else 0)) 0

def lo (x : BitVec 128) : BitVec 64 := x.extractLsb' 0 64
def hi (x : BitVec 128) : BitVec 64 := x.extractLsb' 64 64

/-- gf_intrinsic.h L43-44 `kGfMod128`, `kGfMod64`: the low terms of the two polynomials. -/
def gfMod128 : BitVec 64 := (1 <<< 7) ||| (1 <<< 2) ||| (1 <<< 1) ||| 1
def gfMod64 : BitVec 64 := (1 <<< 4) ||| (1 <<< 3) ||| (1 <<< 1) ||| 1

/-- gf_intrinsic.cc L165-179 `Gf64Reduce`; the selector `0x10` is low half of the first, high half of the second operand. -/
def gf64Reduce (x : BitVec 128) : BitVec 64 :=
  let modulo : BitVec 128 := gfMod64.setWidth 128
  let temp := clmul (lo modulo) (hi x)
  let xb := x ^^^ temp
  let temp2 := clmul (lo modulo) (hi temp)
  lo (xb ^^^ temp2)

/-- gf_intrinsic.cc L115-119, L129-133 `Gf64Mul`, `Gf64ClMul`. -/
def gf64Mul (x y : BitVec 64) : BitVec 64 := gf64Reduce (clmul x y)

/-- gf_intrinsic.cc L135-163 `Gf64ClMul` on spans: two products per round, the odd one at the end. -/
def gf64ClMulSpan : List (BitVec 64) → List (BitVec 64) → BitVec 128 → BitVec 128
  | x0 :: x1 :: xs, y0 :: y1 :: ys, ret => gf64ClMulSpan xs ys ((ret ^^^ clmul x0 y0) ^^^ clmul x1 y1)
  | [x0], [y0], ret => ret ^^^ clmul x0 y0
  | _, _, ret => ret

/-- gf_intrinsic.cc L121-127 `Gf64Mul` on spans; `none` when the sizes differ. -/
def gf64MulSpan (x y : List (BitVec 64)) : Option (BitVec 64) :=
  if x.length = y.length then some (gf64Reduce (gf64ClMulSpan x y 0)) else none

/-- Applying `Gf64Mul(t, t, &t)` `n` times. -/
def sqN : Nat → BitVec 64 → BitVec 64
  | 0, t => t
  | n + 1, t => sqN n (gf64Mul t t)

/-- gf_intrinsic.cc L181-230 `Gf64Inv`; runs of `Gf64Mul(t0, t0, &t0)` are written `sqN`. -/
def gf64Inv (x : BitVec 64) : BitVec 64 :=
  let t0 := x
  let t1 := gf64Mul t0 t0
  let t2 := gf64Mul t1 t0
  let t0 := gf64Mul t2 t2
  let t0 := sqN 1 t0
  let t1 := gf64Mul t1 t0
  let t2 := gf64Mul t2 t0
  let t0 := gf64Mul t2 t2
  let t0 := sqN 3 t0
  let t1 := gf64Mul t1 t0
  let t2 := gf64Mul t2 t0
  let t0 := gf64Mul t2 t2
  let t0 := sqN 7 t0
  let t1 := gf64Mul t1 t0
  let t2 := gf64Mul t2 t0
  let t0 := gf64Mul t2 t2
  let t0 := sqN 15 t0
  let t1 := gf64Mul t1 t0
  let t0 := gf64Mul t0 t2
  let t0 := sqN 32 t0
  gf64Mul t0 t1

/-- gf_intrinsic.cc L53-66 `Gf128ClMul`: high and low 128 bits of the 256-bit product. The byte shifts by 8 are bit shifts by 64. -/
def gf128ClMul (x y : BitVec 128) : BitVec 128 × BitVec 128 :=
  let low := clmul (lo x) (lo y)
  let high := clmul (hi x) (hi y)
  let mid1 := clmul (lo x) (hi y)
  let mid2 := clmul (hi x) (lo y)
  let mid := mid1 ^^^ mid2
  let mid1 := mid >>> 64
  let mid2 := mid <<< 64
  (high ^^^ mid1, low ^^^ mid2)

/-- gf_intrinsic.cc L87-97 `Gf128Reduce`. -/
def gf128Reduce (high low : BitVec 128) : BitVec 128 :=
  let modulo : BitVec 128 := gfMod128.setWidth 128
  let p := gf128ClMul high modulo
  let low := low ^^^ p.2
  let q := gf128ClMul p.1 modulo
  low ^^^ q.2

/-- gf_intrinsic.cc L29-34 `Gf128Mul`. -/
def gf128Mul (x y : BitVec 128) : BitVec 128 :=
  let p := gf128ClMul x y
  gf128Reduce p.1 p.2

/-- gf_intrinsic.cc L68-85 `Gf128ClMul` on spans. -/
def gf128ClMulSpan : List (BitVec 128) → List (BitVec 128) → BitVec 128 × BitVec 128 → BitVec 128 × BitVec 128
  | x :: xs, y :: ys, ret => gf128ClMulSpan xs ys (ret.1 ^^^ (gf128ClMul x y).1, ret.2 ^^^ (gf128ClMul x y).2)
  | _, _, ret => ret

/-- gf_intrinsic.cc L36-43 `Gf128Mul` on spans; `none` when the sizes differ. -/
def gf128MulSpan (x y : List (BitVec 128)) : Option (BitVec 128) :=
  if x.length = y.length then
    let p := gf128ClMulSpan x y (0, 0)
    some (gf128Reduce p.1 p.2)
  else none

/-- gf_intrinsic.cc L320-326 `GfMul` of a 128-bit span and a 64-bit span. -/
def gfMulMixed (a : List (BitVec 128)) (b : List (BitVec 64)) : Option (BitVec 128) := gf128MulSpan a (b.map (·.setWidth 128))

/-- gf_intrinsic.cc L105-109, gf_intrinsic.h L55-62 `Gf128Pack`. -/
def gf128Pack (data : List (BitVec 128)) : Option (BitVec 128) :=
  if data.length ≤ 128 then gf128MulSpan data ((List.range data.length).map fun i => (1 : BitVec 128) <<< i) else none

/-- gf_intrinsic.cc L252-256, gf_intrinsic.h L46-53 `Gf64Pack`. -/
def gf64Pack (data : List (BitVec 64)) : Option (BitVec 64) :=
  if data.length ≤ 64 then gf64MulSpan data ((List.range data.length).map fun i => (1 : BitVec 64) <<< i) else none

/-- gf_intrinsic.h L154-162 `UniversalHash`, for either field: from the last element to the first. -/
def universalHash {w : Nat} (mul : BitVec w → BitVec w → BitVec w) (seed : BitVec w) (data : List (BitVec w)) : BitVec w :=
  data.reverse.foldl (fun ret v => mul seed (ret ^^^ v)) 0

/-- gf_intrinsic.h L167-172: the filled entries `buff[0..max_bits]`, each the square of the one before. -/
def hashBuff {w : Nat} (mul : BitVec w → BitVec w → BitVec w) (seed : BitVec w) : Nat → List (BitVec w)
  | 0 => [seed]
  | n + 1 =>
    let b := hashBuff mul seed n
    b ++ [mul (b.getLastD 0) (b.getLastD 0)]

/-- gf_intrinsic.h L177-184: the product over the set bits of `index + 1`; the loop stops when the mask exceeds it or after 64
rounds (`fuel` counts the remaining rounds, `mask = 2^i`). Entries of `buff` that were not filled are zero. -/
def coefLoop {w : Nat} (mul : BitVec w → BitVec w → BitVec w) (buff : List (BitVec w)) (idx1 : Nat) : Nat → Nat → BitVec w → BitVec w
  | 0, _, coef => coef
  | fuel + 1, i, coef =>
    if 2 ^ i ≤ idx1 then coefLoop mul buff idx1 fuel (i + 1) (if idx1.testBit i then mul coef (buff.getD i 0) else coef)
    else coef

/-- gf_intrinsic.h L164-188 `ExtractHashCoef`. `none`: an exception (`Log2Ceil(0)`) or undefined behaviour (empty span; `buff[64]`). -/
def extractHashCoef {w : Nat} (mul : BitVec w → BitVec w → BitVec w) (seed : BitVec w) (indexes : List (BitVec 64)) :
    Option (List (BitVec w)) :=
  match indexes.getLast? with
  | none => none
  | some b => match Gadget.log2Ceil b with
    | none => none
    | some k => if k.toNat < 64 then
        some (indexes.map fun i => coefLoop mul (hashBuff mul seed k.toNat) (i + 1).toNat 64 0 1)
      else none

end Yacl.Gf
