import Mathlib.Logic.Function.Basic
/-! Model of the bit-matrix transposes (yacl/utils/matrix_utils.{h,cc}).

A `std::array<uint128_t, 128>` is a map from row number to row; a row is a 128-bit word whose bit `c` is column `c`. The
`block` byte / 16-bit views of the SSE code (`reinterpret_cast` on a little-endian machine) are bit ranges of the word. -/
namespace Yacl.Matrix

abbrev Mat := Nat → BitVec 128

/-- matrix_utils.h L28-30 `GetBit(i, pos)`. -/
def getBit (x : BitVec 128) (pos : Nat) : BitVec 128 := (x >>> pos) &&& 1

/-- matrix_utils.h L38-41: the inner loop computing row `i` of the result. -/
def naiveRow (inp : Mat) (i : Nat) : BitVec 128 :=
  (List.range 128).foldl (fun t j => t ||| (getBit (inp j) i <<< j)) 0

/-- matrix_utils.h L34-44 `NaiveTranspose<1>`. -/
def naiveTranspose (inp : Mat) : Mat := (List.range 128).foldl (fun m i => Function.update m i (naiveRow inp i)) inp

/-- matrix_utils.cc L48-55 `trans_mask`. -/
def transMask : List Nat :=
  [0x0000000000000000ffffffffffffffff, 0x00000000ffffffff00000000ffffffff, 0x0000ffff0000ffff0000ffff0000ffff,
   0x00ff00ff00ff00ff00ff00ff00ff00ff, 0x0f0f0f0f0f0f0f0f0f0f0f0f0f0f0f0f, 0x33333333333333333333333333333333,
   0x55555555555555555555555555555555]

/-- matrix_utils.cc L57-64 `trans_mask_inv`. -/
def transMaskInv : List Nat :=
  [0xffffffffffffffff0000000000000000, 0xffffffff00000000ffffffff00000000, 0xffff0000ffff0000ffff0000ffff0000,
   0xff00ff00ff00ff00ff00ff00ff00ff00, 0xf0f0f0f0f0f0f0f0f0f0f0f0f0f0f0f0, 0xcccccccccccccccccccccccccccccccc,
   0xaaaaaaaaaaaaaaaaaaaaaaaaaaaaaaaa]

/-- matrix_utils.cc L79-88: the body of the innermost loop. -/
def ekSwap (mask inv : BitVec 128) (width i1 i2 : Nat) (m : Mat) : Mat :=
  let t := m i1
  let tt := m i2
  let m := Function.update m i1 ((t &&& mask) ^^^ ((tt &&& mask) <<< width))
  Function.update m i2 ((tt &&& inv) ^^^ ((t &&& inv) >>> width))

/-- matrix_utils.cc L77-90: the loops over `j < nswaps` and `k < width`. -/
def ekLevel (mask inv : BitVec 128) (nswaps width : Nat) (m : Mat) : Mat :=
  (List.range nswaps).foldl (fun m j =>
    (List.range width).foldl (fun m k => ekSwap mask inv width (k + 2 * width * j) (k + width + 2 * width * j) m) m) m

/-- matrix_utils.cc L69-93: the loop over `i`, with the running `nswaps` and `width`. -/
def ekLoop : List (Nat × Nat) → Nat → Nat → Mat → Mat
  | [], _, _, m => m
  | (mask, inv) :: rest, nswaps, width, m =>
    ekLoop rest (nswaps * 2) (width / 2) (ekLevel (BitVec.ofNat 128 mask) (BitVec.ofNat 128 inv) nswaps width m)

/-- matrix_utils.cc L67-94 `EklundhTranspose128`. -/
def eklundhTranspose (m : Mat) : Mat := ekLoop (transMask.zip transMaskInv) 1 64 m

/-- Byte `b` of a block. -/
def getByte (x : BitVec 128) (b : Nat) : BitVec 8 := x.extractLsb' (8 * b) 8

/-- Writing byte `b` of a block. -/
def setByte (x : BitVec 128) (b : Nat) (v : BitVec 8) : BitVec 128 :=
  (x &&& ~~~((255 : BitVec 128) <<< (8 * b))) ||| (v.setWidth 128 <<< (8 * b))

/-- Writing the 16-bit word `y` of a block. -/
def setU16 (x : BitVec 128) (y : Nat) (v : BitVec 16) : BitVec 128 :=
  (x &&& ~~~((65535 : BitVec 128) <<< (16 * y))) ||| (v.setWidth 128 <<< (16 * y))

/-- block.h L83-85 `operator<<`: `_mm_slli_epi64`, a shift inside each 64-bit half. -/
def shlEpi64 (x : BitVec 128) (n : Nat) : BitVec 128 :=
  ((x.extractLsb' 64 64 <<< n).setWidth 128 <<< 64) ||| (x.extractLsb' 0 64 <<< n).setWidth 128

/-- block.h L101 `movemask_epi8`: bit `l` of the result is the top bit of byte `l`. -/
def movemask (x : BitVec 128) : BitVec 16 :=
  (List.range 16).foldl (fun acc l => acc ||| (BitVec.ofBool (x.getLsbD (8 * l + 7))).setWidth 16 <<< l) 0

/-- matrix_utils.cc L103-119 `sse_loadSubSquare`: the two output blocks (their previous contents are overwritten byte by
byte). -/
def loadSubSquare (m : Mat) (out : BitVec 128 × BitVec 128) (x y : Nat) : BitVec 128 × BitVec 128 :=
  (List.range 16).foldl (fun o l =>
    (setByte o.1 l (getByte (m (16 * x + l)) (2 * y)), setByte o.2 l (getByte (m (16 * x + l)) (2 * y + 1)))) out

/-- matrix_utils.cc L132-136: one turn of the loop of `sse_transposeSubSquare`. -/
def storeStep (x y : Nat) (s : Mat × BitVec 128 × BitVec 128) (j : Nat) : Mat × BitVec 128 × BitVec 128 :=
  let (m, a, b) := s
  let r0 := 16 * x + 7 - j
  let m := Function.update m r0 (setU16 (m r0) y (movemask a))
  let r1 := 16 * x + 15 - j
  let m := Function.update m r1 (setU16 (m r1) y (movemask b))
  (m, shlEpi64 a 1, shlEpi64 b 1)

/-- matrix_utils.cc L121-138 `sse_transposeSubSquare`. -/
def transposeSubSquare (m : Mat) (inp : BitVec 128 × BitVec 128) (x y : Nat) : Mat × BitVec 128 × BitVec 128 :=
  (List.range 8).foldl (storeStep x y) (m, inp.1, inp.2)

/-- State of `SseTranspose128`: the matrix and the scratch arrays `a`, `b`. -/
structure Sse where
  m : Mat
  a : BitVec 128 × BitVec 128
  b : BitVec 128 × BitVec 128

/-- matrix_utils.cc L153-156: the body of the loop over `k`. -/
def sseInner (j : Nat) (s : Sse) (k : Nat) : Sse :=
  let a := loadSubSquare s.m s.a k j
  let b := loadSubSquare s.m s.b j k
  let r := transposeSubSquare s.m a j k
  let r2 := transposeSubSquare r.1 b k j
  ⟨r2.1, r.2, r2.2⟩

/-- matrix_utils.cc L148-158: the body of the loop over `j`. -/
def sseOuter (s : Sse) (j : Nat) : Sse :=
  let a := loadSubSquare s.m s.a j j
  let r := transposeSubSquare s.m a j j
  (List.range j).foldl (sseInner j) ⟨r.1, r.2, s.b⟩

/-- matrix_utils.cc L140-162 `SseTranspose128`; `a`, `b` start uninitialised, so with arbitrary contents `junk`. -/
def sseTranspose (junk : (BitVec 128 × BitVec 128) × (BitVec 128 × BitVec 128)) (m : Mat) : Mat :=
  ((List.range 8).foldl sseOuter ⟨m, junk.1, junk.2⟩).m

/-- A 128 x 1024 matrix: 8 words per row. -/
abbrev WideMat := Nat → Nat → BitVec 128

/-- matrix_utils.cc L179-193 `EklundhTranspose128x1024` (and L164-177, the overload on `block`). -/
def eklundh1024 (w : WideMat) : WideMat :=
  (List.range 8).foldl (fun w i =>
    let sub := eklundhTranspose (fun j => w j i)
    fun j => if j < 128 then Function.update (w j) i (sub j) else w j) w

/-- Byte `b` of a wide row (`in_byte_view`, 128 bytes). -/
def getByteW (w : Nat → BitVec 128) (b : Nat) : BitVec 8 := getByte (w (b / 16)) (b % 16)

/-- Writing the 16-bit word `y` of a wide row (`out_u16_view`, 64 words). -/
def setU16W (w : Nat → BitVec 128) (y : Nat) (v : BitVec 16) : Nat → BitVec 128 :=
  Function.update w (y / 8) (setU16 (w (y / 8)) (y % 8) v)

/-- matrix_utils.cc L195-244 `SseLoadSubSquarex` (the 16 unrolled pairs of assignments). -/
def loadSubSquareX (w : WideMat) (out : BitVec 128 × BitVec 128) (x y i : Nat) : BitVec 128 × BitVec 128 :=
  (List.range 16).foldl (fun o l =>
    (setByte o.1 l (getByteW (w (x * 16 + l)) (i * 16 + 2 * y)),
     setByte o.2 l (getByteW (w (x * 16 + l)) (i * 16 + 2 * y + 1)))) out

/-- matrix_utils.cc L258-293: eight stores of the shifted block `v` into the rows `top`, `top - 1`, .., `top - 7`. -/
def storeEight (w : WideMat) (top i8y : Nat) (v : BitVec 128) : WideMat :=
  (List.range 8).foldl (fun w j =>
    Function.update w (top - j) (setU16W (w (top - j)) i8y (movemask (shlEpi64 v j)))) w

/-- matrix_utils.cc L246-294 `SseTransposeSubSquarex`. -/
def transposeSubSquareX (w : WideMat) (inp : BitVec 128 × BitVec 128) (x y i : Nat) : WideMat :=
  storeEight (storeEight w (x * 16 + 7) (i * 8 + y) inp.1) (x * 16 + 15) (i * 8 + y) inp.2

/-- State of `SseTranspose128x1024`. -/
structure SseX where
  w : WideMat
  a : BitVec 128 × BitVec 128
  b : BitVec 128 × BitVec 128

/-- matrix_utils.cc L306-311. -/
def sseInnerX (i j : Nat) (s : SseX) (k : Nat) : SseX :=
  let a := loadSubSquareX s.w s.a k j i
  let b := loadSubSquareX s.w s.b j k i
  let w := transposeSubSquareX s.w a j k i
  ⟨transposeSubSquareX w b k j i, a, b⟩

/-- matrix_utils.cc L302-312. -/
def sseOuterX (i : Nat) (s : SseX) (j : Nat) : SseX :=
  let a := loadSubSquareX s.w s.a j j i
  (List.range j).foldl (sseInnerX i j) ⟨transposeSubSquareX s.w a j j i, a, s.b⟩

/-- matrix_utils.cc L297-314 `SseTranspose128x1024` (and L316-341, which copies in and out of it); `junk` is the
uninitialised contents of `a`, `b`. -/
def sse1024 (junk : (BitVec 128 × BitVec 128) × (BitVec 128 × BitVec 128)) (w : WideMat) : WideMat :=
  ((List.range 8).foldl (fun s i => (List.range 8).foldl (sseOuterX i) s) (⟨w, junk.1, junk.2⟩ : SseX)).w

/-- matrix_utils.cc L343-352 `MatrixTranspose128` built without `YACL_ENABLE_BMI2`. -/
def matrixTranspose128 (sse2 : Bool) (junk : (BitVec 128 × BitVec 128) × (BitVec 128 × BitVec 128)) (m : Mat) : Mat :=
  if sse2 then sseTranspose junk m else eklundhTranspose m

/-- matrix_utils.cc L354-360 `MatrixTranspose128x1024`. -/
def matrixTranspose1024 (sse2 : Bool) (junk : (BitVec 128 × BitVec 128) × (BitVec 128 × BitVec 128)) (w : WideMat) :
    WideMat :=
  if sse2 then sse1024 junk w else eklundh1024 w

end Yacl.Matrix
