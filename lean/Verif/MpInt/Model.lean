/-
Model of the byte level of `MPInt`: bit counts, bit access, the magnitude,
two's complement and signed serialisation formats, conversions from and to
built-in integers, and the wrappers that round quotients and reduce.

/repo/yacl/math/mpint/tommath_ext_features.cc, tommath_ext_types.cc, mp_int.cc.

The number of bits per digit (`MP_DIGIT_BIT`, 60 in the build) is the parameter
`D`.  A digit is stored in a 64-bit word; words are `Nat` below `2^64` and every
left shift is reduced modulo `2^64`.  `int`/`size_t` positions are `Nat`: sizes
at which a 32-bit `int` bit index overflows are outside the model.
-/

namespace Yacl.MPInt

/-- libtommath's `mp_int` {used, alloc, sign, dp} (described in mp_int.cc L51-56):
    `dp` is the allocated digit array, so `alloc = dp.length`. -/
structure Mp where
  neg : Bool
  used : Nat
  dp : List Nat
deriving DecidableEq, Repr

inductive Endian | little | big
deriving DecidableEq, Repr

/-- 64-bit left shift. -/
def shl64 (x r : Nat) : Nat := (x <<< r) % 2 ^ 64

/-- libtommath `mp_grow`: at least `n` digits, new ones zero. -/
def grow (n : Nat) (dp : List Nat) : List Nat := dp ++ List.replicate (n - dp.length) 0

/-- libtommath `mp_clamp`: drop leading zero digits ... -/
def clampUsed (dp : List Nat) : Nat → Nat
  | 0 => 0
  | u + 1 => if dp.getD u 0 = 0 then clampUsed dp u else u + 1

/-- ... and make zero non-negative. -/
def clamp (a : Mp) : Mp :=
  let u := clampUsed a.dp a.used
  { neg := if u = 0 then false else a.neg, used := u, dp := a.dp }

/-- libtommath `mp_zero`. -/
def zero (a : Mp) : Mp := { neg := false, used := 0, dp := a.dp.map fun _ => 0 }

/-- tommath_ext_features.cc L264-272. -/
def bitPatternToLog2 : List Int :=
  [0,  48, -1, -1, 31, -1, 15, 51, -1, 63, 5,  -1, -1, -1, 19, -1,
   23, 28, -1, -1, -1, 40, 36, 46, -1, 13, -1, -1, -1, 34, -1, 58,
   -1, 60, 2,  43, 55, -1, -1, -1, 50, 62, 4,  -1, 18, 27, -1, 39,
   45, -1, -1, 33, 57, -1, 1,  54, -1, 49, -1, 17, -1, -1, 32, -1,
   53, -1, 16, -1, -1, 52, -1, -1, -1, 64, 6,  7,  8,  -1, 9,  -1,
   -1, -1, 20, 10, -1, -1, 24, -1, 29, -1, -1, 21, -1, 11, -1, -1,
   41, -1, 25, 37, -1, 47, -1, 30, 14, -1, -1, -1, -1, 22, -1, -1,
   35, 12, -1, -1, -1, 59, 42, -1, -1, 61, 3,  26, 38, 44, -1, 56]

/-- tommath_ext_features.cc L274-279: copy the top bit into every lower one. -/
def smear (v : Nat) : Nat :=
  let v := v ||| v >>> 1
  let v := v ||| v >>> 2
  let v := v ||| v >>> 4
  let v := v ||| v >>> 8
  let v := v ||| v >>> 16
  v ||| v >>> 32

/-- `count_bits_debruijn` (tommath_ext_features.cc L263-287). -/
def countBitsWord (v : Nat) : Int :=
  bitPatternToLog2.getD ((smear v * 0x6c04f118e9966f6b % 2 ^ 64) >>> 57) 0

/-- `mpx_count_bits_fast` (tommath_ext_features.cc L289-295); `MPInt::BitCount`. -/
def countBits (D : Nat) (a : Mp) : Int :=
  if a.used = 0 then 0
  else (((a.used - 1) * D : Nat) : Int) + countBitsWord (a.dp.getD (a.used - 1) 0)

/-- Where the byte of weight `256^pos` goes in a field of `n` bytes
    (tommath_ext_features.cc L323-327, L369-373). -/
def place (e : Endian) (n pos : Nat) : Nat :=
  match e with
  | .little => pos
  | .big => n - 1 - pos

/-- Inner byte loop of `mpx_to_mag_bytes` (tommath_ext_features.cc L368-376). -/
def drain (e : Endian) (n : Nat) (buf : List Nat) (pos cache rem : Nat) :
    List Nat × Nat × Nat × Nat :=
  if 8 ≤ rem then
    drain e n (buf.set (place e n pos) (cache &&& 255)) (pos + 1) (cache >>> 8) (rem - 8)
  else (buf, pos, cache, rem)
termination_by rem

/-- Digits but the last (tommath_ext_features.cc L363-377). -/
def magDigits (D : Nat) (e : Endian) (n : Nat) :
    List Nat → List Nat → Nat → Nat → Nat → List Nat × Nat × Nat × Nat
  | [], buf, pos, cache, rem => (buf, pos, cache, rem)
  | d :: ds, buf, pos, cache, rem =>
      let r := drain e n buf pos (cache ||| shl64 d rem) (rem + D)
      magDigits D e n ds r.1 r.2.1 r.2.2.1 r.2.2.2

/-- The bytes of the last digit (tommath_ext_features.cc L381-389). -/
def magLast (e : Endian) (n : Nat) (buf : List Nat) (pos cache : Nat) : List Nat × Nat :=
  if h : 0 < cache then
    magLast e n (buf.set (place e n pos) (cache &&& 255)) (pos + 1) (cache >>> 8)
  else (buf, pos)
termination_by cache
decreasing_by
  rw [Nat.shiftRight_eq_div_pow]
  exact Nat.div_lt_self h (by decide)

/-- `mpx_mag_bytes_size` (tommath_ext_features.cc L343-345). -/
def magBytesSize (D : Nat) (a : Mp) : Nat := ((countBits D a).toNat + 8 - 1) / 8

/-- `mpx_to_mag_bytes` (tommath_ext_features.cc L347-392): the buffer afterwards and
    the number of bytes written; `none` is the exception for a buffer too small. -/
def toMagBytes (D : Nat) (a : Mp) (buf : List Nat) (e : Endian) : Option (List Nat × Nat) :=
  if a.used = 0 then some (buf, 0)
  else
    let n := magBytesSize D a
    if buf.length < n then none
    else
      let r := magDigits D e n (a.dp.take (a.used - 1)) buf 0 0 0
      some (magLast e n r.1 r.2.1 (r.2.2.1 ||| shl64 (a.dp.getD (a.used - 1) 0) r.2.2.2))

/-- `MPInt::ToMagBytes(Endian)` (mp_int.cc L853-858); `fill` is what a new buffer
    holds. -/
def MPInt_toMagBytes (D : Nat) (fill : Nat) (a : Mp) (e : Endian) : Option (List Nat) :=
  (toMagBytes D a (List.replicate (magBytesSize D a) fill) e).map (·.1)

/-- The bytes of a buffer in the order they are read, in increasing weight
    (tommath_ext_features.cc L409-410). -/
def leBytes (e : Endian) (buf : List Nat) : List Nat :=
  match e with
  | .little => buf
  | .big => buf.reverse

/-- Byte loop of `mpx_from_mag_bytes` (tommath_ext_features.cc L406-424) over the
    bytes in increasing weight: the digits written. -/
def readDigits (D : Nat) : List Nat → Nat → Nat → List Nat
  | [], cache, _ => if 0 < cache then [cache &&& (2 ^ D - 1)] else []
  | b :: bs, cache, cb =>
      let cache := cache ||| shl64 b cb
      let cb := cb + 8
      if D ≤ cb then (cache &&& (2 ^ D - 1)) :: readDigits D bs (cache >>> D) (cb - D)
      else readDigits D bs cache cb

/-- `mpx_from_mag_bytes` (tommath_ext_features.cc L394-431) into an existing number:
    the digits are written over the old ones, those up to the old `used` are
    cleared, and the result is clamped. -/
def fromMagBytes (D : Nat) (a : Mp) (buf : List Nat) (e : Endian) : Mp :=
  let a := if buf.length = 0 then zero a else a
  let total := (buf.length * 8 + D - 1) / D
  let dp := grow total a.dp
  let ds := readDigits D (leBytes e buf) 0 0
  let dp := ds ++ List.replicate (a.used - ds.length) 0 ++ dp.drop (max ds.length a.used)
  clamp { neg := false, used := ds.length, dp := dp }

/-- Inner byte loop of `mpx_to_bytes` (tommath_ext_features.cc L322-330). -/
def drainTo (e : Endian) (n : Nat) (buf : List Nat) (pos cache rem : Nat) :
    List Nat × Nat × Nat × Nat :=
  if 8 ≤ rem ∧ pos < n then
    drainTo e n (buf.set (place e n pos) (cache &&& 255)) (pos + 1) (cache >>> 8) (rem - 8)
  else (buf, pos, cache, rem)
termination_by rem

/-- Next digit of the two's complement expansion and the new carry
    (tommath_ext_features.cc L311-317); `~` on a 64-bit word. -/
def nextDigit (D : Nat) (a : Mp) (idx ac : Nat) : Nat × Nat :=
  if a.neg then
    let ac := ac + (if a.used ≤ idx then 2 ^ D - 1
                    else (2 ^ 64 - 1 - a.dp.getD idx 0) &&& (2 ^ D - 1))
    (ac &&& (2 ^ D - 1), ac >>> D)
  else (if a.used ≤ idx then 0 else a.dp.getD idx 0, ac)

/-- Outer loop of `mpx_to_bytes` (tommath_ext_features.cc L307-340).  `fuel` bounds the
    iterations; every iteration writes at least one byte, so the field length is
    enough. -/
def toBytesLoop (D : Nat) (e : Endian) (n : Nat) (a : Mp) :
    Nat → Nat → Nat → List Nat → Nat → Nat → Nat → List Nat
  | 0, _, _, buf, _, _, _ => buf
  | fuel + 1, idx, ac, buf, pos, cache, rem =>
      if pos < n then
        let x := nextDigit D a idx ac
        let r := drainTo e n buf pos (cache ||| shl64 x.1 rem) (rem + D)
        let buf := if 0 < r.2.2.1 ∧ r.2.1 < n then
            r.1.set (place e n r.2.1) (r.2.2.1 &&& 255) else r.1
        toBytesLoop D e n a fuel (idx + 1) x.2 buf r.2.1 r.2.2.1 r.2.2.2
      else buf

/-- `mpx_to_bytes` (tommath_ext_features.cc L297-341), `MPInt::ToBytes`. -/
def toBytes (D : Nat) (a : Mp) (buf : List Nat) (n : Nat) (e : Endian) : List Nat :=
  toBytesLoop D e n a n 0 1 buf 0 0 0

/-- `mpx_get_bit` (tommath_ext_features.cc L473-480). -/
def getBit (D : Nat) (a : Mp) (index : Nat) : Nat :=
  if a.used ≤ index / D then 0
  else (a.dp.getD (index / D) 0 >>> (index % D)) &&& 1

/-- `mpx_set_bit` (tommath_ext_features.cc L482-498). -/
def setBit (D : Nat) (a : Mp) (index value : Nat) : Mp :=
  let limb := index / D
  let dp := if a.dp.length ≤ limb then
      a.dp.take a.used ++ List.replicate (limb + 1 - a.used) 0 ++
        (grow (limb + 1) a.dp).drop (limb + 1)
    else a.dp
  let used := if a.used ≤ limb then limb + 1 else a.used
  let loc := shl64 1 (index % D)
  let d := dp.getD limb 0
  let dp := dp.set limb (if value ≠ 0 then d ||| loc else d &&& (2 ^ 64 - 1 - loc))
  clamp { neg := a.neg, used := used, dp := dp }

/-- `mpx_serialize_size` (tommath_ext_features.cc L444-446). -/
def serializeSize (D : Nat) (a : Mp) : Nat := (countBits D a).toNat / 8 + 1

/-- `mpx_serialize` (tommath_ext_features.cc L448-463); `none` is an exception. -/
def serialize (D : Nat) (a : Mp) (buf : List Nat) : Option (List Nat × Nat) :=
  let total := serializeSize D a
  if buf.length < total then none
  else
    match toMagBytes D a (buf.set (total - 1) 0) .little with
    | none => none
    | some (buf, v) =>
        if total = v ∨ total = v + 1 then
          let sign := (if a.neg then 1 else 0) <<< 7
          some (buf.set (total - 1) (buf.getD (total - 1) 0 ||| sign), total)
        else none

/-- `MPInt::Serialize()` (mp_int.cc L824-829). -/
def MPInt_serialize (D : Nat) (fill : Nat) (a : Mp) : Option (List Nat) :=
  (serialize D a (List.replicate (serializeSize D a) fill)).map (·.1)

/-- `mpx_deserialize` (tommath_ext_features.cc L465-471), `MPInt::Deserialize` into an
    existing number. -/
def deserialize (D : Nat) (a : Mp) (buf : List Nat) : Option Mp :=
  if buf.length = 0 then none
  else
    let b := fromMagBytes D a buf .little
    let b := { b with neg := decide (buf.getD (buf.length - 1) 0 >>> 7 = 1) }
    some (setBit D b (buf.length * 8 - 1) 0)

/-- Digits written by `MPX_SET_UNSIGNED` (tommath_ext_types.cc L58-65) for a type of `w`
    bits. -/
def setDigits (D w : Nat) (b : Nat) : List Nat :=
  if _h : b = 0 then []
  else (b &&& (2 ^ D - 1)) ::
    (if w ≤ D then [] else if _h2 : b >>> D < b then setDigits D w (b >>> D) else [])
termination_by b

/-- `mpx_set_u8 .. mpx_set_u128` (tommath_ext_types.cc L55-69); `b` is the value of an
    unsigned `w`-bit argument. -/
def setUnsigned (D w : Nat) (a : Mp) (b : Nat) : Mp :=
  let dp := grow ((w + D - 1) / D) a.dp
  let ds := setDigits D w b
  { neg := false, used := ds.length, dp := ds ++ List.replicate (dp.length - ds.length) 0 }

/-- `mpx_set_i8 .. mpx_set_i128` (tommath_ext_types.cc L71-77); `b` is the value of a
    signed `w`-bit argument, `-(utype)b` is taken modulo `2^w`. -/
def setSigned (D w : Nat) (a : Mp) (b : Int) : Mp :=
  let u := setUnsigned D w a (if b < 0 then (-b % 2 ^ w) else b % 2 ^ w).toNat
  if b < 0 then { u with neg := true } else u

/-- Loop of `MPX_GET_MAG` (tommath_ext_types.cc L86-92) for types wider than a digit. -/
def getLoop (D w : Nat) (dp : List Nat) : Nat → Nat → Nat
  | 0, res => res
  | i + 1, res => getLoop D w dp i ((res <<< D) % 2 ^ w ||| dp.getD i 0 % 2 ^ w)

/-- `mpx_get_mag_u8 .. mpx_get_mag_u128` (tommath_ext_types.cc L79-95). -/
def getMag (D w : Nat) (a : Mp) : Nat :=
  let i := min a.used ((w + D - 1) / D)
  if i = 0 then 0
  else if w ≤ D then a.dp.getD (i - 1) 0 % 2 ^ w
  else getLoop D w a.dp i 0

/-- Reading a `w`-bit word as a signed value. -/
def asSigned (w : Nat) (x : Int) : Int :=
  let r := x % 2 ^ w
  if r < 2 ^ (w - 1) then r else r - 2 ^ w

/-- `mpx_get_i8 .. mpx_get_i128` (tommath_ext_types.cc L97-101): `-(type)res`, narrowed
    again on return.  For 128 bits the negation of the most negative value is a
    signed overflow, which the model wraps. -/
def getSigned (D w : Nat) (a : Mp) : Int :=
  let res := asSigned w (getMag D w a)
  asSigned w (if a.neg then -res else res)

/-- `mpx_rand_bits` (tommath_ext_features.cc L227-254); `words` are the random 64-bit
    words read. -/
def randBits (D : Nat) (bits : Nat) (words : List Nat) : Mp :=
  if bits = 0 then ⟨false, 0, []⟩
  else
    let digits := (bits + D - 1) / D
    let dp := (words.take digits).map (· &&& (2 ^ D - 1))
    let dp := if 0 < bits % D then
        dp.set (digits - 1) (dp.getD (digits - 1) 0 &&& (shl64 1 (bits % D) - 1)) else dp
    clamp ⟨false, digits, dp⟩

/-- Square-and-multiply over one digit, all `k` bits (mp_int.h L401-408). -/
def powFull {T : Type} (mul : T → T → T) : Nat → Nat → T → T → T × T
  | 0, _, res, s => (res, s)
  | k + 1, e, res, s =>
      powFull mul k (e >>> 1) (if e &&& 1 = 1 then mul res s else res) (mul s s)

/-- All digits but the last (mp_int.h L400-409). -/
def powDigits {T : Type} (mul : T → T → T) (D : Nat) : List Nat → T → T → T × T
  | [], res, s => (res, s)
  | e :: es, res, s =>
      let r := powFull mul D e res s
      powDigits mul D es r.1 r.2

/-- The last digit (mp_int.h L412-421). -/
def powLast {T : Type} (mul : T → T → T) (e : Nat) (res s : T) : T :=
  if h : e = 0 then res
  else
    let res := if e &&& 1 = 1 then mul res s else res
    powLast mul (e >>> 1) res (if e >>> 1 ≠ 0 then mul s s else s)
termination_by e
decreasing_by
  rw [Nat.shiftRight_eq_div_pow]
  exact Nat.div_lt_self (by omega) (by decide)

/-- `MPInt::SlowCustomPow` (mp_int.h L389-425); `none` is the exception for a negative
    scalar. -/
def slowCustomPow {T : Type} (mul : T → T → T) (identity base : T) (D : Nat) (k : Mp) :
    Option T :=
  if k.neg then none
  else if k.used = 0 then some identity
  else
    let r := powDigits mul D (k.dp.take (k.used - 1)) identity base
    some (powLast mul (k.dp.getD (k.used - 1) 0 &&& (2 ^ D - 1)) r.1 r.2)

end Yacl.MPInt
