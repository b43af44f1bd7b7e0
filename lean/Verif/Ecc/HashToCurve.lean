import Verif.Ecc.Weierstrass
import Verif.Ecc.Pocklington
import Verif.Crypto.BlockCipher

/-! Hashing to curves: yacl/crypto/ecc/hash_to_curve/{hash_to_curve_util,p256,p384,p521,curve25519}.cc.  Property C104.

The hash function is any function with digests of its size; `MPInt` is `Int`, its modular operations are those of `Vss`; `FromMagBytes` and `ToMagBytes` with
big endian are `beNat` and `beBytes`. `none` is an exception. -/
namespace Yacl.Ecc.H2C
open Vss (addMod subMod mulMod invertMod)
open BlockCipher (Byte Bytes beNat beBytes)

/-- hash/ssl_hash.cc: a hash algorithm. -/
structure Hash where
  size : Nat
  fn : Bytes → Bytes
  size_pos : 0 < size
  fn_len : ∀ x, (fn x).length = size

/-- hash/ssl_hash.cc L35-67: the object, with the bytes of all `Update` calls since `Reset`; `CumulativeHash` leaves it unchanged. -/
def hashUpdate (acc data : Bytes) : Bytes := acc ++ data
def hashCumulative (h : Hash) (acc : Bytes) : Bytes := h.fn acc
def hashReset : Bytes := []

/-- hash_to_curve_util.h `HashToCurveCtx`; the map of constants. -/
structure Ctx where
  keySize : Nat
  sInBytes : Nat
  hash : Hash
  aux : List (String × Int)

/-- `aux["k"]` gives a zero when absent; `aux.at("k")` throws. -/
def Ctx.aux! (c : Ctx) (k : String) : Int := (c.aux.lookup k).getD 0
def Ctx.at? (c : Ctx) (k : String) : Option Int := c.aux.lookup k

/-- hash_to_curve_util.cc L33-85, L86-103: the constants of the NIST curves and curve25519. The hash is a parameter. -/
def ctx256 (h : Hash) : Ctx := ⟨32, 64, h, [
  ("p", 0xffffffff00000001000000000000000000000000ffffffffffffffffffffffff),
  ("a", 0xffffffff00000001000000000000000000000000fffffffffffffffffffffffc),
  ("b", 0x5ac635d8aa3a93e7b3ebbd55769886bc651d06b0cc53b0f63bce3c3e27d2604b),
  ("z", 0xffffffff00000001000000000000000000000000fffffffffffffffffffffff5),
  ("c1", 0x3fffffffc0000000400000000000000000000000400000000000000000000000),
  ("n", 0xffffffff00000000ffffffffffffffffbce6faada7179e84f3b9cac2fc632551)]⟩
def ctx384 (h : Hash) : Ctx := ⟨48, 128, h, [
  ("p", 0xfffffffffffffffffffffffffffffffffffffffffffffffffffffffffffffffeffffffff0000000000000000ffffffff),
  ("a", 0xfffffffffffffffffffffffffffffffffffffffffffffffffffffffffffffffeffffffff0000000000000000fffffffc),
  ("b", 0xb3312fa7e23ee7e4988e056be3f82d19181d9c6efe8141120314088f5013875ac656398d8a2ed19d2a85c8edd3ec2aef),
  ("z", 0xfffffffffffffffffffffffffffffffffffffffffffffffffffffffffffffffeffffffff0000000000000000fffffff3),
  ("c1", 0x3fffffffffffffffffffffffffffffffffffffffffffffffffffffffffffffffbfffffffc00000000000000040000000)]⟩
def ctx521 (h : Hash) : Ctx := ⟨66, 128, h, [
  ("p", 0x01ffffffffffffffffffffffffffffffffffffffffffffffffffffffffffffffffffffffffffffffffffffffffffffffffffffffffffffffffffffffffffffffffff),
  ("a", 0x01fffffffffffffffffffffffffffffffffffffffffffffffffffffffffffffffffffffffffffffffffffffffffffffffffffffffffffffffffffffffffffffffffc),
  ("b", 0x0051953eb9618e1c9a1f929a21a0b68540eea2da725b99b315f3b8b489918ef109e156193951ec7e937b1652c0bd3bb1bf073573df883d2c34f1ef451fd46b503f00),
  ("z", 0x01fffffffffffffffffffffffffffffffffffffffffffffffffffffffffffffffffffffffffffffffffffffffffffffffffffffffffffffffffffffffffffffffffb),
  ("c1", 0x008000000000000000000000000000000000000000000000000000000000000000000000000000000000000000000000000000000000000000000000000000000000)]⟩
def ctx25519 (h : Hash) : Ctx := ⟨32, 128, h, [
  ("p", 0x7fffffffffffffffffffffffffffffffffffffffffffffffffffffffffffffed),
  ("a", 0x76d06),
  ("c2", 0x2b8324804fc1df0b2b4d00993dfbd7a72f431806ad2fe478c4ee1b274a0ea0b1),
  ("sqrtm1", 0x547cdb7fb03e20f4d4b2ff66c2042858d0bce7f952d01b873b11e4d8b5f15f3d),
  ("c4", 0xffffffffffffffffffffffffffffffffffffffffffffffffffffffffffffffd)]⟩

/-- hash_to_curve_util.cc L141-151 `MPIntToBytesWithPad` into a zeroed buffer of `keySize` bytes. -/
def toBytesPad (keySize : Nat) (v : Int) : Option Bytes := if v.toNat < 256 ^ keySize then some (beBytes keySize v.toNat) else none

/-- hash_to_curve_util.cc L161-173 `I2OSP`. -/
def i2osp (x xlen : Nat) : Option Bytes := if x < 256 ^ xlen then some (beBytes xlen x) else none

/-- hash_to_curve_util.cc L224-236: the loop, `k` rounds from round `i`. -/
def xmdLoop (h : Hash) (dstPrime b0 : Bytes) : Nat → Nat → Bytes → Bytes → Bytes
  | 0, _, _, ret => ret
  | k + 1, i, bi, ret =>
    let x := List.zipWith (· ^^^ ·) bi b0
    let acc := hashUpdate (hashUpdate (hashUpdate hashReset x) [BitVec.ofNat 8 i]) dstPrime
    let bi' := hashCumulative h acc
    xmdLoop h dstPrime b0 k (i + 1) bi' (ret ++ bi')

/-- hash_to_curve_util.cc L175-240 `ExpandMessageXmd`. -/
def expandMessageXmd (c : Ctx) (msg dst : Bytes) (len : Nat) : Option Bytes :=
  let h := c.hash
  let ell := (len + h.size - 1) / h.size
  if ell ≤ 255 ∧ len ≤ 65535 ∧ 16 ≤ dst.length ∧ dst.length ≤ 255 then
    (i2osp dst.length 1).bind fun dl =>
      let dstPrime := dst ++ dl
      let zPad := List.replicate c.sInBytes 0
      (i2osp len 2).bind fun lib =>
        let acc := hashUpdate (hashUpdate (hashUpdate (hashUpdate (hashUpdate hashReset zPad) msg) lib) [0]) dstPrime
        let b0 := hashCumulative h acc
        let acc := hashUpdate (hashUpdate (hashUpdate hashReset b0) [1]) dstPrime
        let b1 := hashCumulative h acc
        let ret := xmdLoop h dstPrime b0 (ell - 1) 2 b1 b1
        some (ret.take len ++ List.replicate (len - ret.length) 0)
  else none

/-- hash_to_curve_util.cc L242-268 `HashToField`. -/
def hashToField (c : Ctx) (msg dst : Bytes) (count l : Nat) : Option (List Bytes) :=
  (expandMessageXmd c msg dst (count * l)).bind fun u =>
    (List.range count).mapM fun i =>
      (c.at? "p").bind fun p => toBytesPad c.keySize ((beNat ((u.drop (l * i)).take l) : Int) % p)

/-- hash_to_curve_util.cc L270-283 `HashToScalar`. -/
def hashToScalar (c : Ctx) (msg dst : Bytes) (l : Nat) : Option Int :=
  (expandMessageXmd c msg dst l).bind fun u => (c.at? "n").map fun n => (beNat (u.take l) : Int) % n

/-- mp_int.cc `PowMod` (libtommath `mp_exptmod`) for exponents that are not negative, by repeated squaring. -/
def powMod (a e m : Int) : Int := (pw m.toNat (Nat.log2 e.toNat + 1) (a % m).toNat e.toNat : Nat)

/-- hash_to_curve_util.cc L285-297 `IsSquare`. -/
def isSquare (v m : Int) : Option Bool :=
  let t1 := subMod m 1 m
  (invertMod 2 m).map fun t2 =>
    let t3 := mulMod t1 t2 m
    let t4 := powMod v t3 m
    decide (t4 = 1 ∨ t4 = 0)

/-- hash_to_curve_util.cc L299-310 `Sgn0`, for values that are not negative. -/
def sgn0 (v : Int) : Bool := v % 2 ≠ 0

/-- hash_to_curve_util.cc L312-323 `Sqrt3m4`. -/
def sqrt3m4 (c : Ctx) (x : Int) : Int := powMod x (c.aux! "c1") (c.aux! "p")

/-- hash_to_curve_util.cc L352-374 `SqrtRatio`. -/
def sqrtRatio (c : Ctx) (u v : Int) : Option (Bool × Int) :=
  let p := c.aux! "p"
  (invertMod v p).bind fun r =>
    let r := mulMod r u p
    (isSquare r p).map fun b => if b then (b, sqrt3m4 c r) else (b, sqrt3m4 c (mulMod r (c.aux! "z") p))

/-- hash_to_curve_util.cc L376-465 `MapToCurveSSWU`. -/
def mapToCurveSSWU (c : Ctx) (ubuf : Bytes) : Option (Int × Int) :=
  let p := c.aux! "p"
  let A := c.aux! "a"
  let B := c.aux! "b"
  let Z := c.aux! "z"
  if ubuf.length = 0 then none else
  let u : Int := beNat ubuf
  let tv1 := mulMod u u p
  let tv1 := mulMod tv1 Z p
  let tv2 := mulMod tv1 tv1 p
  let tv2 := addMod tv2 tv1 p
  let tv3 := addMod tv2 1 p
  let tv3 := mulMod tv3 B p
  let tv4 := if tv2 ≠ 0 then subMod p tv2 p else Z
  let tv4 := mulMod tv4 A p
  let tv2 := mulMod tv3 tv3 p
  let tv6 := mulMod tv4 tv4 p
  let tv5 := mulMod A tv6 p
  let tv2 := addMod tv2 tv5 p
  let tv2 := mulMod tv2 tv3 p
  let tv6 := mulMod tv6 tv4 p
  let tv5 := mulMod B tv6 p
  let tv2 := addMod tv2 tv5 p
  let x := mulMod tv1 tv3 p
  (sqrtRatio c tv2 tv6).bind fun s =>
    let y := mulMod tv1 u p
    let y := mulMod y s.2 p
    let x := if s.1 then tv3 else x
    let y := if s.1 then s.2 else y
    let y := if sgn0 u = sgn0 y then y else subMod p y p
    (invertMod tv4 p).map fun r => (mulMod x r p, y)

/-- hash_to_curve_util.cc L472-549 `AffinePointAddNIST`; `%=` gives the least residue, so the tests for negative values never apply. -/
def nistAdd (P Q : AffinePoint) (p : Int) : Option AffinePoint :=
  if P.x = 0 ∧ P.y = 0 then some Q
  else if Q.x = 0 ∧ Q.y = 0 then some P
  else if P.x = Q.x ∧ P.y = Q.y then
    (invertMod (P.y * 2) p).map fun i =>
      let l := (P.x * P.x * 3 - 3) * i % p
      let x3 := (l * l - P.x - Q.x) % p
      ⟨x3, (l * (P.x - x3) - P.y) % p⟩
  else if Q.x - P.x = 0 then some ⟨0, 0⟩
  else
    (invertMod (Q.x - P.x) p).map fun i =>
      let l := (Q.y - P.y) * i % p
      let x3 := (l * l - P.x - Q.x) % p
      ⟨x3, (l * (P.x - x3) - P.y) % p⟩

/-- p256.cc L29-44, p384.cc L34-53, p521.cc L29-45: `EncodeToCurve` with `l` bytes per field element (48, 72, 98). -/
def encodeToCurve (c : Ctx) (l : Nat) (msg dst : Bytes) : Option AffinePoint :=
  if 16 ≤ dst.length ∧ dst.length ≤ 255 then
    (hashToField c msg dst 1 l).bind fun u => (mapToCurveSSWU c (u.getD 0 [])).map fun q => ⟨q.1, q.2⟩
  else none

/-- p256.cc L70-85, p384.cc L56-72, p521.cc L48-64: `HashToCurve`. -/
def hashToCurve (c : Ctx) (l : Nat) (msg dst : Bytes) : Option AffinePoint :=
  if 16 ≤ dst.length ∧ dst.length ≤ 255 then
    (hashToField c msg dst 2 l).bind fun u =>
      (mapToCurveSSWU c (u.getD 0 [])).bind fun q => (mapToCurveSSWU c (u.getD 1 [])).bind fun r =>
        (c.at? "p").bind fun p => nistAdd ⟨q.1, q.2⟩ ⟨r.1, r.2⟩ p
  else none

/-- p256.cc L90-97, p384.cc L74-81, p521.cc L66-73: `HashToScalar` of the curves. -/
def hashToScalarCurve (c : Ctx) (l : Nat) (msg dst : Bytes) : Option Int :=
  if 16 ≤ dst.length ∧ dst.length ≤ 255 then hashToScalar c msg dst l else none

/-! ### Curve25519 -/

/-- curve25519.cc L30-146 `MapToCurveG2`. -/
def mapToCurveG2 (c : Ctx) (ubuf : Bytes) : Option (Bytes × Bytes) :=
  let p := c.aux! "p"
  let A := c.aux! "a"
  let c2 := c.aux! "c2"
  let c4 := c.aux! "c4"
  let sqrtm1 := c.aux! "sqrtm1"
  if ubuf.length = 0 then none else
  let u : Int := beNat ubuf
  let tv1 := mulMod u u p
  let tv1 := mulMod tv1 2 p
  let xd := addMod tv1 1 p
  let x1n := -A
  let tv2 := mulMod xd xd p
  let gxd := mulMod tv2 xd p
  let gx1 := mulMod A tv1 p
  let gx1 := mulMod gx1 x1n p
  let gx1 := addMod gx1 tv2 p
  let gx1 := mulMod gx1 x1n p
  let tv3 := mulMod gxd gxd p
  let tv2 := mulMod tv3 tv3 p
  let tv3 := mulMod tv3 gxd p
  let tv3 := mulMod tv3 gx1 p
  let tv2 := mulMod tv2 tv3 p
  let y11 := powMod tv2 c4 p
  let y11 := mulMod y11 tv3 p
  let y12 := mulMod y11 sqrtm1 p
  let tv2 := mulMod y11 y11 p
  let tv2 := mulMod tv2 gxd p
  let y1 := if tv2 = gx1 then y11 else y12
  let x2n := mulMod x1n tv1 p
  let y21 := mulMod y11 u p
  let y21 := mulMod y21 c2 p
  let y22 := mulMod y21 sqrtm1 p
  let gx2 := mulMod gx1 tv1 p
  let tv2 := mulMod y21 y21 p
  let tv2 := mulMod tv2 gxd p
  let y2 := if tv2 = gx2 then y21 else y22
  let tv2 := mulMod y1 y1 p
  let tv2 := mulMod tv2 gxd p
  let e3 : Bool := tv2 = gx1
  let xn := if e3 then x1n else x2n
  let y := if e3 then y1 else y2
  let e4 := sgn0 y
  let y := if e3 ^^ e4 then -y else y
  let y := if y < 0 then addMod y p p else y
  (invertMod xd p).bind fun xd1 =>
    let xn := mulMod xn xd1 p
    (toBytesPad c.keySize xn).bind fun xv => (toBytesPad c.keySize y).map fun yv => (xv, yv)

/-- curve25519.cc L157-211 `PointAdd`. -/
def pointAdd (c : Ctx) (px py qx qy : Bytes) : Option (Bytes × Bytes) :=
  let p := c.aux! "p"
  let A := c.aux! "a"
  if px ≠ qx ∨ py ≠ qy then
    let px : Int := beNat px
    let py : Int := beNat py
    let qx : Int := beNat qx
    let qy : Int := beNat qy
    let s1 := subMod qx px p
    let s2 := subMod qy py p
    (invertMod s1 p).bind fun d =>
      let l := mulMod s2 d p
      let l2 := mulMod l l p
      let t1 := subMod l2 A p
      let t2 := subMod t1 px p
      let tx := subMod t2 qx p
      let l3 := mulMod l2 l p
      let t1 := mulMod px 2 p
      let t2 := addMod t1 qx p
      let t1 := addMod t2 A p
      let t2 := mulMod t1 l p
      let t1 := subMod t2 l3 p
      let ty := subMod t1 py p
      (toBytesPad c.keySize tx).bind fun xv => (toBytesPad c.keySize ty).map fun yv => (xv, yv)
  else none

/-- curve25519.cc L214-257 `PointDbl`. -/
def pointDbl (c : Ctx) (px py : Bytes) : Option (Bytes × Bytes) :=
  let p := c.aux! "p"
  let A := c.aux! "a"
  let px : Int := beNat px
  let py : Int := beNat py
  let px2 := mulMod px px p
  let px3 := mulMod px2 3 p
  let ax := mulMod px A p
  let ax2 := mulMod ax 2 p
  let px2 := addMod px3 ax2 p
  let ax := addMod px2 1 p
  let y2 := mulMod py 2 p
  (invertMod y2 p).bind fun d =>
    let l := mulMod ax d p
    let l2 := powMod l 2 p
    let l3 := powMod l 3 p
    let xt1 := subMod l2 A p
    let x2 := mulMod px 2 p
    let tx := subMod xt1 x2 p
    let x3 := mulMod px 3 p
    let xt1 := addMod x3 A p
    let d := mulMod xt1 l p
    let xt1 := subMod d l3 p
    let ty := subMod xt1 py p
    (toBytesPad c.keySize tx).bind fun xv => (toBytesPad c.keySize ty).map fun yv => (xv, yv)

/-- curve25519.cc L259-281 `PointClearCofactor`. -/
def clearCofactor (c : Ctx) (px py : Bytes) : Option (Bytes × Bytes) :=
  (pointDbl c px py).bind fun a => (pointDbl c a.1 a.2).bind fun b => pointDbl c b.1 b.2

/-- hash_to_curve_util.cc L130-139 `DeserializeMPInt`, big endian. -/
def deserialize (buf : Bytes) (keySize : Nat) : Option Int := if buf.length = keySize then some (beNat buf) else none

/-- curve25519.cc L283-312 `HashToCurveCurve25519`. -/
def hashToCurve25519 (c : Ctx) (msg dst : Bytes) : Option AffinePoint :=
  if 16 ≤ dst.length ∧ dst.length ≤ 255 then
    (hashToField c msg dst 2 48).bind fun u =>
      (mapToCurveG2 c (u.getD 0 [])).bind fun q0 => (mapToCurveG2 c (u.getD 1 [])).bind fun q1 =>
        (pointAdd c q0.1 q0.2 q1.1 q1.2).bind fun a => (clearCofactor c a.1 a.2).bind fun b =>
          (deserialize b.1 c.keySize).bind fun x => (deserialize b.2 c.keySize).map fun y => ⟨x, y⟩
  else none

/-- curve25519.cc L314-335 `EncodeToCurveCurve25519`. -/
def encodeToCurve25519 (c : Ctx) (msg dst : Bytes) : Option AffinePoint :=
  if 16 ≤ dst.length ∧ dst.length ≤ 255 then
    (hashToField c msg dst 1 48).bind fun u =>
      (mapToCurveG2 c (u.getD 0 [])).bind fun q => (clearCofactor c q.1 q.2).bind fun b =>
        (deserialize b.1 c.keySize).bind fun x => (deserialize b.2 c.keySize).map fun y => ⟨x, y⟩
  else none

end Yacl.Ecc.H2C
