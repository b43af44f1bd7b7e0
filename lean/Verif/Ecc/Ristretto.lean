import Verif.Ecc.HashToCurve

/-! The Ristretto255 and X25519 groups of libsodium: yacl/crypto/ecc/libsodium/{ristretto255_group,x25519_group,sodium_factory}.cc and
yacl/crypto/ecc/hash_to_curve/ristretto255.cc.  Property C133.

The functions of libsodium are a parameter (`RLib`, `XLib`); what libsodium documents about them is the contract of the properties. Points are their 32 bytes.
`MPInt` is `Int`. `none` is an exception. -/
namespace Yacl.Ecc.Sodium
open BlockCipher (Byte Bytes beNat beBytes)
open H2C (Hash Ctx expandMessageXmd)

/-- libsodium/sodium_factory.cc L33-50: the order of all three groups, 2^252 + 0x14def9dea2f79cd65812631a5cf5d3ed. -/
def order : Nat := 2 ^ 252 + 0x14def9dea2f79cd65812631a5cf5d3ed

/-- mp_int.h `FromMagBytes` and `ToBytes` with `Endian::little`. -/
def leNat (b : Bytes) : Nat := beNat b.reverse
def leBytes (k v : Nat) : Bytes := (beBytes k v).reverse

/-- ec_point.h `EcPoint`: a variant; the libsodium groups use the 32-byte array, `other` stands for all other alternatives. -/
inductive EcPoint where
  | array32 (b : Bytes)
  | other
deriving DecidableEq

/-- crypto_core_ristretto255.h and crypto_scalarmult_ristretto255.h. `none` is the return value -1; `base` has its return value ignored by the caller. -/
structure RLib where
  add : Bytes → Bytes → Option Bytes
  sub : Bytes → Bytes → Option Bytes
  mul : Bytes → Bytes → Option Bytes
  base : Bytes → Bytes
  valid : Bytes → Bool
  fromHash : Bytes → Bytes
  scalarReduce : Bytes → Bytes
  sha512 : Hash

/-- ristretto255_group.cc L57-61 `MpIntToScalar`. -/
def scalar (k : Int) : Bytes := leBytes 32 (k % order).toNat

/-- ristretto255_group.cc L63-69 `CastBytes`: `std::get` throws for other alternatives. -/
def cast : EcPoint → Option Bytes
  | .array32 b => some b
  | .other => none

/-- ristretto255_group.cc L53-54: `inf_`. -/
def inf : Bytes := List.replicate 32 0

/-- ristretto255_group.cc L195-203 `IsInfinity`. -/
def isInfinity (p : EcPoint) : Option Bool := (cast p).map fun b => b.all (· = 0)

/-- ristretto255_group.cc L73-79 `Add`; L81-87 `AddInplace` writes the same value through a temporary. -/
def add (L : RLib) (p q : EcPoint) : Option EcPoint := (cast p).bind fun a => (cast q).bind fun b => (L.add a b).map .array32
def addInplace (L : RLib) (p q : EcPoint) : Option EcPoint := (cast p).bind fun a => (cast q).bind fun b => (L.add a b).map .array32
/-- ristretto255_group.cc L89-103 `Sub`, `SubInplace`. -/
def sub (L : RLib) (p q : EcPoint) : Option EcPoint := (cast p).bind fun a => (cast q).bind fun b => (L.sub a b).map .array32
def subInplace (L : RLib) (p q : EcPoint) : Option EcPoint := (cast p).bind fun a => (cast q).bind fun b => (L.sub a b).map .array32
/-- ristretto255_group.cc L105-113 `Double`, `DoubleInplace`. -/
def double (L : RLib) (p : EcPoint) : Option EcPoint := add L p p
def doubleInplace (L : RLib) (p : EcPoint) : Option EcPoint := (cast p).bind fun a => (L.add a a).map .array32
/-- ristretto255_group.cc L115-122 `MulBase`. -/
def mulBase (L : RLib) (k : Int) : EcPoint := .array32 (L.base (scalar k))
/-- ristretto255_group.cc L52, L71 `GetGenerator`. -/
def generator (L : RLib) : EcPoint := mulBase L 1
/-- ristretto255_group.cc L124-139 `Mul`. -/
def mul (L : RLib) (p : EcPoint) (k : Int) : Option EcPoint :=
  (isInfinity p).bind fun z => if z then some (.array32 inf) else
    (cast p).map fun a => match L.mul (scalar k) a with
      | none => .array32 inf
      | some r => .array32 r
/-- ristretto255_group.cc L141-156 `MulInplace`. -/
def mulInplace (L : RLib) (p : EcPoint) (k : Int) : Option EcPoint :=
  (isInfinity p).bind fun z => if z then some p else
    (cast p).map fun a => match L.mul (scalar k) a with
      | none => .array32 inf
      | some r => .array32 r
/-- ristretto255_group.cc L158-163 `MulDoubleBase`. -/
def mulDoubleBase (L : RLib) (k1 k2 : Int) (p : EcPoint) : Option EcPoint := (mul L p k2).bind fun q => addInplace L (mulBase L k1) q
/-- ristretto255_group.cc L165-170 `Negate`, L172-181 `NegateInplace`. -/
def negate (L : RLib) (p : EcPoint) : Option EcPoint :=
  (isInfinity p).bind fun z => if z then some p else sub L (.array32 inf) p
def negateInplace (L : RLib) (p : EcPoint) : Option EcPoint :=
  (isInfinity p).bind fun z => if z then some p else (cast p).bind fun a => (L.sub inf a).map .array32
/-- ristretto255_group.cc L183-188 `GetAffinePoint`. -/
def getAffine (p : EcPoint) : Option (Int × Int) := (cast p).map fun a => ((leNat a : Int), 0)
/-- ristretto255_group.cc L190-193 `IsInCurveGroup`. -/
def isInCurveGroup (L : RLib) (p : EcPoint) : Option Bool :=
  (isInfinity p).bind fun z => if z then some true else (cast p).map fun a => L.valid a
/-- ristretto255_group.cc L205-209 `CopyPoint`. -/
def copyPoint (p : EcPoint) : Option EcPoint := (cast p).map .array32
/-- ristretto255_group.cc L211-218 `HashPoint`: the loop from index `i`. -/
def hashLoop : Bytes → Nat → BitVec 64 → BitVec 64
  | [], _, h => h
  | b :: bs, i, h => hashLoop bs (i + 1) (h ^^^ (b.setWidth 64 <<< (i % 8 * 8)))
def hashPoint (p : EcPoint) : Option (BitVec 64) := (cast p).map fun b => hashLoop b 0 0
/-- ristretto255_group.cc L220-222 `PointEqual`. -/
def pointEqual (p q : EcPoint) : Option Bool := (cast p).bind fun a => (cast q).map fun b => decide (a = b)

/-- ristretto255_group.cc L224-234 `SerializePoint` to a new or resized buffer, whatever the format. -/
def serialize (p : EcPoint) : Option Bytes := cast p
/-- ristretto255_group.cc L243-249 `SerializePoint` into a buffer of the caller: the new contents. -/
def serializeInto (p : EcPoint) (buf : Bytes) : Option Bytes :=
  if 32 ≤ buf.length then (cast p).map fun a => a ++ buf.drop 32 else none
/-- ristretto255_group.cc L251-262 `DeserializePoint`, whatever the format. -/
def deserialize (L : RLib) (buf : Bytes) : Option EcPoint :=
  if 32 ≤ buf.length then
    let p := EcPoint.array32 (buf.take 32)
    (isInCurveGroup L p).bind fun ok => if ok then some p else none
  else none

/-- hash_to_curve_util.cc L141-154: the context "Ristretto255"; only the hash and the block size are read. -/
def ctx (h : Hash) : Ctx := ⟨32, 128, h, []⟩

/-- hash_to_curve/ristretto255.cc L41-44 `CheckDstSize`. -/
def dstOk (dst : Bytes) : Bool := 16 ≤ dst.length && dst.length ≤ 255
/-- hash_to_curve/ristretto255.cc L48-59 `EncodeToCurveRistretto255`. -/
def encodeToCurve (L : RLib) (msg dst : Bytes) : Option EcPoint :=
  if dstOk dst then (expandMessageXmd (ctx L.sha512) msg dst 64).map fun u => .array32 (L.fromHash u) else none
/-- hash_to_curve/ristretto255.cc L61-76 `HashToCurveRistretto255`. -/
def hashToCurveRo (L : RLib) (msg dst : Bytes) : Option EcPoint :=
  if dstOk dst then (expandMessageXmd (ctx L.sha512) msg dst 128).bind fun u =>
    let q0 := L.fromHash (u.take 64)
    let q1 := L.fromHash (u.drop 64)
    (L.add q0 q1).map .array32
  else none
/-- hash_to_curve/ristretto255.cc L78-92 `HashToScalarRistretto255`. -/
def hashToScalarR (L : RLib) (msg dst : Bytes) : Option Int :=
  if dstOk dst then (expandMessageXmd (ctx L.sha512) msg dst 64).map fun u => (leNat (L.scalarReduce u) : Int) else none

/-- ristretto255_group.cc L36-41: the default tags. -/
def dstRo : Bytes := "QUUX-V01-CS02-with-ristretto255_XMD:SHA-512_R255MAP_RO_".toList.map fun c => BitVec.ofNat 8 c.toNat
def dstNu : Bytes := "QUUX-V01-CS02-with-ristretto255_XMD:SHA-512_R255MAP_NU_".toList.map fun c => BitVec.ofNat 8 c.toNat
def dstScalar : Bytes := "QUUX-V01-CS02-with-ristretto255_XMD:SHA-512_R255MAP_".toList.map fun c => BitVec.ofNat 8 c.toNat

/-- ecc_spi.h L80-121 `HashToCurveStrategy`: the strategies these groups name; `unnamed` stands for each of the others. -/
inductive Strategy where
  | autonomous | hashAsPointX_SHA2 | ell2Ro | ell2Nu | r255Ro | r255Nu | r255Scalar | unnamed
deriving DecidableEq

/-- ristretto255_group.cc L264-294 `HashToCurve`. -/
def hashToCurve (L : RLib) (s : Strategy) (str dst : Bytes) : Option EcPoint :=
  match s with
  | .r255Ro => hashToCurveRo L str (if dst.isEmpty then dstRo else dst)
  | .r255Nu => encodeToCurve L str (if dst.isEmpty then dstNu else dst)
  | _ => some (.array32 (L.fromHash (L.sha512.fn (dst ++ str))))

/-- ristretto255_group.cc L296-320 `HashToScalar`. -/
def hashToScalar (L : RLib) (s : Strategy) (str dst : Bytes) : Option Int :=
  match s with
  | .r255Scalar => hashToScalarR L str (if dst.isEmpty then dstScalar else dst)
  | _ => some (leNat (L.scalarReduce (L.sha512.fn (dst ++ str))))

/-! ### Programs: points in variables, the calls of the group, in place or not -/

inductive Op where
  | add (d a b : Nat) | addIn (d b : Nat) | sub (d a b : Nat) | subIn (d b : Nat)
  | double (d a : Nat) | doubleIn (d : Nat) | mulBase (d : Nat) (k : Int) | mul (d a : Nat) (k : Int) | mulIn (d : Nat) (k : Int)
  | mulDoubleBase (d : Nat) (k1 k2 : Int) (a : Nat) | negate (d a : Nat) | negateIn (d : Nat)
  | copy (d a : Nat) | viaBytes (d a : Nat) | generator (d : Nat) | hash (d : Nat) (s : Strategy) (str dst : Bytes)

/-- One call of a caller's program on variables holding points. Arguments may name the same variable. -/
def step (L : RLib) (st : Nat → EcPoint) : Op → Option (Nat → EcPoint)
  | .add d a b => (add L (st a) (st b)).map (Function.update st d)
  | .addIn d b => (addInplace L (st d) (st b)).map (Function.update st d)
  | .sub d a b => (sub L (st a) (st b)).map (Function.update st d)
  | .subIn d b => (subInplace L (st d) (st b)).map (Function.update st d)
  | .double d a => (double L (st a)).map (Function.update st d)
  | .doubleIn d => (doubleInplace L (st d)).map (Function.update st d)
  | .mulBase d k => some (Function.update st d (mulBase L k))
  | .mul d a k => (mul L (st a) k).map (Function.update st d)
  | .mulIn d k => (mulInplace L (st d) k).map (Function.update st d)
  | .mulDoubleBase d k1 k2 a => (mulDoubleBase L k1 k2 (st a)).map (Function.update st d)
  | .negate d a => (negate L (st a)).map (Function.update st d)
  | .negateIn d => (negateInplace L (st d)).map (Function.update st d)
  | .copy d a => (copyPoint (st a)).map (Function.update st d)
  | .viaBytes d a => ((serialize (st a)).bind (deserialize L)).map (Function.update st d)
  | .generator d => some (Function.update st d (generator L))
  | .hash d s str dst => (hashToCurve L s str dst).map (Function.update st d)

def run (L : RLib) (st : Nat → EcPoint) : List Op → Option (Nat → EcPoint)
  | [] => some st
  | o :: os => (step L st o).bind fun st' => run L st' os

/-! ### X25519 -/

/-- crypto_scalarmult_curve25519.h; `none` is the return value -1. -/
structure XLib where
  mult : Bytes → Bytes → Option Bytes
  base : Bytes → Option Bytes
  sha256 : Bytes → Bytes
  hashRo : Bytes → Bytes → Option EcPoint
  hashNu : Bytes → Bytes → Option EcPoint

/-- mp_int.cc L863-870 `ToMagBytes` into a zeroed buffer of 32 bytes: the magnitude, an exception if it does not fit. -/
def magBytes (k : Int) : Option Bytes := if k.natAbs < 256 ^ 32 then some (leBytes 32 k.natAbs) else none

/-- x25519_group.cc L54-63 `MulBase`. -/
def xMulBase (L : XLib) (k : Int) : Option EcPoint := (magBytes (k % order)).bind fun s => (L.base s).map .array32
/-- x25519_group.cc L65-75 `Mul`. -/
def xMul (L : XLib) (p : EcPoint) (k : Int) : Option EcPoint :=
  (magBytes (k % order)).bind fun s => (cast p).bind fun a => (L.mult s a).map .array32
/-- x25519_group.cc L77-84 `MulInplace`: no reduction. -/
def xMulInplace (L : XLib) (p : EcPoint) (k : Int) : Option EcPoint :=
  (magBytes k).bind fun s => (cast p).bind fun a => (L.mult s a).map .array32

/-- ecc_spi.h `PointOctetFormat`: the two the group supports, and the others. -/
inductive Format where
  | autonomous | uncompressed | otherFormat
deriving DecidableEq

/-- x25519_group.cc L122-135 `SerializePoint`. -/
def xSerialize (p : EcPoint) : Format → Option Bytes
  | .autonomous | .uncompressed => cast p
  | .otherFormat => none
/-- x25519_group.cc L142-155 `SerializePoint` into a buffer of the caller. -/
def xSerializeInto (p : EcPoint) (buf : Bytes) : Format → Option Bytes
  | .autonomous | .uncompressed => if 32 ≤ buf.length then (cast p).map fun a => a ++ buf.drop 32 else none
  | .otherFormat => none
/-- x25519_group.cc L157-171 `DeserializePoint`. -/
def xDeserialize (buf : Bytes) : Format → Option EcPoint
  | .autonomous | .uncompressed => if buf.length = 32 then some (.array32 buf) else none
  | .otherFormat => none
/-- x25519_group.cc L181-189: the tags. -/
def xDstRo : Bytes := "QUUX-V01-CS02-with-curve25519_XMD:SHA-512_ELL2_RO_".toList.map fun c => BitVec.ofNat 8 c.toNat
def xDstNu : Bytes := "QUUX-V01-CS02-with-curve25519_XMD:SHA-512_ELL2_NU_".toList.map fun c => BitVec.ofNat 8 c.toNat
/-- x25519_group.cc L173-196 `HashToCurve`: the caller's tag is not read. -/
def xHashToCurve (L : XLib) (s : Strategy) (input _dst : Bytes) : Option EcPoint :=
  match s with
  | .autonomous | .hashAsPointX_SHA2 => some (.array32 (L.sha256 input))
  | .ell2Ro => L.hashRo input xDstRo
  | .ell2Nu => L.hashNu input xDstNu
  | _ => none

end Yacl.Ecc.Sodium
