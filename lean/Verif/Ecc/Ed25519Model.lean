import Mathlib.Algebra.Field.ZMod
import Mathlib.Data.Int.GCD

/-!
# `crypto/ecc/libsodium/ed25519_group.cc`, `sodium_group.cc` and `crypto/ecc/lib25519/ed25519_group.cc`, `lib25519_group.cc`

The two Ed25519 backends.  Points are `ge25519_p3` values stored in the `EcPoint`
itself, so that copies are copies.  The field and point functions of libsodium and
lib25519 are parameters (`Lib`); what the wrapper does itself, namely coordinates,
negation, comparison, scalars, decompression and checks, is modelled.  `p` and `d`
are parameters too: `2^255 - 19` and `-121665/121666` in the code.
-/

namespace Verif.Ecc.Ed25519

/-- `ge25519_p3`: `x = X/Z`, `y = Y/Z`, `XY = ZT`. -/
structure P3 (p : Nat) where
  X : ZMod p
  Y : ZMod p
  Z : ZMod p
  T : ZMod p
  deriving DecidableEq

/-- What the wrappers use of the libraries, and the parameters of the curve
(`sodium_factory.cc:27-32`, `lib25519_factory.cc:24-29`). -/
structure Lib (p : Nat) where
  /-- `-121665/121666`. -/
  d : ZMod p
  /-- The order `param_.n`. -/
  n : Nat
  /-- `ge25519_add` with its conversions. -/
  add : P3 p → P3 p → P3 p
  /-- `ge25519_sub` with its conversions. -/
  sub : P3 p → P3 p → P3 p
  /-- `ge25519_scalarmult_base`. -/
  mulBase : Nat → P3 p
  /-- `ge25519_scalarmult`. -/
  mul : Nat → P3 p → P3 p
  /-- `ge25519_p3_tobytes`, `ge25519_pack`. -/
  tobytes : P3 p → List UInt8
  /-- `ge25519_frombytes`, `ge25519_unpack_vartime`, and whether they succeed. -/
  frombytes : List UInt8 → P3 p × Bool
  /-- libsodium only: whether the limbs of `fe25519_mul(a, b)` and
  `fe25519_mul(c, d)` are the same. -/
  sameLimbs : ZMod p → ZMod p → ZMod p → ZMod p → Bool

variable {p : Nat}

/-- `MPInt2Array` (`ed25519_group.cc:51-55`), `MPInt2Scalar`: the scalar modulo
`n`. -/
def scalar (L : Lib p) (k : Int) : Nat := (k % L.n).toNat

/-- `IsInfinity` (`libsodium/ed25519_group.cc:206-209`,
`lib25519/ed25519_group.cc:160-164`). -/
def isInfinity (q : P3 p) : Bool := q.X = 0 || q.Z = 0

/-- `Sub(g_, g_)` in the constructor (`ed25519_group.cc:38-49`): `inf_`. -/
def inf (L : Lib p) : P3 p := L.sub (L.mulBase 1) (L.mulBase 1)

/-- `MulBase` (`ed25519_group.cc:115-127`). -/
def mulBase (L : Lib p) (k : Int) : P3 p :=
  if scalar L k = 0 then inf L else L.mulBase (scalar L k)

/-- `GetGenerator` (`ed25519_group.cc:57`): `MulBase(1)`. -/
def gen (L : Lib p) : P3 p := L.mulBase 1

/-- `Mul`, `MulInplace` (`ed25519_group.cc:129-150`). -/
def mul (L : Lib p) (q : P3 p) (k : Int) : P3 p :=
  if scalar L k = 0 || isInfinity q then inf L else L.mul (scalar L k) q

/-- `MulDoubleBase` (`ed25519_group.cc:152-157`). -/
def mulDoubleBase (L : Lib p) (k1 k2 : Int) (q : P3 p) : P3 p :=
  L.add (mulBase L k1) (mul L q k2)

/-- `Negate`, `NegateInplace` (`ed25519_group.cc:159-184`). -/
def negate (q : P3 p) : P3 p :=
  if isInfinity q then q else { X := q.X, Y := -q.Y, Z := -q.Z, T := q.T }

/-- `Double`, `DoubleInplace` (`ed25519_group.cc:111-113`): `Add(p, p)`; lib25519
has its own doubling. -/
def double (L : Lib p) (q : P3 p) : P3 p := L.add q q

/-- `GetAffinePoint` (`ed25519_group.cc:186-198`): least residues. -/
def getAffine (q : P3 p) : Int × Int := ((q.X * q.Z⁻¹).val, (q.Y * q.Z⁻¹).val)

/-- `ge25519_is_on_curve`: `(Y² - X²)·Z² = Z⁴ + d·X²·Y²`. -/
def isOnCurve (L : Lib p) (q : P3 p) : Bool :=
  (q.Y ^ 2 - q.X ^ 2) * q.Z ^ 2 = q.Z ^ 4 + L.d * q.X ^ 2 * q.Y ^ 2

/-- `IsInCurveGroup` (`ed25519_group.cc:200-202`). -/
def isInCurveGroup (L : Lib p) (q : P3 p) : Bool := isInfinity q || isOnCurve L q

/-- `MPIntToFe25519` (`sodium_group.cc:32-37`): 32 bytes of the magnitude, or an
exception; `fe25519_frombytes` drops the top bit. -/
def feOf (v : Int) : Option (ZMod p) :=
  if v.natAbs < 2 ^ 256 then some ((v.natAbs % 2 ^ 255 : Nat) : ZMod p) else none

/-- `CopyPoint` of an `AffinePoint` (`sodium_group.cc:59-71`,
`lib25519_group.cc:46-58`). -/
def copyAffine (L : Lib p) (x y : Int) : Option (P3 p) := do
  let X ← feOf x
  let Y ← feOf y
  let q : P3 p := { X := X, Y := Y, Z := 1, T := X * Y }
  if isInCurveGroup L q then some q else none

/-- `b[0] + 256·b[1] + …`. -/
def leVal : List UInt8 → Nat
  | [] => 0
  | b :: bs => b.toNat + 256 * leVal bs

/-- `a.InvertMod(p)`; an exception without an inverse. -/
def invertMod (p : Nat) (a : Int) : Option Nat :=
  if Int.gcd a p = 1 then some (((a : ZMod p))⁻¹).val else none

/-- The square root of `x2` (`sodium_group.cc:100-115`): `x2^((p+3)/8)`, times
`2^((p-1)/4)` if its square is not `x2`; an exception if that is no root either. -/
def sqrt (p : Nat) (x2 : Int) : Option Nat :=
  let x : ZMod p := (x2 : ZMod p) ^ ((p + 3) / 8)
  let x := if x * x - (x2 : ZMod p) = 0 then x else x * 2 ^ ((p - 1) / 4)
  if x * x - (x2 : ZMod p) = 0 then some x.val else none

/-- `CopyPoint` of 32 bytes (`sodium_group.cc:73-120`, libsodium only). -/
def copyBytes (L : Lib p) (b : List UInt8) : Option (P3 p) := do
  let sign := leVal b / 2 ^ 255
  let y := leVal b % 2 ^ 255
  if ¬ y < p then none
  else do
    let y2 : Int := (y : Int) * y
    let inv ← invertMod p ((L.d.val : Int) * y2 + 1)
    let x2 : Int := (y2 - 1) * inv
    if x2 = 0 then
      if sign = 0 then copyAffine L 0 y else none
    else do
      let x ← sqrt p x2
      let x : Int := if x % 2 ≠ sign then (p : Int) - x else x
      copyAffine L x y

/-- `SerializePoint` (`sodium_group.cc:133-143`, `lib25519_group.cc:73-82`). -/
def serialize (L : Lib p) (q : P3 p) : List UInt8 := L.tobytes q

/-- The outcome of a call that may read outside its argument. -/
inductive Res (α : Type)
  | ok (a : α)
  | throws
  | outOfBounds

/-- `DeserializePoint` of libsodium (`sodium_group.cc:160-169`): the status of
`ge25519_frombytes` and the size of the buffer are not looked at. -/
def deserializeSodium (L : Lib p) (b : List UInt8) : Res (P3 p) :=
  if b.length < 32 then .outOfBounds else .ok (L.frombytes (b.take 32)).1

/-- `DeserializePoint` of lib25519 (`lib25519_group.cc:101-112`): the status is
checked, the size is not. -/
def deserializeLib25519 (L : Lib p) (b : List UInt8) : Res (P3 p) :=
  if b.length < 32 then .outOfBounds
  else if (L.frombytes (b.take 32)).2 then .ok (L.frombytes (b.take 32)).1 else .throws

/-- `PointEqual` of lib25519 (`lib25519_group.cc:139-161`). -/
def pointEqual (q r : P3 p) : Bool :=
  (isInfinity q && isInfinity r) ||
    (decide (q.X * r.Z = q.Z * r.X) && decide (q.Y * r.Z = q.Z * r.Y))

/-- `PointEqual` of libsodium (`sodium_group.cc:197-225`): the x coordinates are
compared limb by limb, without reduction, the y coordinates by their bytes. -/
def pointEqualSodium (L : Lib p) (q r : P3 p) : Bool :=
  (isInfinity q && isInfinity r) ||
    (L.sameLimbs q.X r.Z q.Z r.X && decide (q.Y * r.Z = q.Z * r.Y))

/-- `HashPoint` (`sodium_group.cc:182-195`, `lib25519_group.cc:127-137`): a hash of
the four words of the least residue of x. -/
def hashPoint (h : Nat → Nat) (q : P3 p) : Nat :=
  let x := (q.X * q.Z⁻¹).val
  h (x % 2 ^ 64) ^^^ h (x / 2 ^ 64 % 2 ^ 64) ^^^ h (x / 2 ^ 128 % 2 ^ 64) ^^^ h (x / 2 ^ 192)

/-- Programs: the calls that return points. -/
inductive Ex
  | gen
  | mulBase (k : Int)
  | add (a b : Ex)
  | sub (a b : Ex)
  | double (a : Ex)
  | negate (a : Ex)
  | mul (a : Ex) (k : Int)
  | mulDoubleBase (k1 k2 : Int) (a : Ex)
  /-- `CopyPoint(GetAffinePoint(a))` -/
  | viaAffine (a : Ex)
  /-- `DeserializePoint(SerializePoint(a))` -/
  | viaBytes (a : Ex)
  /-- `CopyPoint` of the serialized bytes (libsodium). -/
  | viaCompressed (a : Ex)

/-- What the code computes; `none` is an exception. -/
def code (L : Lib p) : Ex → Option (P3 p)
  | .gen => some (gen L)
  | .mulBase k => some (mulBase L k)
  | .add a b => do let x ← code L a; let y ← code L b; some (L.add x y)
  | .sub a b => do let x ← code L a; let y ← code L b; some (L.sub x y)
  | .double a => do let x ← code L a; some (double L x)
  | .negate a => do let x ← code L a; some (negate x)
  | .mul a k => do let x ← code L a; some (mul L x k)
  | .mulDoubleBase k1 k2 a => do let x ← code L a; some (mulDoubleBase L k1 k2 x)
  | .viaAffine a => do
    let x ← code L a
    copyAffine L (getAffine x).1 (getAffine x).2
  | .viaBytes a => do
    let x ← code L a
    match deserializeLib25519 L (serialize L x) with
    | .ok q => some q
    | _ => none
  | .viaCompressed a => do
    let x ← code L a
    copyBytes L (serialize L x)

end Verif.Ecc.Ed25519
