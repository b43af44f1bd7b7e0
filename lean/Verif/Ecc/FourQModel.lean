import Verif.Ecc.OpensslModel
import Mathlib.Algebra.Field.Defs

/-!
# `crypto/ecc/FourQlib/FourQ_group.cc`: the FourQ curve

An `EcPoint` of this backend is a value, the extended projective coordinates of a
point in an `Array160`.  The curve is `-x² + y² = 1 + d x² y²` over the field `F`
of `(2^127 - 1)²` elements; `E` is the group of all its points.  FourQlib is a
parameter (`FLib`), what its documentation says is the contract of the properties;
the code that works on coordinates itself (`Negate`, `PointEqual`, `IsInfinity`,
normalization and setup) is modelled on coordinates.  Words that stand for the
same field element are not told apart: `mod1271` on the words of a `const` point
does not change its value.
-/

namespace Verif.Ecc.FourQ

open Verif.Ecc.Openssl (Cmd invMod)

abbrev Bytes := List UInt8

/-- `point_extproj` of FourQlib: `(X : Y : Z)` and two factors of `X Y / Z`. -/
structure Ext (F : Type) where
  X : F
  Y : F
  Z : F
  Ta : F
  Tb : F
  deriving DecidableEq

/-- What the code calls of FourQlib. -/
structure FLib (F : Type) where
  /-- The order `n_` (`FourQ_group.cc:43-44`). -/
  n : Nat
  /-- The 32 little-endian bytes of a field element as a number: `a + 2^128 b`
  (`F2elm2MPInt`, `FourQ_group.cc:22-32`). -/
  enc : F → Nat
  /-- The field element of a number below `2^256` (`MPIntToF2elm`,
  `FourQ_group.cc:34-40`). -/
  dec : Nat → F
  /-- `eccadd_core` after `R1_to_R2` and `R1_to_R3`. -/
  add : Ext F → Ext F → Ext F
  /-- `eccadd` after `R1_to_R2`: the second argument is added to the first. -/
  addTo : Ext F → Ext F → Ext F
  /-- `eccdouble`. -/
  dbl : Ext F → Ext F
  /-- `ecc_mul` without cofactor clearing; `none` is the return value `false`. -/
  mul : F × F → Nat → Option (F × F)
  /-- `ecc_mul_fixed`. -/
  mulFixed : Nat → F × F
  /-- `ecc_mul_double`; `none` is the return value `false`. -/
  mulDouble : Nat → F × F → Nat → Option (F × F)
  /-- What an affine point on the stack holds that was never written. -/
  stack : F × F
  /-- `ecc_point_validate`, for `Z = 1`. -/
  validate : F × F → Bool
  /-- `encode`. -/
  encode : F × F → Bytes
  /-- `decode` of 32 bytes; `none` is an error. -/
  decode : Bytes → Option (F × F)
  /-- `::HashToCurve`. -/
  hash : F → Option (F × F)

/-- `EcPoint`: the array, an `AffinePoint`, or another alternative. -/
inductive Pt (F : Type)
  | ext (e : Ext F)
  | affine (x y : Int)
  | other
  deriving DecidableEq

variable {F : Type} [Field F]

/-- `CastR1` (`FourQ_group.cc:387-397`): throws for other alternatives. -/
def castR1 : Pt F → Option (Ext F)
  | .ext e => some e
  | _ => none

/-- `eccnorm`: the affine coordinates. -/
def eccnorm (e : Ext F) : F × F := (e.X * e.Z⁻¹, e.Y * e.Z⁻¹)

/-- `point_setup`: `Z = 1`. -/
def pointSetup (p : F × F) : Ext F := ⟨p.1, p.2, 1, p.1, p.2⟩

/-- `MPIntToF2elm` (`FourQ_group.cc:34-40`): the magnitude; more than 32 bytes
throw. -/
def mpIntToF2elm (L : FLib F) (v : Int) : Option F :=
  if v.natAbs < 2 ^ 256 then some (L.dec v.natAbs) else none

/-- `MPIntToDigits` (`FourQ_group.cc:52-58`). -/
def digits (L : FLib F) (k : Int) : Nat := (k % L.n).toNat

/-- `IsInfinity` (`FourQ_group.cc:374-385`). -/
def isInfinity [DecidableEq F] (e : Ext F) : Bool := decide (e.X = 0) || decide (e.Z = 0)

/-- `Negate` (`FourQ_group.cc:166-178`, and in place `:180-188`). -/
def neg [DecidableEq F] (e : Ext F) : Ext F :=
  if isInfinity e then e else { e with Y := -e.Y, Z := -e.Z }

/-- `PointEqual` (`FourQ_group.cc:322-363`). -/
def pointEqual [DecidableEq F] (a b : Ext F) : Bool :=
  if isInfinity a && isInfinity b then true
  else decide (a.X * b.Z = a.Z * b.X) && decide (a.Y * b.Z = a.Z * b.Y)

/-- `IsInCurveGroup` (`FourQ_group.cc:365-372`). -/
def isInCurveGroup (L : FLib F) (e : Ext F) : Bool := L.validate (eccnorm e)

/-- `Mul` (`FourQ_group.cc:101-114`, and in place `:116-124`): the return value of
`ecc_mul` is not looked at.  In place the result overwrites the operand, so a
failure leaves the normalized operand. -/
def mulPt (L : FLib F) (e : Ext F) (k : Int) : Ext F :=
  pointSetup ((L.mul (eccnorm e) (digits L k)).getD L.stack)

/-- See `mulPt` (`FourQ_group.cc:116-124`). -/
def mulPtInplace (L : FLib F) (e : Ext F) (k : Int) : Ext F :=
  pointSetup ((L.mul (eccnorm e) (digits L k)).getD (eccnorm e))

/-- `MulBase` (`FourQ_group.cc:126-137`). -/
def mulBase (L : FLib F) (k : Int) : Ext F := pointSetup (L.mulFixed (digits L k))

/-- The program's variables. -/
abbrev St (F : Type) := Nat → Pt F

/-- `x` becomes `v`. -/
def assign (s : St F) (x : Nat) (v : Pt F) : St F := fun y => if y = x then v else s y

/-- One call; `none` is an exception, which leaves the variables as they were. -/
def step [DecidableEq F] (L : FLib F) (s : St F) : Cmd → Option (St F)
  /- `FourQ_group.cc:48,66`: `g_` is `MulBase(1)`; a copy. -/
  | .getGenerator x => some (assign s x (.ext (mulBase L 1)))
  | .copyHandle x y => some (assign s x (s y))
  /- `FourQ_group.cc:190-212` -/
  | .copyPoint x y =>
    match s y with
    | .ext e => some (assign s x (.ext e))
    | .affine a b => do
      let u ← mpIntToF2elm L a
      let v ← mpIntToF2elm L b
      let r := pointSetup (u, v)
      if isInCurveGroup L r then some (assign s x (.ext r)) else none
    | .other => none
  | .affineLit x a b => some (assign s x (.affine a b))
  /- `FourQ_group.cc:214-220` -/
  | .getAffine x y => do
    let e ← castR1 (s y)
    some (assign s x (.affine (L.enc (eccnorm e).1) (L.enc (eccnorm e).2)))
  /- `FourQ_group.cc:72-83` -/
  | .add x y z => do
    let a ← castR1 (s y)
    let b ← castR1 (s z)
    some (assign s x (.ext (L.add a b)))
  /- `FourQ_group.cc:85-90` -/
  | .addInplace x y => do
    let b ← castR1 (s y)
    let a ← castR1 (s x)
    some (assign s x (.ext (L.addTo a b)))
  /- `group_sketch.cc:23-25` -/
  | .sub x y z => do
    let b ← castR1 (s z)
    let a ← castR1 (s y)
    some (assign s x (.ext (L.add a (neg b))))
  /- `group_sketch.cc:27-29` -/
  | .subInplace x y => do
    let b ← castR1 (s y)
    let a ← castR1 (s x)
    some (assign s x (.ext (L.addTo a (neg b))))
  /- `FourQ_group.cc:92-97` -/
  | .double x y => do
    let a ← castR1 (s y)
    some (assign s x (.ext (L.dbl a)))
  /- `FourQ_group.cc:99` -/
  | .doubleInplace x => do
    let a ← castR1 (s x)
    some (assign s x (.ext (L.dbl a)))
  | .negate x y => do
    let a ← castR1 (s y)
    some (assign s x (.ext (neg a)))
  | .negateInplace x => do
    let a ← castR1 (s x)
    some (assign s x (.ext (neg a)))
  | .mulBase x k => some (assign s x (.ext (mulBase L k)))
  | .mul x y k => do
    let a ← castR1 (s y)
    some (assign s x (.ext (mulPt L a k)))
  | .mulInplace x k => do
    let a ← castR1 (s x)
    some (assign s x (.ext (mulPtInplace L a k)))
  /- `FourQ_group.cc:139-158` -/
  | .mulDoubleBase x k1 k2 y => do
    let a ← castR1 (s y)
    some (assign s x (.ext (pointSetup
      ((L.mulDouble (digits L k1) (eccnorm a) (digits L k2)).getD L.stack))))
  /- `group_sketch.cc:48-57` -/
  | .div x y k =>
    if k = 0 then none
    else if 0 < k then do
      let m ← invMod k L.n
      let a ← castR1 (s y)
      some (assign s x (.ext (mulPt L a m)))
    else do
      let m ← invMod (k.natAbs : Int) L.n
      let a ← castR1 (s y)
      some (assign s x (.ext (neg (mulPt L a m))))
  /- `group_sketch.cc:59-69` -/
  | .divInplace x k =>
    if k = 0 then none
    else if 0 < k then do
      let m ← invMod k L.n
      let a ← castR1 (s x)
      some (assign s x (.ext (mulPtInplace L a m)))
    else do
      let m ← invMod (k.natAbs : Int) L.n
      let a ← castR1 (s x)
      some (assign s x (.ext (neg (mulPtInplace L a m))))

/-- A program; a call that throws changes nothing. -/
def run [DecidableEq F] (L : FLib F) (s : St F) (cs : List Cmd) : St F :=
  cs.foldl (fun s c => (step L s c).getD s) s

/-! ## Bytes and hashes -/

/-- The formats: `Autonomous` and the rest. -/
inductive Format
  | autonomous
  | other
  deriving DecidableEq

/-- `SerializePoint(point, format)` (`FourQ_group.cc:229-254`). -/
def serialize (L : FLib F) (f : Format) (e : Ext F) : Option Bytes :=
  if f = .autonomous then some (L.encode (eccnorm e)) else none

/-- `SerializePoint(point, format, buf, buf_size)` (`FourQ_group.cc:256-267`): the
buffer afterwards, `old` before. -/
def serializeTo (L : FLib F) (f : Format) (e : Ext F) (old : Bytes) : Option Bytes :=
  if f = .autonomous then
    if 32 ≤ old.length then some (L.encode (eccnorm e) ++ old.drop 32) else none
  else none

/-- The outcome of reading bytes. -/
inductive Res (F : Type)
  | ok (e : Ext F)
  | throws
  | outOfBounds

/-- `DeserializePoint` (`FourQ_group.cc:269-283`): `decode` gets the address only
and reads 32 bytes. -/
def deserialize (L : FLib F) (f : Format) (buf : Bytes) : Res F :=
  if f = .autonomous then
    if buf.length < 32 then .outOfBounds
    else match L.decode (buf.take 32) with
      | some p => .ok (pointSetup p)
      | none => .throws
  else .throws

/-- Little-endian bytes as a number. -/
def leV : Bytes → Nat
  | [] => 0
  | b :: bs => b.toNat + 256 * leV bs

/-- `HashToCurve` (`FourQ_group.cc:285-308`): the first half of the 64 bytes of
SHA-512 as a field element; `auto` is the test of the strategy. -/
def hashToCurve (L : FLib F) (sha512 : Bytes → Bytes) (auto : Bool) (m : Bytes) : Option (Ext F) :=
  if auto then (L.hash (L.dec (leV ((sha512 m).take 32)))).map pointSetup else none

/-- `HashPoint` (`FourQ_group.cc:317-337`): `h` is `std::hash<uint64_t>`. -/
def hashPoint (L : FLib F) (h : Nat → Nat) (e : Ext F) : Nat :=
  let x := L.enc (e.X * e.Z⁻¹)
  h (x % 2 ^ 64) ^^^ h (x / 2 ^ 64 % 2 ^ 64) ^^^ h (x / 2 ^ 128 % 2 ^ 64)

end Verif.Ecc.FourQ
