import Verif.Gf.Model
import Verif.Msgpack.Model
import Mathlib.Data.Int.GCD
/-! Model of the Galois field libraries behind the `GaloisField` interface: yacl/math/galois_field/factory/mpint_factory.cc
(prime fields on `MPInt`), intel_factory.{h,cc} (GF(2^64), GF(2^128)), mcl_factory.{h,cc} (mcl). Property C125.

An `MPInt` is its value here (its digits are the subject of C88 and C89), and libtommath's modular functions are what its
documentation says. Left out: random elements, printing, mcl's own arithmetic. -/
namespace Verif.GfLib
open Yacl.Gf

/-! ### Prime fields on `MPInt` -/

/-- `mp_addmod`, `mp_submod`, `mp_mulmod` with a positive modulus: the least non-negative residue. -/
def addMod (x y p : Int) : Int := (x + y) % p
def subMod (x y p : Int) : Int := (x - y) % p
def mulMod (x y p : Int) : Int := (x * y) % p

/-- `mp_invmod`: the inverse in `0 .. p-1`; an error (which `MPINT_ENFORCE_OK` makes an exception) if `x` and `p` are not
coprime. -/
def invertMod (x p : Int) : Option Int := if Int.gcd x p = 1 then some (Int.gcdA x p % p) else none

/-- `mp_exptmod`: a negative exponent inverts the base first. -/
def powMod (x e p : Int) : Option Int :=
  if 0 ≤ e then some (x ^ e.toNat % p) else (invertMod x p).map fun i => i ^ (-e).toNat % p

namespace Prime

/-- mpint_factory.cc L57-59 `IsInField`. -/
def isInField (p x : Int) : Bool := 0 ≤ x ∧ x < p
/-- mpint_factory.cc L53 `IsIdentityOne`, L55 `IsIdentityZero`, L61 `Equal`. -/
def isIdentityOne (x : Int) : Bool := x = 1
def isIdentityZero (x : Int) : Bool := x = 0
def equal (x y : Int) : Bool := x = y
/-- mpint_factory.cc L67-69 `Add`, L71-73 `AddInplace`. -/
def add (p x y : Int) : Int := addMod x y p
def addInplace (p x y : Int) : Int := addMod x y p
/-- base/exception.h L396-400 `WEAK_ENFORCE(c)`: an exception (`none`) in a debug build, nothing in a release build. -/
def weakEnforce (debug c : Bool) (v : Int) : Option Int := if debug && !c then none else some v
/-- mpint_factory.cc L75-82 `Neg`; `none` is the exception. -/
def neg (debug : Bool) (p x : Int) : Option Int := if isIdentityZero x then some x else weakEnforce debug (isInField p x) (p - x)
/-- mpint_factory.cc L84-92 `NegInplace`. -/
def negInplace (debug : Bool) (p x : Int) : Option Int :=
  if isIdentityZero x then some x else weakEnforce debug (isInField p x) (addInplace p (-x) p)
/-- mpint_factory.cc L94 `Inv`, L96 `InvInplace`. -/
def inv (p x : Int) : Option Int := invertMod x p
/-- mpint_factory.cc L98-100 `Sub`, L102-104 `SubInplace`. -/
def sub (p x y : Int) : Int := subMod x y p
/-- mpint_factory.cc L106-108 `Mul`, L110-112 `MulInplace`. -/
def mul (p x y : Int) : Int := mulMod x y p
/-- mpint_factory.cc L114-116 `Div`, L118-120 `DivInplace`. -/
def div (p x y : Int) : Option Int := (invertMod y p).map fun i => mulMod x i p
/-- mpint_factory.cc L122-124 `Pow`, L126-128 `PowInplace`. -/
def pow (p x e : Int) : Option Int := powMod x e p
/-- mpint_factory.cc L39 `GetOrder`, L41, L43, L47. -/
def getOrder (p : Int) : Int := p
def getMulGroupOrder (p : Int) : Int := p - 1
def getAddGroupOrder (p : Int) : Int := p
def getBaseFieldOrder (p : Int) : Int := p

end Prime

/-! ### Binary fields -/

namespace Binary

/-- intel_factory.h L41-45 `GetOrder`, L47 `GetMulGroupOrder`, L48 `GetAddGroupOrder`, for `w` = 64 or 128 bits. -/
def getOrder (w : Nat) : Nat := 2 ^ w
def getMulGroupOrder (w : Nat) : Nat := getOrder w
def getAddGroupOrder (w : Nat) : Nat := getOrder w

/-- intel_factory.h L66 `Neg`, L73 `Add`, L76 `Sub`. -/
def neg {w : Nat} (x : BitVec w) : BitVec w := x
def add {w : Nat} (x y : BitVec w) : BitVec w := x ^^^ y
def sub {w : Nat} (x y : BitVec w) : BitVec w := x ^^^ y

/-- intel_factory.cc L104-108 `Mul`, with L71-93: the same statements as gf_intrinsic.cc's `Gf64Mul` (C59). -/
def mul64 (x y : BitVec 64) : BitVec 64 := gf64Mul x y
/-- intel_factory.cc L98-102 `Mul`, with L34-66: the same statements as gf_intrinsic.cc's `Gf128Mul` (C59). -/
def mul128 (x y : BitVec 128) : BitVec 128 := gf128Mul x y

/-- intel_factory.cc L142-191 `Inv`, 64 bits: an exception (`none`) for zero, else the chain of squarings and products that
`gf64Inv` transcribes. -/
def inv64 (x : BitVec 64) : Option (BitVec 64) := if x ≠ 0 then some (gf64Inv x) else none

/-- intel_factory.cc L110-122 `Pow`, 64 bits, from the loop on: `i` is an `MPInt`, `/` truncates. -/
def powLoop (res xc : BitVec 64) (i : Int) : BitVec 64 :=
  if 2 ≤ i then powLoop (if i = 1 then mul64 res xc else res) (mul64 xc xc) (i.tdiv 2) else res
termination_by i.toNat
decreasing_by
  rw [Int.tdiv_eq_ediv_of_nonneg (by omega)]
  omega

def pow64 (x : BitVec 64) (y : Int) : Option (BitVec 64) := some (powLoop 1 x y)

/-- intel_factory.cc L124-138 `Pow`, 128 bits. -/
def pow128 (_x : BitVec 128) (_y : Int) : Option (BitVec 128) := none

/-- intel_factory.cc L195-199 `Inv`, 128 bits. -/
def inv128 (x : BitVec 128) : Option (BitVec 128) := if x ≠ 0 then pow128 x (getOrder 128 - 2) else none

/-- intel_factory.h L82 `Div`. -/
def div64 (x y : BitVec 64) : Option (BitVec 64) := (inv64 y).map (mul64 x)
def div128 (x y : BitVec 128) : Option (BitVec 128) := (inv128 y).map (mul128 x)

/-- Little-endian bytes of a word (what `memcpy` copies). -/
def leBytes {w : Nat} (x : BitVec w) (n : Nat) : List (BitVec 8) := (List.range n).map fun i => x.extractLsb' (8 * i) 8

/-- The word with the given little-endian bytes. -/
def ofLeBytes (w : Nat) : List (BitVec 8) → BitVec w
  | [] => 0
  | b :: bs => (ofLeBytes w bs <<< 8) ||| b.setWidth w

/-- intel_factory.h L106-110 `Serialize(x, buf, buf_len)`: what it writes, `none` if it throws. The pointer is not looked at, so
with a null pointer and a length of 0 it throws as well. -/
def serialize {w : Nat} (x : BitVec w) (bufLen : Nat) : Option (List (BitVec 8)) :=
  if w / 8 = bufLen then some (leBytes x (w / 8)) else none

/-- intel_factory.h L112-117 `DeserializeT`. -/
def deserialize (w : Nat) (buf : List (BitVec 8)) : Option (BitVec w) :=
  if w / 8 = buf.length then some (ofLeBytes w buf) else none

/-- scalar_tools.h L77-91 `Serialize(Item)`, scalar: the element serializer is asked for the size with a null buffer of length
0 first. -/
def serializeScalar {w : Nat} (x : BitVec w) : Option (List (BitVec 8)) :=
  (serialize x 0).map fun b => Yacl.Msgpack.packStrHead b.length ++ b

/-- scalar_tools.h L44-76 `Serialize(Item)`, vector. -/
def serializeVector {w : Nat} (xs : List (BitVec w)) : Option (List (BitVec 8)) :=
  match xs with
  | [] => some (Yacl.Msgpack.packArrayHead 0)
  | _ => (xs.mapM serializeScalar).map fun bs => Yacl.Msgpack.packArrayHead xs.length ++ bs.flatten

end Binary

/-! ### Factories -/

/-- The field names of gf.h L125-127. -/
inductive Name
  | prime
  | ext
  | bin
  | other
deriving DecidableEq

/-- The arguments `Mod`, `Degree`, `MaxBitSize` (gf.h L132-138), if given. -/
structure Args where
  mod : Option Nat
  degree : Option Nat
  maxBits : Option Nat

/-- mpint_factory.cc L31-33 `Check`, L23-29 `Create` (`isPrime` is `MPInt::IsPrime`); `none` is an exception. -/
def mpintCheck (n : Name) : Bool := n = .prime
def mpintCreate (isPrime : Nat → Bool) (n : Name) (a : Args) : Option Nat :=
  if n = .prime then
    match a.mod with
    | none => none
    | some p => if isPrime p then some p else none
  else none

/-- intel_factory.cc L224-233 `Check`: the first `return` ends it. -/
def intelCheck (n : Name) (_a : Args) : Bool := n = .bin
/-- intel_factory.cc L207-222 `Create`: the number of bits. -/
def intelCreate (n : Name) (a : Args) : Option Nat :=
  if n = .bin then
    match a.degree with
    | some 64 => some 64
    | some 128 => some 128
    | _ => none
  else none

/-- mcl_factory.cc L46-50 `kMclFieldMetas`: field name, degree, size in bits. -/
def mclMetas : List (Name × Nat × Nat) := [(.prime, 1, 256), (.prime, 1, 512), (.ext, 2, 512), (.ext, 6, 512), (.ext, 12, 512)]

/-- mcl_factory.cc L92-110 `Check`; `none` is the exception of `GetRequired`. -/
def mclCheck (n : Name) (a : Args) : Option Bool :=
  match (if n = .prime then some (a.degree.getD 1) else a.degree) with
  | none => none
  | some d => some (decide ((n, d, a.maxBits.getD 512) ∈ mclMetas))

/-- The state mcl keeps per base field type, not per field object: the modulus that `BaseFp::init` stored last. The base types
are `FpT<FpTag, 256>` and `FpT<FpTag, 512>`. -/
structure Statics where
  m256 : Nat
  m512 : Nat

/-- A field object: its degree, its base type, and `order_`. -/
structure MclField where
  degree : Nat
  bits : Nat
  order : Nat
  orderMul : Nat

/-- mcl_factory.cc L52-90 `Create` and L325-345, the constructor. -/
def mclCreate (w : Statics) (n : Name) (a : Args) : Option (Statics × MclField) :=
  match a.mod with
  | none => none
  | some p =>
    let d := a.degree.getD 1
    let b := a.maxBits.getD 512
    if (n, d, b) ∈ mclMetas then
      some (if b = 256 then ⟨p, w.m512⟩ else ⟨w.m256, p⟩,
        if d = 1 then ⟨1, b, p, p - 1⟩ else ⟨d, b, 0, 0⟩)
    else none

/-- The modulus that the operations of a field object use. -/
def MclField.modulus (w : Statics) (f : MclField) : Nat := if f.bits = 256 then w.m256 else w.m512

/-- mcl_factory.cc L146-148 `GetBaseFieldOrder`. -/
def MclField.getBaseFieldOrder (w : Statics) (f : MclField) : Nat := f.modulus w

/-- mcl_factory.cc L155-158 `GetIdentityOne`, L206-209 `Add`, L165-168 `IsIdentityZero` for degree 1: mcl computes modulo the
stored modulus. -/
def MclField.one (w : Statics) (f : MclField) : Nat := 1 % f.modulus w
def MclField.add (w : Statics) (f : MclField) (x y : Nat) : Nat := (x + y) % f.modulus w
def MclField.isZero (x : Nat) : Bool := x = 0

/-- One added to itself `n` times, starting from zero. -/
def MclField.times (w : Statics) (f : MclField) : Nat → Nat
  | 0 => 0
  | n + 1 => f.add w (f.times w n) (f.one w)

end Verif.GfLib
