/-
The OpenSSL and GMP integers behind `BigInt`
(yacl/math/bigint/openssl/bignum.{h,cc}, yacl/math/bigint/gmp/gmp_int.{h,cc}).

A number is its value, an `Int`.  The functions of OpenSSL's BN library and of GMP that
the two classes call are modelled by what their manuals promise, one definition each;
what is modelled line by line is what yacl does with them: how it corrects the rounding
of quotients, how it turns a number into two's complement bytes and back, the sign bit
of the serialised form, which bit is read or written.  Running out of memory is not
modelled; neither are sizes beyond the range of `int`.
-/
import Verif.MpInt.Prime
import Verif.MpInt.Props
import Mathlib.Data.Int.Bitwise
import Mathlib.Data.Nat.Digits.Lemmas

namespace Yacl.BigInt.Back

open Yacl.MPInt (Endian)

/-! ### library functions, by their manuals -/

/-- `BN_num_bits`, `mpz_sizeinbase (z, 2)` apart from zero: the length of the absolute
    value in bits. -/
def numBits (a : Int) : Nat := a.natAbs.size

/-- `BN_num_bytes` (a macro: `(BN_num_bits (a) + 7) / 8`). -/
def numBytes (a : Int) : Nat := (numBits a + 7) / 8

/-- `mpz_sizeinbase (z, 2)`: one for zero. -/
def sizeInBase2 (a : Int) : Nat := if a = 0 then 1 else numBits a

/-- The `len` low bytes of a natural number, least significant first. -/
def le (n len : Nat) : List Nat := (List.range len).map fun i => n / 256 ^ i % 256

/-- `BN_bn2lebinpad`: the absolute value, padded with zeros; an error (an exception in
    yacl) when it does not fit. -/
def bn2lebinpad (a : Int) (len : Nat) : Option (List Nat) :=
  if len < numBytes a then none else some (le a.natAbs len)

/-- `BN_bn2binpad`. -/
def bn2binpad (a : Int) (len : Nat) : Option (List Nat) :=
  (bn2lebinpad a len).map List.reverse

/-- `BN_lebin2bn`. -/
def lebin2bn (buf : List Nat) : Int := (Nat.ofDigits 256 buf : Nat)

/-- `BN_signed_lebin2bn`: little-endian two's complement. -/
def signedLebin2bn (buf : List Nat) : Int :=
  if 2 ^ (8 * buf.length) ≤ 2 * Nat.ofDigits 256 buf
    then (Nat.ofDigits 256 buf : Nat) - 2 ^ (8 * buf.length) else (Nat.ofDigits 256 buf : Nat)

/-- `BN_set_negative`: zero stays non-negative. -/
def setNegative (a : Int) (neg : Bool) : Int :=
  if neg then -(a.natAbs : Int) else (a.natAbs : Int)

/-- `BN_nnmod`: the non-negative remainder. -/
def nnmod (a m : Int) : Option Int := if m = 0 then none else some (a % m)

/-- `BN_mod`: the remainder of the division that truncates towards zero. -/
def bnMod (a m : Int) : Option Int := if m = 0 then none else some (a.tmod m)

/-- `mpz_export (buf, &count, order, 1, ...)`: the bytes of the absolute value without
    leading zero bytes. -/
def mpzExport (a : Int) (e : Endian) : List Nat :=
  match e with
  | .little => Nat.digits 256 a.natAbs
  | .big => (Nat.digits 256 a.natAbs).reverse

/-- `mpz_import (z, size, order, 1, ...)`. -/
def mpzImport (buf : List Nat) (e : Endian) : Int :=
  match e with
  | .little => (Nat.ofDigits 256 buf : Nat)
  | .big => (Nat.ofDigits 256 buf.reverse : Nat)

/-- Writing `bytes` at position `off` of `buf`. -/
def patch (buf : List Nat) (off : Nat) (bytes : List Nat) : List Nat :=
  buf.take off ++ bytes ++ buf.drop (off + bytes.length)

/-! ### quotients and remainders -/

/-- `operator/(BigNum, BigNum)`, `BigNum::operator/=` (bignum.cc L128-137, L580-592). -/
def bnDiv (a b : Int) : Option Int :=
  if b = 0 then none
  else
    let result := a.tdiv b
    let remainder := a.tmod b
    some (if result < 0 ∧ remainder ≠ 0 then result - 1 else result)

/-- `operator/(BigNum, uint64_t)`, `BigNum::operator/=(uint64_t)` (bignum.cc L169-176,
    L629-637); `BN_div_word` divides the absolute value and returns its remainder. -/
def bnDivWord (a : Int) (d : Nat) : Option Int :=
  if d = 0 then none
  else
    let result := setNegative (a.natAbs / d : Nat) (decide (a < 0))
    let remainder := a.natAbs % d
    some (if result < 0 ∧ remainder ≠ 0 then result - 1 else result)

/-- `operator%(BigNum, BigNum)`, `BigNum::operator%=` (bignum.cc L139-151, L594-608). -/
def bnRem (a b : Int) : Option Int :=
  if b < 0 then
    (bnMod a b).map fun r => if ¬ r < 0 ∧ r ≠ 0 then r + b else r
  else nnmod a b

/-- `operator%(BigNum, uint64_t)` (bignum.cc L639-646). -/
def bnRemWord (a : Int) (d : Nat) : Option Nat :=
  if 0 < d then
    let result := a.natAbs % d
    some (if a < 0 ∧ result ≠ 0 then d - result else result)
  else none

/-- `GMPInt`'s `/` and `/=` (gmp_int.cc L117-121, L672-677): `mpz_fdiv_q`. -/
def gmpDiv (a b : Int) : Option Int := if b = 0 then none else some (a.fdiv b)

/-- `GMPInt`'s `%` and `%=` (gmp_int.cc L123-127, L679-684): `mpz_fdiv_r`. -/
def gmpRem (a b : Int) : Option Int := if b = 0 then none else some (a.fmod b)

/-- `GMPInt`'s `/ uint64_t` (gmp_int.cc L144-148, L704-709): `mpz_fdiv_q_ui`. -/
def gmpDivWord (a : Int) (d : Nat) : Option Int := if d = 0 then none else some (a.fdiv d)

/-- `GMPInt`'s `% uint64_t` (gmp_int.cc L711-714): `mpz_fdiv_ui`. -/
def gmpRemWord (a : Int) (d : Nat) : Option Nat := if d = 0 then none else some (a % d).toNat

/-- `BigNum::Lcm` (bignum.cc L326-332). -/
def bnLcm (a b : Int) : Option Int :=
  (bnDiv (a * b) (Int.gcd a b)).map fun r => if r < 0 then -r else r

/-- `GMPInt::Lcm` (gmp_int.cc L287-291): `mpz_lcm`. -/
def gmpLcm (a b : Int) : Option Int := some (Int.lcm a b)

/-- `BigNum::AddMod`, `SubMod`, `MulMod` (bignum.cc L284-303): `BN_mod_add` and so on
    reduce with `BN_nnmod`. -/
def bnAddMod (a b m : Int) : Option Int := nnmod (a + b) m
def bnSubMod (a b m : Int) : Option Int := nnmod (a - b) m
def bnMulMod (a b m : Int) : Option Int := nnmod (a * b) m

/-- `GMPInt::AddMod`, `SubMod`, `MulMod` (gmp_int.cc L263-273). -/
def gmpAddMod (a b m : Int) : Option Int := gmpRem (a + b) m
def gmpSubMod (a b m : Int) : Option Int := gmpRem (a - b) m
def gmpMulMod (a b m : Int) : Option Int := gmpRem (a * b) m

/-! ### bytes -/

/-- The increment loop on bytes, least significant first (bignum.cc L523-527,
    gmp_int.cc L621-625): it goes on while the byte wrapped to zero. -/
def incr : List Nat → List Nat
  | [] => []
  | b :: rest => if (b + 1) % 256 = 0 then (b + 1) % 256 :: incr rest else (b + 1) % 256 :: rest

/-- Two's complement of a buffer (bignum.cc L518-533, gmp_int.cc L616-631): all bytes are
    inverted, then one is added, from the first byte (little) or from the last (big). -/
def negateBytes (buf : List Nat) (e : Endian) : List Nat :=
  let buf := buf.map fun b => 255 - b
  match e with
  | .little => incr buf
  | .big => (incr buf.reverse).reverse

/-- `BigNum::ToBytes` when the buffer is large enough (bignum.cc L508-533). -/
def bnFill (a : Int) (len : Nat) (e : Endian) : Option (List Nat) := do
  let buf ← match e with
    | .big => bn2binpad a len
    | .little => bn2lebinpad a len
  pure (if a < 0 then negateBytes buf e else buf)

/-- `BigNum::ToBytes` (bignum.cc L490-534); the native order is little-endian. -/
def bnToBytes (a : Int) (len : Nat) (e : Endian) : Option (List Nat) :=
  let byteCount := numBytes a
  if len < byteCount then do
    let tmp ← bnFill a byteCount e
    match e with
    | .little => pure (tmp.take len)
    | .big => pure ((tmp.drop (byteCount - len)).take len)
  else bnFill a len e

/-- `GMPInt::ToBytes` when the buffer is large enough (gmp_int.cc L606-632). -/
def gmpFill (a : Int) (len : Nat) (e : Endian) : List Nat :=
  let byteCount := (sizeInBase2 a + 7) / 8
  let buf := List.replicate len 0
  let buf := match e with
    | .little => patch buf 0 (mpzExport a .little)
    | .big => patch buf (len - byteCount) (mpzExport a .big)
  if a < 0 then negateBytes buf e else buf

/-- `GMPInt::ToBytes` (gmp_int.cc L594-633). -/
def gmpToBytes (a : Int) (len : Nat) (e : Endian) : List Nat :=
  let byteCount := (sizeInBase2 a + 7) / 8
  if len < byteCount then
    let tmp := gmpFill a byteCount e
    match e with
    | .little => tmp.take len
    | .big => (tmp.drop (byteCount - len)).take len
  else gmpFill a len e

/-- `BigNum::SerializeSize` (bignum.cc L438-440). -/
def bnSerializeSize (a : Int) : Nat := numBits a / 8 + 1

/-- Or-ing a bit pattern into one byte. -/
def orByte (buf : List Nat) (i v : Nat) : List Nat := buf.set i (buf.getD i 0 ||| v)

/-- `BigNum::Serialize(buf, buf_len)` (bignum.cc L449-467). -/
def bnSerializeTo (a : Int) (len : Nat) : Option (List Nat) :=
  let total := bnSerializeSize a
  if len < total then none
  else (bn2lebinpad a len).map fun buf => orByte buf (total - 1) (if a < 0 then 128 else 0)

/-- `BigNum::Serialize()` (bignum.cc L442-447). -/
def bnSerialize (a : Int) : Option (List Nat) := bnSerializeTo a (bnSerializeSize a)

/-- `BigNum::Deserialize` (bignum.cc L469-477). -/
def bnDeserialize (buf : List Nat) : Option Int :=
  if buf = [] then none
  else
    let n := lebin2bn buf
    let idx := buf.length * 8 - 1
    some (if n.natAbs.testBit idx then setNegative (n - 2 ^ idx) true else n)

/-- `GMPInt::SerializeSize` (gmp_int.cc L538-540). -/
def gmpSerializeSize (a : Int) : Nat := sizeInBase2 a / 8 + 1

/-- `GMPInt::Serialize(buf, buf_len)` (gmp_int.cc L549-573) into a buffer that holds
    `buf` before. -/
def gmpSerializeTo (a : Int) (buf : List Nat) : Option (List Nat) :=
  let total := gmpSerializeSize a
  if buf.length < total then none
  else
    let buf := buf.set (total - 1) 0
    let out := mpzExport a .little
    let buf := patch buf 0 out
    if total = out.length ∨ total = out.length + 1 then
      some (orByte buf (total - 1) (if a < 0 then 128 else 0))
    else none

/-- `GMPInt::Serialize()` (gmp_int.cc L542-547); `fill` is what the fresh buffer holds. -/
def gmpSerialize (fill : Nat) (a : Int) : Option (List Nat) :=
  gmpSerializeTo a (List.replicate (gmpSerializeSize a) fill)

/-- `GMPInt::Deserialize` (gmp_int.cc L575-584). -/
def gmpDeserialize (buf : List Nat) : Option Int :=
  if buf = [] then none
  else
    let n := mpzImport buf .little
    let idx := buf.length * 8 - 1
    some (if n.natAbs.testBit idx then -(n - 2 ^ idx) else n)

/-! ### bits -/

/-- A bitwise operator of `BigNum` (bignum.cc L648-697): two's complement bytes, byte by
    byte, and back. -/
def bnBitwise (op : Nat → Nat → Nat) (a b : Int) : Option Int := do
  let maxBits := max (numBits a) (numBits b)
  let n := (maxBits + 7) / 8 + 1
  let x ← bnToBytes a n .little
  let y ← bnToBytes b n .little
  pure (signedLebin2bn (List.zipWith op x y))

/-- `operator&`, `operator|`, `operator^` (bignum.cc L648, L665, L682). -/
def bnAnd := bnBitwise (· &&& ·)
def bnOr := bnBitwise (· ||| ·)
def bnXor := bnBitwise (· ^^^ ·)

/-- `BigNum::GetBit` (bignum.cc L410-412): `BN_is_bit_set` looks at the absolute value. -/
def bnGetBit (a : Int) (i : Nat) : Nat := if a.natAbs.testBit i then 1 else 0

/-- `BN_set_bit` and `BN_clear_bit` on the absolute value. -/
def setBitNat (n i : Nat) : Nat := n ||| 2 ^ i
def clearBitNat (n i : Nat) : Nat := if n.testBit i then n - 2 ^ i else n

/-- `BigNum::SetBit` (bignum.cc L414-424). -/
def bnSetBit (a : Int) (i bit : Nat) : Int :=
  if bit = 0 then
    if i < numBits a then setNegative (clearBitNat a.natAbs i) (decide (a < 0)) else a
  else setNegative (setBitNat a.natAbs i) (decide (a < 0))

/-- `GMPInt::GetBit` (gmp_int.cc L494-501): the limb is that of the absolute value. -/
def gmpGetBit (a : Int) (i : Nat) : Nat :=
  if a < 0 then a.natAbs / 2 ^ (64 * (i / 64)) % 2 ^ 64 / 2 ^ (i % 64) % 2
  else if a.natAbs.testBit i then 1 else 0

/-- `GMPInt::SetBit` (gmp_int.cc L503-524): the sign is taken off and put back. -/
def gmpSetBit (a : Int) (i bit : Nat) : Int :=
  if a < 0 then
    -((if bit = 0 then clearBitNat a.natAbs i else setBitNat a.natAbs i : Nat) : Int)
  else ((if bit = 0 then clearBitNat a.natAbs i else setBitNat a.natAbs i : Nat) : Int)

/-- `operator>>` of both classes (bignum.cc L758-765, gmp_int.cc L176-185): `BN_rshift`
    and `mpz_tdiv_q_2exp` shift the absolute value. -/
def shiftRight (a : Int) (k : Nat) : Int := a.tdiv (2 ^ k)

/-! ### built-in integers -/

/-- `Get<T>` for a signed type of `w` bits (bignum.h L69-81, gmp_int.h L84-108): the low
    bits of the absolute value, converted to the signed type and negated; `none` when the
    negation overflows, which C++ leaves undefined (types narrower than `int` are negated
    as `int`). -/
def getSigned (w : Nat) (a : Int) : Option Int :=
  let n := a.natAbs % 2 ^ w
  let t : Int := if n < 2 ^ (w - 1) then n else n - 2 ^ w
  if a < 0 then
    if t = -2 ^ (w - 1) then (if w < 32 then some t else none) else some (-t)
  else some t

/-- `Get<T>` for an unsigned type. -/
def getUnsigned (w : Nat) (a : Int) : Nat := a.natAbs % 2 ^ w

/-! ### GMP's random numbers -/

/-- What a thread asks of the generator: `mpz_urandomb` or `mpz_urandomm`
    (gmp_int.cc L300-325). -/
inductive Request | bits (n : Nat) | below (n : Nat)

/-- The state of every thread: `thread_local RandState rand_state_` is built with
    `gmp_randinit_default` and never seeded (gmp_int.h L220-236, gmp_int.cc L53).
    `gen` is GMP's generator, any deterministic function. -/
structure Gen (S : Type) where
  start : S
  gen : S → Request → S × Int

/-- A run of a process: thread `tid` makes a request; the numbers come out in order,
    with the thread that got them. -/
def run {S : Type} (g : Gen S) : (Nat → S) → List (Nat × Request) → List (Nat × Int)
  | _, [] => []
  | st, (tid, r) :: rest =>
    let out := g.gen (st tid) r
    (tid, out.2) :: run g (fun t => if t = tid then out.1 else st t) rest

/-- A process starts with every thread's state fresh. -/
def process {S : Type} (g : Gen S) (calls : List (Nat × Request)) : List (Nat × Int) :=
  run g (fun _ => g.start) calls

end Yacl.BigInt.Back
