import Mathlib.Algebra.Group.Basic
import Mathlib.Algebra.Module.Defs
import Mathlib.Data.Int.GCD

/-!
# `crypto/ecc/openssl/openssl_group.cc`: the OpenSSL curve backend

An `EcPoint` of this backend is an `AnyPtr`: a `shared_ptr` to an `EC_POINT`.
Copying an `EcPoint` copies the pointer, not the point.  The model keeps the
`EC_POINT` objects in a heap and the program's `EcPoint` variables as pointers
into it.

OpenSSL itself is not modelled: `Lib` collects what the code asks of it, and
`Lib.Ok` what its documentation promises.  `P` is the set of points of the curve
with its group law.
-/

namespace Verif.Ecc.Openssl

/-- `point_conversion_form_t`. -/
inductive Form
  | compressed
  | uncompressed
  | hybrid
  deriving DecidableEq

/-- `PointOctetFormat` (`ec_point.h:29-61`). -/
inductive Format
  | autonomous
  | plainUncompressed
  | x962Compressed
  | x962Uncompressed
  | x962Hybrid
  | zcash
  deriving DecidableEq

/-- The `switch` over formats (`openssl_group.cc:206-216,234-244,259-269`, three
times the same). -/
def formOf : Format → Form
  | .x962Uncompressed => .uncompressed
  | .x962Hybrid => .hybrid
  | _ => .compressed

/-- What the code uses of OpenSSL, for one `EC_GROUP`. -/
structure Lib (P : Type) where
  /-- `EC_GROUP_get0_generator`. -/
  gen : P
  /-- `EC_GROUP_get0_order`. -/
  order : Nat
  /-- `EC_GROUP_get_curve`: the field characteristic. -/
  field : Nat
  /-- `EC_POINT_mul(r, n, q, m)`, with a missing `n` or `q` as 0. -/
  mul : Int → P → Int → P
  /-- `EC_POINT_is_at_infinity`, `EC_POINT_get_affine_coordinates`: `none` at
  infinity. -/
  affine : P → Option (Nat × Nat)
  /-- `EC_POINT_set_affine_coordinates`: `none` when the point is not on the curve. -/
  setAffine : Int → Int → Option P
  /-- `EC_POINT_point2oct`. -/
  toOct : Form → P → List UInt8
  /-- `EC_POINT_oct2point`: `none` is an error. -/
  ofOct : List UInt8 → Option P
  /-- `EC_POINT_set_compressed_coordinates(x, y_bit)`. -/
  decompress : Nat → Bool → Option P

/-- What OpenSSL documents about these functions. -/
structure Lib.Ok {P : Type} [AddCommGroup P] (L : Lib P) : Prop where
  order_pos : 0 < L.order
  /-- Every curve of the list has an order of at most 571 bits. -/
  order_lt : L.order < 2 ^ 8192
  order_gen : (L.order : Int) • L.gen = 0
  field_pos : 0 < L.field
  mul_eq : ∀ n q m, L.mul n q m = n • L.gen + m • q
  affine_zero : ∀ p, L.affine p = none ↔ p = 0
  affine_inj : ∀ p q, L.affine p = L.affine q → p = q
  setAffine_affine : ∀ p x y, L.affine p = some (x, y) → L.setAffine x y = some p
  setAffine_ne : ∀ x y p, L.setAffine x y = some p → p ≠ 0
  toOct_zero : ∀ f, L.toOct f 0 = [0]
  toOct_ne : ∀ f p, p ≠ 0 → ∃ z t, L.toOct f p = z :: t ∧ z ≠ 0
  toOct_len : ∀ f p q, p ≠ 0 → q ≠ 0 → (L.toOct f p).length = (L.toOct f q).length
  ofOct_toOct : ∀ f p, L.ofOct (L.toOct f p) = some p
  gen_ne : L.gen ≠ 0
  decompress_x : ∀ x b p, x < L.field → L.decompress x b = some p →
    ∃ y, L.affine p = some (x, y)

/-! ## The program's state -/

/-- `EcPoint` (`ec_point.h:98`): the pointer and the affine alternatives; the
byte arrays, which this backend never produces, are one value. -/
inductive Pt
  | ptr (h : Nat)
  | affine (x y : Int)
  | bytes
  deriving DecidableEq

/-- The `EC_POINT`s and the program's variables of type `EcPoint`.  Cell 0 is the
point `generator_` of the group object points to. -/
structure St (P : Type) where
  heap : List P
  vars : Nat → Pt

/-- `OpensslGroup::OpensslGroup` (`openssl_group.cc:75-83`): `generator_` is a
copy of the generator; no variable holds a point yet. -/
def init {P : Type} (L : Lib P) : St P := { heap := [L.gen], vars := fun _ => .bytes }

/-- `CastAny<EC_POINT>` (`any_ptr.h:61-100`): the cell of a pointer; anything else
throws. -/
def cast {P : Type} (s : St P) (v : Pt) : Option (Nat × P) :=
  match v with
  | .ptr h => (s.heap[h]?).map fun p => (h, p)
  | _ => none

/-- A fresh `EC_POINT` with value `p`, assigned to variable `x`. -/
def alloc {P : Type} (s : St P) (x : Nat) (p : P) : St P :=
  { heap := s.heap ++ [p], vars := fun y => if y = x then .ptr s.heap.length else s.vars y }

/-- Write `p` to cell `h`. -/
def store {P : Type} (s : St P) (h : Nat) (p : P) : St P := { s with heap := s.heap.set h p }

/-- `Mp2Bn` (`openssl_group.cc:34-53`): magnitude and sign are carried over; more
than 1024 bytes do not fit the buffer and `ToMagBytes` throws. -/
def mp2bn (v : Int) : Option Int := if v.natAbs < 2 ^ 8192 then some v else none

/-- `scalar.InvertMod(order)` (`mp_int.cc:728-732`, libtommath `mp_invmod`): the
inverse modulo `n` in `[0, n)`, or an exception. -/
def invMod (s : Int) (n : Nat) : Option Int :=
  if Int.gcd s n = 1 then some (Int.gcdA s n % n) else none

/-- The calls a program makes on the group object; the first variable receives
the result, or is the object updated in place. -/
inductive Cmd
  | getGenerator (x : Nat)
  /-- C++ copy construction or assignment of an `EcPoint`. -/
  | copyHandle (x y : Nat)
  | copyPoint (x y : Nat)
  /-- An `AffinePoint` literal. -/
  | affineLit (x : Nat) (a b : Int)
  | getAffine (x y : Nat)
  | add (x y z : Nat)
  | addInplace (x y : Nat)
  | sub (x y z : Nat)
  | subInplace (x y : Nat)
  | double (x y : Nat)
  | doubleInplace (x : Nat)
  | negate (x y : Nat)
  | negateInplace (x : Nat)
  | mulBase (x : Nat) (s : Int)
  | mul (x y : Nat) (s : Int)
  | mulInplace (x : Nat) (s : Int)
  | mulDoubleBase (x : Nat) (s1 s2 : Int) (y : Nat)
  | div (x y : Nat) (s : Int)
  | divInplace (x : Nat) (s : Int)

/-- One call; `none` is an exception.  An exception leaves every variable and
every point as it was. -/
def step {P : Type} [AddCommGroup P] (L : Lib P) (s : St P) : Cmd → Option (St P)
  /- `openssl_group.cc:95`: the pointer itself. -/
  | .getGenerator x => some { s with vars := fun y => if y = x then .ptr 0 else s.vars y }
  | .copyHandle x y => some { s with vars := fun z => if z = x then s.vars y else s.vars z }
  /- `openssl_group.cc:172-190` -/
  | .copyPoint x y =>
    match s.vars y with
    | .ptr h => (cast s (.ptr h)).map fun c => alloc s x c.2
    | .affine a b => do
      let a ← mp2bn a
      let b ← mp2bn b
      let p ← L.setAffine a b
      some (alloc s x p)
    | .bytes => none
  | .affineLit x a b => some { s with vars := fun y => if y = x then .affine a b else s.vars y }
  /- `openssl_group.cc:192-202`: `AffinePoint{}` is `(0, 0)`. -/
  | .getAffine x y => do
    let c ← cast s (s.vars y)
    let a := match L.affine c.2 with
      | none => Pt.affine 0 0
      | some (a, b) => Pt.affine a b
    some { s with vars := fun z => if z = x then a else s.vars z }
  /- `openssl_group.cc:99-105` -/
  | .add x y z => do
    let a ← cast s (s.vars y)
    let b ← cast s (s.vars z)
    some (alloc s x (a.2 + b.2))
  /- `openssl_group.cc:107-111` -/
  | .addInplace x y => do
    let a ← cast s (s.vars x)
    let b ← cast s (s.vars y)
    some (store s a.1 (a.2 + b.2))
  /- `group_sketch.cc:23-25`: `Add(p1, Negate(p2))`; the temporary is dropped. -/
  | .sub x y z => do
    let b ← cast s (s.vars z)
    let a ← cast s (s.vars y)
    some (alloc s x (a.2 + -b.2))
  /- `group_sketch.cc:27-29` -/
  | .subInplace x y => do
    let b ← cast s (s.vars y)
    let a ← cast s (s.vars x)
    some (store s a.1 (a.2 + -b.2))
  /- `openssl_group.cc:113-118` -/
  | .double x y => do
    let a ← cast s (s.vars y)
    some (alloc s x (a.2 + a.2))
  /- `openssl_group.cc:120-123` -/
  | .doubleInplace x => do
    let a ← cast s (s.vars x)
    some (store s a.1 (a.2 + a.2))
  /- `openssl_group.cc:160-165` -/
  | .negate x y => do
    let a ← cast s (s.vars y)
    some (alloc s x (-a.2))
  /- `openssl_group.cc:167-170` -/
  | .negateInplace x => do
    let a ← cast s (s.vars x)
    some (store s a.1 (-a.2))
  /- `openssl_group.cc:125-134` -/
  | .mulBase x k => do
    let n ← mp2bn (k % L.order)
    some (alloc s x (L.mul n L.gen 0))
  /- `openssl_group.cc:136-142` -/
  | .mul x y k => do
    let m ← mp2bn k
    let a ← cast s (s.vars y)
    some (alloc s x (L.mul 0 a.2 m))
  /- `openssl_group.cc:144-148` -/
  | .mulInplace x k => do
    let m ← mp2bn k
    let a ← cast s (s.vars x)
    some (store s a.1 (L.mul 0 a.2 m))
  /- `openssl_group.cc:150-158` -/
  | .mulDoubleBase x k1 k2 y => do
    let n ← mp2bn (k1 % L.order)
    let m ← mp2bn (k2 % L.order)
    let a ← cast s (s.vars y)
    some (alloc s x (L.mul n a.2 m))
  /- `group_sketch.cc:48-57` -/
  | .div x y k =>
    if k = 0 then none
    else if 0 < k then do
      let m ← invMod k L.order
      let m ← mp2bn m
      let a ← cast s (s.vars y)
      some (alloc s x (L.mul 0 a.2 m))
    else do
      let m ← invMod (k.natAbs : Int) L.order
      let m ← mp2bn m
      let a ← cast s (s.vars y)
      some (alloc s x (-(L.mul 0 a.2 m)))
  /- `group_sketch.cc:59-69` -/
  | .divInplace x k =>
    if k = 0 then none
    else if 0 < k then do
      let m ← invMod k L.order
      let m ← mp2bn m
      let a ← cast s (s.vars x)
      some (store s a.1 (L.mul 0 a.2 m))
    else do
      let m ← invMod (k.natAbs : Int) L.order
      let m ← mp2bn m
      let a ← cast s (s.vars x)
      some (store s a.1 (-(L.mul 0 a.2 m)))

/-- A program: calls one after the other; a call that throws changes nothing and
the program goes on. -/
def run {P : Type} [AddCommGroup P] (L : Lib P) (s : St P) (cs : List Cmd) : St P :=
  cs.foldl (fun s c => (step L s c).getD s) s

/-! ## Queries -/

/-- `SerializePoint(point, format)` (`openssl_group.cc:224-254`). -/
def serialize {P : Type} (L : Lib P) (f : Format) (p : P) : List UInt8 := L.toOct (formOf f) p

/-- `GetSerializeLength(format)` (`openssl_group.cc:204-222`): the length of the
generator's encoding. -/
def serializeLength {P : Type} (L : Lib P) (f : Format) : Nat := (L.toOct (formOf f) L.gen).length

/-- `SerializePoint(point, format, buf, buf_size)` (`openssl_group.cc:256-281`):
the new content of the buffer, or an exception. -/
def serializeTo {P : Type} (L : Lib P) (f : Format) (p : P) (bufSize : Nat) : Option (List UInt8) :=
  let o := L.toOct (formOf f) p
  if o.length ≤ bufSize then some (o ++ List.replicate (bufSize - o.length) 0) else none

/-- The outcome of a call that may read outside its argument. -/
inductive Res (α : Type)
  | ok (a : α)
  | throws
  | outOfBounds
  deriving DecidableEq

/-- `DeserializePoint(buf)` (`openssl_group.cc:283-291`): an empty or zero-led
buffer is read for one byte. -/
def deserialize {P : Type} (L : Lib P) (buf : List UInt8) : Res P :=
  let len := if buf ≠ [] ∧ buf.head? ≠ some 0 then buf.length else 1
  if buf.length < len then .outOfBounds
  else match L.ofOct (buf.take len) with
    | some p => .ok p
    | none => .throws

/-- `HashBn` (`openssl_group.cc:447-456`): `BN_num_bytes(0)` is 0 and
`BN_bn2lebinpad` then returns 0, which fails the check.  `h` is
`std::hash<string_view>` of the little-endian bytes of the number. -/
def hashBn (h : Nat → Nat) (x : Nat) : Option Nat := if x = 0 then none else some (h x)

/-- `HashPoint` (`openssl_group.cc:460-475`); `size_t` addition wraps. -/
def hashPoint {P : Type} (L : Lib P) (h : Nat → Nat) (p : P) : Option Nat :=
  match L.affine p with
  | none => some 0
  | some (x, y) => (hashBn h x).map fun v => (v + y % 2) % 2 ^ 64

/-- The hash functions of `HashToCurve`. -/
inductive HashAlg
  | blake3
  | shake128
  | shake256
  | sm3
  deriving DecidableEq

/-- The re-hash strategies of `HashToCurve` (`openssl_group.cc:298-324`). -/
inductive Strategy
  | sha2
  | sha3
  | sm
  | blake3
  | autonomous
  deriving DecidableEq

/-- The hash algorithm chosen (`openssl_group.cc:298-324`); `none` throws. -/
def chooseAlg (curve : String) (bits : Nat) : Strategy → Option HashAlg
  | .sha2 => none
  | .sha3 => some (if bits ≤ 256 then .shake128 else .shake256)
  | .sm => if curve = "SM2" then some .sm3 else none
  | .blake3 => some .blake3
  | .autonomous => some .blake3

/-- One hash of the loop (`openssl_group.cc:374-383,398-407`).  `H alg len` is
the hash with `len` bytes of output (SM3 has its own length). -/
def rehash (H : HashAlg → Nat → List UInt8 → List UInt8) (alg : HashAlg) (bits : Nat)
    (m : List UInt8) : List UInt8 :=
  match alg with
  | .blake3 => H .blake3 ((bits + 7) / 8) m
  | .shake128 => H .shake128 ((bits + 7) / 8) m
  | .shake256 => H .shake128 ((bits + 7) / 8) m
  | .sm3 => H .sm3 32 m

/-- `BN_bin2bn`: big-endian bytes as a number. -/
def bin2bn (b : List UInt8) : Nat := b.foldl (fun acc d => acc * 256 + d.toNat) 0

/-- The loop (`openssl_group.cc:385-411`) with `fuel` tries left. -/
def tryLoop {P : Type} (L : Lib P) (nxt : List UInt8 → List UInt8) : Nat → List UInt8 → Option P
  | 0, _ => none
  | fuel + 1, buf =>
    match L.decompress (bin2bn buf % L.field) false with
    | some p => some p
    | none => tryLoop L nxt fuel (nxt buf)

/-- `HashToCurve` for the re-hash strategies (`openssl_group.cc:293-412`);
`kHashToCurveCounterGuard` is 100. -/
def hashToCurve {P : Type} (L : Lib P) (H : HashAlg → Nat → List UInt8 → List UInt8)
    (curve : String) (bits : Nat) (st : Strategy) (msg : List UInt8) : Option P := do
  let alg ← chooseAlg curve bits st
  tryLoop L (rehash H alg bits) 100 (rehash H alg bits msg)

end Verif.Ecc.Openssl
