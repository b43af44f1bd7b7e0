import Verif.Ecc.OpensslModel

/-!
# `crypto/ecc/mcl/mcl_ec_group.cc`: the curve backend over libmcl

As with OpenSSL an `EcPoint` is a `shared_ptr` to the library's point (here
`mcl::EcT`), so the heap, the variables and the calls are those of
`Verif.Ecc.Openssl`.  libmcl is a parameter (`Mcl`); what is asked of it is the
contract of the properties.  Modelled are the standard curves over a prime field
(`MCL_EC_BEGIN` and up); of the pairing curves only the arithmetic, which is the
same code.
-/

namespace Verif.Ecc.Mcl

open Verif.Ecc.Openssl (Pt St Cmd cast alloc store invMod Format)

abbrev Bytes := List UInt8

/-- `n` bytes, little endian, of `v` modulo `256 ^ n`. -/
def leB : Nat → Nat → Bytes
  | 0, _ => []
  | n + 1, v => UInt8.ofNat v :: leB n (v / 256)

/-- The number a little-endian byte string stands for. -/
def leV : Bytes → Nat
  | [] => 0
  | b :: bs => b.toNat + 256 * leV bs

/-- What the code uses of libmcl for one curve; `P` is the set of points. -/
structure Mcl (P : Type) where
  /-- The static generator of the factory (`mcl_ec_factory.cc:31-41`). -/
  gen : P
  /-- `Zn::BaseFp::getOp().mp`. -/
  order : Nat
  /-- `Fp::BaseFp::getOp().mp`. -/
  p : Nat
  /-- `Fp::getByteSize()`. -/
  sz : Nat
  /-- `Ec::mul`. -/
  mul : P → Int → P
  /-- `Ec::mulCT`. -/
  mulCT : P → Int → P
  /-- `Ec::mulVecMT` of two points. -/
  mulVec : P → P → Int → Int → P
  /-- `isZero`, `normalize`, `x` and `y`: `none` for infinity. -/
  affine : P → Option (Nat × Nat)
  /-- `Ec::set(x, y)`: throws off the curve. -/
  set : Nat → Nat → Option P
  /-- What becomes of `GetMclPoint` when `Fp::deserialize` failed on a coordinate
  and left the field element without a value: anything. -/
  setJunk : Int → Int → Option P
  /-- `Ec::getYfromX`, with the `x` it was given. -/
  lift : Nat → Bool → Option P
  /-- `mcl::ec::tryAndIncMapTo`. -/
  tryInc : Nat → P
  /-- The low word of the internal representation of a field element (`getUnit`). -/
  unit : Nat → Nat

/-- What `Fp::deserialize` leaves in the field element: the number read; nothing
new, when there are too few bytes; or something unspecified, when the number is
not below `p`.  It reports the last two by returning 0, which no caller looks at. -/
inductive FpRes
  | value (v : Nat)
  | unchanged
  | junk
  deriving DecidableEq

/-- `Fp::deserialize(buf, n)`. -/
def fpDeser {P : Type} (M : Mcl P) (buf : Bytes) : FpRes :=
  if buf.length < M.sz then .unchanged
  else if leV (buf.take M.sz) < M.p then .value (leV (buf.take M.sz)) else .junk

/-- `MPInt::ToBytes(size, Endian::little)` (`tommath_ext_features.cc:297-341`):
two's complement, cut to `size` bytes. -/
def toBytes (n : Nat) (v : Int) : Bytes := leB n (v % (256 : Int) ^ n).toNat

/-- `GetMclPoint` (`mcl_ec_group.cc:175-187`). -/
def getMclPoint {P : Type} (M : Mcl P) (a b : Int) : Option P :=
  match fpDeser M (toBytes M.sz a), fpDeser M (toBytes M.sz b) with
  | .value x, .value y => M.set x y
  | _, _ => M.setJunk a b

/-- `Ec::mul` or `Ec::mulCT`, after the flag of `SetConstTimeMul`
(`mcl_ec_group.cc:95-101,109-113,120-125,503-505`). -/
def mulBy {P : Type} (M : Mcl P) (ct : Bool) (q : P) (k : Int) : P :=
  if ct then M.mulCT q k else M.mul q k

/-- One call, with the value of the constant-time flag at that moment; `none` is
an exception.  Cell 0 of the heap is the generator all group objects of the curve
point to. -/
def step {P : Type} [AddCommGroup P] (M : Mcl P) (ct : Bool) (s : St P) : Cmd → Option (St P)
  /- `mcl_ec_group.cc:58-61` -/
  | .getGenerator x => some { s with vars := fun y => if y = x then .ptr 0 else s.vars y }
  | .copyHandle x y => some { s with vars := fun z => if z = x then s.vars y else s.vars z }
  /- `mcl_ec_group.cc:158-172` -/
  | .copyPoint x y =>
    match s.vars y with
    | .ptr h => (cast s (.ptr h)).map fun c => alloc s x c.2
    | .affine a b => do
      let p ← getMclPoint M a b
      some (alloc s x p)
    | .bytes => none
  | .affineLit x a b => some { s with vars := fun y => if y = x then .affine a b else s.vars y }
  /- `mcl_ec_group.cc:507-527`: `AffinePoint{}` is `(0, 0)`. -/
  | .getAffine x y => do
    let c ← cast s (s.vars y)
    let a := match M.affine c.2 with
      | none => Pt.affine 0 0
      | some (a, b) => Pt.affine (leV (leB M.sz a)) (leV (leB M.sz b))
    some { s with vars := fun z => if z = x then a else s.vars z }
  /- `mcl_ec_group.cc:68-73` -/
  | .add x y z => do
    let a ← cast s (s.vars y)
    let b ← cast s (s.vars z)
    some (alloc s x (a.2 + b.2))
  /- `mcl_ec_group.cc:75-78` -/
  | .addInplace x y => do
    let a ← cast s (s.vars x)
    let b ← cast s (s.vars y)
    some (store s a.1 (a.2 + b.2))
  /- `group_sketch.cc:23-25` -/
  | .sub x y z => do
    let b ← cast s (s.vars z)
    let a ← cast s (s.vars y)
    some (alloc s x (a.2 + -b.2))
  /- `group_sketch.cc:27-29` -/
  | .subInplace x y => do
    let b ← cast s (s.vars y)
    let a ← cast s (s.vars x)
    some (store s a.1 (a.2 + -b.2))
  /- `mcl_ec_group.cc:80-85` -/
  | .double x y => do
    let a ← cast s (s.vars y)
    some (alloc s x (a.2 + a.2))
  /- `mcl_ec_group.cc:87-90` -/
  | .doubleInplace x => do
    let a ← cast s (s.vars x)
    some (store s a.1 (a.2 + a.2))
  /- `mcl_ec_group.cc:146-151` -/
  | .negate x y => do
    let a ← cast s (s.vars y)
    some (alloc s x (-a.2))
  /- `mcl_ec_group.cc:153-156` -/
  | .negateInplace x => do
    let a ← cast s (s.vars x)
    some (store s a.1 (-a.2))
  /- `mcl_ec_group.cc:92-103`: the point is read through `GetGenerator()`. -/
  | .mulBase x k => do
    let g ← cast s (.ptr 0)
    some (alloc s x (mulBy M ct g.2 (k % M.order)))
  /- `mcl_ec_group.cc:105-115` -/
  | .mul x y k => do
    let a ← cast s (s.vars y)
    some (alloc s x (mulBy M ct a.2 (k % M.order)))
  /- `mcl_ec_group.cc:117-126` -/
  | .mulInplace x k => do
    let a ← cast s (s.vars x)
    some (store s a.1 (mulBy M ct a.2 (k % M.order)))
  /- `mcl_ec_group.cc:128-144` -/
  | .mulDoubleBase x k1 k2 y => do
    let g ← cast s (.ptr 0)
    let a ← cast s (s.vars y)
    some (alloc s x (M.mulVec g.2 a.2 (k1 % M.order) (k2 % M.order)))
  /- `group_sketch.cc:48-57` -/
  | .div x y k =>
    if k = 0 then none
    else if 0 < k then do
      let m ← invMod k M.order
      let a ← cast s (s.vars y)
      some (alloc s x (mulBy M ct a.2 (m % M.order)))
    else do
      let m ← invMod (k.natAbs : Int) M.order
      let a ← cast s (s.vars y)
      some (alloc s x (-(mulBy M ct a.2 (m % M.order))))
  /- `group_sketch.cc:59-69` -/
  | .divInplace x k =>
    if k = 0 then none
    else if 0 < k then do
      let m ← invMod k M.order
      let a ← cast s (s.vars x)
      some (store s a.1 (mulBy M ct a.2 (m % M.order)))
    else do
      let m ← invMod (k.natAbs : Int) M.order
      let a ← cast s (s.vars x)
      some (store s a.1 (-(mulBy M ct a.2 (m % M.order))))

/-- `mcl_ec_factory.cc:31-41`: cell 0 is the static generator; no variable holds
a point yet. -/
def init {P : Type} (M : Mcl P) : St P := { heap := [M.gen], vars := fun _ => .bytes }

/-- A program: calls, each with the flag it meets; one that throws changes
nothing and the program goes on. -/
def run {P : Type} [AddCommGroup P] (M : Mcl P) (s : St P) (cs : List (Bool × Cmd)) : St P :=
  cs.foldl (fun s c => (step M c.1 s c.2).getD s) s

/-! ## Bytes -/

/-- `GetSerializeLength` (`mcl_ec_group.cc:189-213`); `none` throws. -/
def serializeLength {P : Type} (M : Mcl P) : Format → Option Nat
  | .x962Uncompressed | .x962Hybrid => some (M.sz * 2 + 1)
  | .autonomous | .x962Compressed => some (M.sz + 1)
  | _ => none

/-- `Ec::serialize` with `IoEcAffineSerialize`: `x‖y`, all zeros for infinity. -/
def affineBytes {P : Type} (M : Mcl P) (q : P) : Bytes :=
  match M.affine q with
  | none => List.replicate (2 * M.sz) 0
  | some (x, y) => leB M.sz x ++ leB M.sz y

/-- `isOdd` of the normalized `y`, which is 0 for infinity. -/
def yOdd {P : Type} (M : Mcl P) (q : P) : Bool :=
  match M.affine q with
  | none => false
  | some (_, y) => y % 2 == 1

/-- What the `switch` of `SerializePoint` writes, and `write_bits`, the number it
is counted for (`mcl_ec_group.cc:275-322`). -/
def written {P : Type} (M : Mcl P) (q : P) : Format → Option (Bytes × Nat)
  | .x962Uncompressed => some (4 :: affineBytes M q, (affineBytes M q).length)
  | .x962Hybrid => some ((if yOdd M q then 7 else 6) :: affineBytes M q, (affineBytes M q).length)
  | .autonomous | .x962Compressed =>
    match M.affine q with
    | none => some (List.replicate (M.sz + 1) 0, M.sz + 1)
    | some (x, _) => some ((if yOdd M q then 3 else 2) :: leB M.sz x, M.sz)
  | _ => none

/-- `SerializePoint(point, format, buf, buf_size)` (`mcl_ec_group.cc:249-326`):
the content of the buffer afterwards. -/
def serializeTo {P : Type} (M : Mcl P) (f : Format) (q : P) (bufSize : Nat) : Option Bytes := do
  let len ← serializeLength M f
  if bufSize < len then none
  else do
    let (w, n) ← written M q f
    if bufSize > len then some (w.take n ++ List.replicate (bufSize - n) 0) else some w

/-- `SerializePoint(point, format)` and the overload with a `Buffer*`
(`mcl_ec_group.cc:215-230`). -/
def serialize {P : Type} (M : Mcl P) (f : Format) (q : P) : Option Bytes := do
  let len ← serializeLength M f
  serializeTo M f q len

/-- The outcome of `DeserializePoint`: a point of the curve; an object with
unspecified content, returned without an exception; or an exception. -/
inductive Out (P : Type)
  | point (q : P)
  | junk
  | throws
  deriving DecidableEq

/-- `Ec::deserialize` with `IoEcAffineSerialize`, its result not looked at. -/
def affineDeser {P : Type} (M : Mcl P) (b : Bytes) (zero : P) : Out P :=
  match fpDeser M b, fpDeser M (b.drop M.sz) with
  | .value x, .value y =>
    if x = 0 ∧ y = 0 then .point zero
    else match M.set x y with
      | some q => .point q
      | none => .junk
  | _, _ => .junk

/-- `DeserializePoint` (`mcl_ec_group.cc:328-382`). -/
def deserialize {P : Type} [Zero P] (M : Mcl P) (f : Format) (buf : Bytes) : Out P :=
  match serializeLength M f with
  | none => .throws
  | some len =>
    if buf.length < len then .throws
    else match f with
    | .x962Uncompressed =>
      if buf.head? = some 4 then affineDeser M ((buf.drop 1).take (len - 1)) 0 else .throws
    | .x962Hybrid =>
      if buf.head? = some 6 ∨ buf.head? = some 7 then affineDeser M ((buf.drop 1).take (len - 1)) 0
      else .throws
    | _ =>
      if buf.take len = List.replicate len 0 then .point 0
      else
        let odd := decide (buf.head? = some 3)
        match fpDeser M ((buf.drop 1).take (len - 1)) with
        | .value x =>
          match M.lift x odd with
          | some q => .point q
          | none => .throws
        | _ => .junk

/-! ## Hashes -/

/-- `HashPoint` (`mcl_ec_group.cc:477-486`); infinity normalizes to zero
coordinates.  `size_t` addition wraps. -/
def hashPoint {P : Type} (M : Mcl P) (q : P) : Nat :=
  match M.affine q with
  | none => M.unit 0
  | some (x, y) => (M.unit x + y % 2) % 2 ^ 64

/-- `HashToCurveStrategy` as `HashToStdCurve` distinguishes it. -/
inductive Strategy
  | sha2
  | sha3
  | sm
  | blake3
  | autonomous
  | p256Nu
  | p384Nu
  | p521Nu
  | other
  deriving DecidableEq

/-- The hash functions used. -/
inductive HashAlg
  | sha224
  | sha256
  | sha384
  | sha512
  | sm3
  | blake3
  deriving DecidableEq

/-- The `switch` (`mcl_ec_group.cc:392-431`) for the try-and-increment strategies. -/
def chooseAlg (bits : Nat) : Strategy → Option HashAlg
  | .sha2 => some (if bits ≤ 224 then .sha224 else if bits ≤ 256 then .sha256
      else if bits ≤ 384 then .sha384 else .sha512)
  | .sm => some .sm3
  | .blake3 | .autonomous => some .blake3
  | _ => none

/-- What `HashToStdCurve` returns: a pointer to a point, an object with
unspecified content, an `AffinePoint`, or an exception. -/
inductive HashOut (P : Type)
  | point (q : P)
  | junk
  | affine (x y : Int)
  | throws
  deriving DecidableEq

/-- `HashToStdCurve` (`mcl_ec_group.cc:384-445`).  `H alg len m` is the hash, of
`len` bytes for BLAKE3; `nist k m` is `EncodeToCurveP256`, `P384` or `P521`. -/
def hashToCurve {P : Type} (M : Mcl P) (bits : Nat) (H : HashAlg → Nat → Bytes → Bytes)
    (nist : Nat → Bytes → Int × Int) (st : Strategy) (m : Bytes) : HashOut P :=
  match st with
  | .p256Nu => .affine (nist 256 m).1 (nist 256 m).2
  | .p384Nu => .affine (nist 384 m).1 (nist 384 m).2
  | .p521Nu => .affine (nist 521 m).1 (nist 521 m).2
  | st =>
    match chooseAlg bits st with
    | none => .throws
    | some alg =>
      match fpDeser M (H alg ((bits + 7) / 8) m) with
      | .value v => .point (M.tryInc v)
      | .unchanged => .point (M.tryInc 0)
      | .junk => .junk

end Verif.Ecc.Mcl
