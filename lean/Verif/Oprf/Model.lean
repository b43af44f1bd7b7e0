import Verif.Vss.Props

/-! Oblivious pseudo random functions: yacl/crypto/oprf/{oprf.h, voprf.h, oprf_ctx.h, oprf_ctx.cc}.
Properties C93, C94, C95.

`MPInt` is `Int`, bytes are `BitVec 8`.  The curve group is an arbitrary commutative group `G`; `Mul(P, k)` is `k • P`,
`Add` and `Sub` are its operations, the generator is a parameter.  `HashToGroup`, `HashToScalar`, `SerializePoint` and the
hash function are arbitrary functions of their input (the domain separation strings they are called with are constants of
the context).  Random draws are arguments.  `none` is an exception. -/
namespace Yacl.Oprf
open Vss (invertMod)

abbrev Bytes := List (BitVec 8)

/-- A string literal as the bytes of its (ASCII) characters. -/
def lit (s : String) : Bytes := s.toList.map fun c => BitVec.ofNat 8 c.toNat

/-! ### oprf_ctx.h -/

/-- The `xlen` low bytes of `x`, least significant first: the memory of a little-endian `size_t` (oprf_ctx.h L45-48). -/
def leBytes : Nat → Nat → Bytes
  | _, 0 => []
  | x, n + 1 => BitVec.ofNat 8 x :: leBytes (x / 256) n

/-- oprf_ctx.h L42-54 `I2OSP`; it is called with lengths 1 and 2 only (a length above 8 reads past `x`). -/
def i2osp (x xlen : Nat) : Option Bytes :=
  if x < 256 ^ xlen then some (if 1 < xlen then (leBytes x xlen).reverse else leBytes x xlen) else none

/-- The group, the hashes and the serialisation a context provides: oprf_ctx.h L176-313 `OprfCtx`. -/
structure Ctx (G : Type) where
  /-- `EcGroup::GetOrder()` -/
  order : Nat
  /-- `EcGroup::GetGenerator()` -/
  gen : G
  /-- oprf_ctx.h L265-284 -/
  hashToGroup : Bytes → G
  /-- oprf_ctx.h L286-305 -/
  hashToScalar : Bytes → Int
  /-- oprf_ctx.h L286-305 with the prefix "DeriveKeyPair" -/
  hashToScalarDerive : Bytes → Int
  /-- `EcGroup::SerializePoint` -/
  ser : G → Bytes
  /-- `SslHash(GetHashAlgorithm())` -/
  hash : Bytes → Bytes
  /-- `GetContextString()` -/
  ctxStr : Bytes

/-- "I2OSP(len(b), 2) || b": the pairs of `memcpy` of oprf.h L168-182, voprf.h L102-109, L129-148, L193-221. -/
def frame (b : Bytes) : Option Bytes := (i2osp b.length 2).map (· ++ b)

/-! ### oprf.h: the client -/

/-- oprf.h L207-209, voprf.h L544-546: the client's scalars (a new `MPInt` is zero). -/
structure Client where
  blind : Int
  blindInv : Int := 0
deriving DecidableEq, Repr

variable {G : Type} [AddCommGroup G]

/-- oprf.h L138-145, voprf.h L314-323 `Blind`. -/
def blind (X : Ctx G) (c : Client) (input : Bytes) : G := c.blind • X.hashToGroup input

/-- oprf.h L77-83 `OprfServer::BlindEvaluate`. -/
def blindEvaluate (sk : Int) (e : G) : G := sk • e

/-- oprf.h L161-185: the buffer `Finalize` hashes. -/
def finalizeInput (input pointBuf : Bytes) : Option Bytes :=
  if input.length ≤ 2 ^ 16 ∧ pointBuf.length ≤ 2 ^ 16 then do
    let a ← frame input
    let b ← frame pointBuf
    pure (a ++ b ++ lit "Finalize")
  else none

/-- oprf.h L147-189, voprf.h L485-520 `Finalize` (after the proof check): the result and the client left behind.  The
inverse is computed when the cached one is zero, and stays cached also when a later step throws. -/
def finalize (X : Ctx G) (c : Client) (e : G) (input : Bytes) : Option Bytes × Client :=
  match (if c.blindInv = 0 then invertMod c.blind X.order else some c.blindInv) with
  | none => (none, c)
  | some inv => ((finalizeInput input (X.ser (inv • e))).map X.hash, { c with blindInv := inv })

/-- The calls a program can make on a client between two evaluations. -/
inductive Op (G : Type) where
  /-- `RefreshBlind()` or `SetupCtx(config)` of the same configuration, with the value `RandomLtN` drew. -/
  | refresh (r : Int)
  | clear
  | blind (input : Bytes)
  | finalize (e : G) (input : Bytes)

/-- oprf.h L191-201, voprf.h L523-533 `RefreshBlind`, `ClearBlind`; `Blind` changes nothing. -/
def step (X : Ctx G) (c : Client) : Op G → Client
  | .refresh r => { c with blind := r }
  | .clear => ⟨0, 0⟩
  | .blind _ => c
  | .finalize e input => (finalize X c e input).2

/-- A history of calls. -/
def run (X : Ctx G) (c : Client) (ops : List (Op G)) : Client := ops.foldl (step X) c

/-- One evaluation: the client blinds, the server multiplies, the client finalises. -/
def evaluate (X : Ctx G) (sk : Int) (c : Client) (input : Bytes) : Option Bytes :=
  (finalize X c (blindEvaluate sk (blind X c input)) input).1

/-! ### voprf.h: the proof -/

/-- voprf.h `Proof`. -/
structure Proof where
  c : Int
  s : Int
deriving DecidableEq, Repr

/-- voprf.h L96-114, L338-356: the seed of the composite scalars. -/
def seedOf (X : Ctx G) (pk : G) : Option Bytes := do
  let a ← frame (X.ser pk)
  let b ← frame (lit "Seed-" ++ X.ctxStr)
  pure (X.hash (a ++ b))

/-- voprf.h L122-151, L366-395: the transcript of element `i`. -/
def compositeInput (X : Ctx G) (seed : Bytes) (i : Nat) (c d : G) : Option Bytes := do
  let a ← frame seed
  let b ← i2osp i 2
  let u ← frame (X.ser c)
  let v ← frame (X.ser d)
  pure (a ++ b ++ u ++ v ++ lit "Composite")

/-- voprf.h L121-156: the loop of `ComputeCompositesFast` from index `i` on. -/
def fastLoop (X : Ctx G) (seed : Bytes) : Nat → List (G × G) → G → Option G
  | _, [], m => some m
  | i, (c, d) :: cds, m => do
    let t ← compositeInput X seed i c d
    fastLoop X seed (i + 1) cds (m + X.hashToScalar t • c)

/-- voprf.h L84-159 `ComputeCompositesFast`: `(m, z)`. -/
def compositesFast (X : Ctx G) (sk : Int) (pk : G) (bs es : List G) : Option (G × G) :=
  if bs.length = es.length then do
    let seed ← seedOf X pk
    let m ← fastLoop X seed 0 (bs.zip es) (X.gen - X.gen)
    pure (m, sk • m)
  else none

/-- voprf.h L365-403: the loop of `ComputeComposites` from index `i` on. -/
def compLoop (X : Ctx G) (seed : Bytes) : Nat → List (G × G) → G × G → Option (G × G)
  | _, [], mz => some mz
  | i, (c, d) :: cds, (m, z) => do
    let t ← compositeInput X seed i c d
    compLoop X seed (i + 1) cds (m + X.hashToScalar t • c, z + X.hashToScalar t • d)

/-- voprf.h L326-404 `ComputeComposites`. -/
def composites (X : Ctx G) (pk : G) (bs es : List G) : Option (G × G) :=
  if bs.length = es.length then do
    let seed ← seedOf X pk
    compLoop X seed 0 (bs.zip es) (X.gen - X.gen, X.gen - X.gen)
  else none

/-- voprf.h L182-224, L422-464: the challenge transcript. -/
def challengeInput (X : Ctx G) (pk m z t2 t3 : G) : Option Bytes := do
  let a ← frame (X.ser pk)
  let b ← frame (X.ser m)
  let c ← frame (X.ser z)
  let d ← frame (X.ser t2)
  let e ← frame (X.ser t3)
  pure (a ++ b ++ c ++ d ++ e ++ lit "Challenge")

/-- voprf.h L161-232 `GenerateProof`; `r` is the given randomness when it is not zero and the draw otherwise. -/
def generateProof (X : Ctx G) (sk : Int) (pk : G) (bs es : List G) (randomness draw : Int) : Option Proof := do
  let (m, z) ← compositesFast X sk pk bs es
  let r := if randomness = 0 then draw else randomness
  let t ← challengeInput X pk m z (r • X.gen) (r • m)
  let c := X.hashToScalar t
  pure ⟨c, (r - c * sk) % X.order⟩

/-- voprf.h L236-252 `BlindEvaluate`. -/
def vBlindEvaluate (X : Ctx G) (sk : Int) (pk : G) (b : G) (randomness draw : Int) : Option (G × Proof) :=
  (generateProof X sk pk [b] [sk • b] randomness draw).map fun p => (sk • b, p)

/-- voprf.h L407-469 `VerifyProof` of a client that received the public key `pk`. -/
def verifyProof (X : Ctx G) (pk : G) (bs es : List G) (p : Proof) : Option Bool := do
  let (m, z) ← composites X pk bs es
  let t ← challengeInput X pk m z (p.s • X.gen + p.c • pk) (p.s • m + p.c • z)
  pure (decide (p.c - X.hashToScalar t = 0))

/-- voprf.h L471-521 `Finalize`. -/
def vFinalize (X : Ctx G) (pk : G) (c : Client) (e b : G) (p : Proof) (input : Bytes) : Option Bytes × Client :=
  match verifyProof X pk [b] [e] p with
  | some true => finalize X c e input
  | _ => (none, c)

/-! ### oprf_ctx.h, oprf_ctx.cc: context strings and key derivation -/

/-- oprf_ctx.h L61-67 `OprfCipherSuite`. -/
inductive Suite where
  | ristretto255 | decaf448 | p256 | p384 | p521
deriving DecidableEq, Repr

/-- oprf_ctx.h L96-111 `CipherSuiteToStr`. -/
def Suite.toStr : Suite → Bytes
  | .ristretto255 => lit "ristretto255-SHA512"
  | .decaf448 => lit "decaf448-SHAKE256"
  | .p256 => lit "P256-SHA256"
  | .p384 => lit "P384-SHA384"
  | .p521 => lit "P521-SHA512"

/-- oprf_ctx.h L80-94 `CipherSuiteFromStr`. -/
def Suite.fromStr (s : Bytes) : Option Suite :=
  if s = lit "ristretto255-SHA512" then some .ristretto255
  else if s = lit "decaf448-SHAKE256" then some .decaf448
  else if s = lit "P256-SHA256" then some .p256
  else if s = lit "P384-SHA384" then some .p384
  else if s = lit "P521-SHA512" then some .p521
  else none

/-- oprf_ctx.h L151-154 `ToContextString`; the mode is one raw byte. -/
def toContextString (mode : BitVec 8) (s : Suite) : Bytes := lit "OPRFV1-" ++ [mode] ++ lit "-" ++ s.toStr

/-- `absl::StrSplit(str, sep)`: the pieces between the separators, the empty ones included. -/
def strSplit (sep : BitVec 8) : Bytes → List Bytes
  | [] => [[]]
  | c :: cs =>
    if c = sep then [] :: strSplit sep cs
    else match strSplit sep cs with
      | [] => [[c]]
      | h :: t => (c :: h) :: t

/-- oprf_ctx.h L157-165 `FromContextString`. -/
def fromContextString (str : Bytes) : Option (BitVec 8 × Suite) :=
  match strSplit 0x2d#8 str with
  | [a, b, c] =>
    if a = lit "OPRFV1" then
      match b with
      | [mode] => (Suite.fromStr c).map fun s => (mode, s)
      | _ => none
    else none
  | _ => none

/-- Outcomes of code that can write out of bounds. -/
inductive Out (α : Type) where
  | ok (a : α)
  | throw
  | ub
deriving DecidableEq, Repr

/-- oprf_ctx.cc L51-58: the retry loop.  `buf` is `derive_input`, `p` the write position; `fuel` is `256 - counter`. -/
def deriveLoop (X : Ctx G) : Nat → Bytes → Nat → Out Int
  | 0, _, _ => .throw
  | fuel + 1, buf, p =>
    if p < buf.length then
      let buf' := buf.set p (BitVec.ofNat 8 (255 - fuel))
      let sk := X.hashToScalarDerive buf'
      if sk = 0 then deriveLoop X fuel buf' (p + 1) else .ok sk
    else .ub

/-- oprf_ctx.cc L28-61 `DeriveKeyPair`; the last byte of the buffer is uninitialised, `junk`. -/
def deriveKeyPair (X : Ctx G) (seed info : Bytes) (junk : BitVec 8) : Out (Int × G) :=
  if info.length < 2 ^ 16 then
    match i2osp info.length 2 with
    | none => .throw
    | some l =>
      match deriveLoop X 256 (seed ++ l ++ info ++ [junk]) (seed.length + 2 + info.length) with
      | .ok sk => .ok (sk, sk • X.gen)
      | .throw => .throw
      | .ub => .ub
  else .throw

end Yacl.Oprf
