/-
Post-quantum key encapsulation and signatures: crypto/pqc/kem.cc and crypto/pqc/sig.cc.
liboqs appears as a structure of functions; its functions get pointers and read as many bytes as the algorithm says.
-/
import Mathlib.Data.Nat.Notation

namespace Yacl.Pqc

abbrev Bytes := List ℕ

/-- Outcome of a call: a result, an exception, or undefined behaviour (reading outside an object). -/
inductive Res (α : Type)
  | ok (a : α)
  | throw
  | ub
deriving DecidableEq, Repr

/-- `OQS_KEM`. Functions return `none` for a status other than success; `r` is randomness. -/
structure KemAlg where
  pkLen : ℕ
  skLen : ℕ
  ctLen : ℕ
  ssLen : ℕ
  keypair : ℕ → Option (Bytes × Bytes)
  encaps : ℕ → Bytes → Option (Bytes × Bytes)
  decaps : Bytes → Bytes → Option Bytes

/-- `OQS_SIG`. Signatures may be shorter than `sigLen`. -/
structure SigAlg where
  pkLen : ℕ
  skLen : ℕ
  sigLen : ℕ
  keypair : ℕ → Option (Bytes × Bytes)
  sign : ℕ → Bytes → Bytes → Option Bytes
  verify : Bytes → Bytes → Bytes → Bool
  signCtx : ℕ → Bytes → Bytes → Bytes → Option Bytes
  verifyCtx : Bytes → Bytes → Bytes → Bytes → Bool

/-- A list of algorithms by name: `OQS_KEM_alg_identifier`, `OQS_KEM_alg_is_enabled`, `OQS_KEM_new`. -/
structure Registry (Alg : Type) where
  names : List String
  enabled : String → Bool
  make : String → Alg

/-- Reading `n` bytes through the pointer of a view. -/
def readPtr (n : ℕ) (v : Bytes) : Option Bytes := if n ≤ v.length then some (v.take n) else none

/-- What a library function leaves in a buffer of `n` zero bytes. -/
def writeBuf (n : ℕ) (r : Bytes) : Bytes := r ++ List.replicate (n - r.length) 0

def ofStatus {α : Type} : Option α → Res α
  | none => .throw
  | some a => .ok a

/-- crypto/pqc/kem.cc L21-26, sig.cc L24-29: constructor. -/
def create {Alg : Type} (R : Registry Alg) (name : String) : Option Alg :=
  if R.enabled name then some (R.make name) else none

/-- crypto/pqc/kem.cc L30-36, sig.cc L33-39: name by number. -/
def algName {Alg : Type} (R : Registry Alg) (i : ℕ) : Option String :=
  if i ≥ R.names.length then none else R.names[i]?

/-- crypto/pqc/kem.cc L38-48, sig.cc L41-50: all names, collected by number; `none` if a number is refused. -/
def allNames {Alg : Type} (R : Registry Alg) : Option (List String) := (List.range R.names.length).mapM (algName R)

/-- crypto/pqc/kem.cc L50-61, sig.cc L52-63. -/
def enabledNames {Alg : Type} (R : Registry Alg) : Option (List String) := (allNames R).map (·.filter R.enabled)

/-- crypto/pqc/kem.cc L67-75 `Kem::GenKeyPair`. -/
def kemGen (A : KemAlg) (r : ℕ) : Res (Bytes × Bytes) :=
  ofStatus ((A.keypair r).map fun x => (writeBuf A.pkLen x.1, writeBuf A.skLen x.2))

/-- crypto/pqc/kem.cc L77-87 `Kem::Encapsulate`. -/
def encapsulate (A : KemAlg) (r : ℕ) (pk : Bytes) : Res (Bytes × Bytes) :=
  if pk.length = A.pkLen then
    match readPtr A.pkLen pk with
    | none => .ub
    | some p => ofStatus ((A.encaps r p).map fun x => (writeBuf A.ctLen x.1, writeBuf A.ssLen x.2))
  else .throw

/-- crypto/pqc/kem.cc L89-100 `Kem::Decapsulate`. -/
def decapsulate (A : KemAlg) (sk ct : Bytes) : Res Bytes :=
  if sk.length = A.skLen then
    if ct.length = A.ctLen then
      match readPtr A.skLen sk, readPtr A.ctLen ct with
      | some s, some c => ofStatus ((A.decaps s c).map (writeBuf A.ssLen))
      | _, _ => .ub
    else .throw
  else .throw

/-- crypto/pqc/sig.cc L69-77 `Sig::GenKeyPair`. -/
def sigGen (A : SigAlg) (r : ℕ) : Res (Bytes × Bytes) :=
  ofStatus ((A.keypair r).map fun x => (writeBuf A.pkLen x.1, writeBuf A.skLen x.2))

/-- crypto/pqc/sig.cc L79-90 `Sig::Sign`: the size of the secret key is not looked at. -/
def sign (A : SigAlg) (r : ℕ) (sk message : Bytes) : Res Bytes :=
  match readPtr A.skLen sk with
  | none => .ub
  | some s => ofStatus ((A.sign r s message).map fun x => (writeBuf A.sigLen x).take x.length)

/-- crypto/pqc/sig.cc L92-108 `Sig::SignWithCtxStr`. -/
def signCtx (A : SigAlg) (r : ℕ) (sk message context : Bytes) : Res Bytes :=
  if sk.length = A.skLen then
    if context.length > 0 then
      match readPtr A.skLen sk with
      | none => .ub
      | some s => ofStatus ((A.signCtx r s message context).map fun x => (writeBuf A.sigLen x).take x.length)
    else .throw
  else .throw

/-- crypto/pqc/sig.cc L110-118 `Sig::Verify`. -/
def verify (A : SigAlg) (pk message signature : Bytes) : Res Bool :=
  if pk.length = A.pkLen then
    if signature.length ≤ A.sigLen then
      match readPtr A.pkLen pk with
      | none => .ub
      | some p => .ok (A.verify p message signature)
    else .throw
  else .throw

/-- crypto/pqc/sig.cc L120-130 `Sig::VerifyWithCtxStr`. -/
def verifyCtx (A : SigAlg) (pk message signature context : Bytes) : Res Bool :=
  if pk.length = A.pkLen then
    if signature.length ≤ A.sigLen then
      match readPtr A.pkLen pk with
      | none => .ub
      | some p => .ok (A.verifyCtx p message signature context)
    else .throw
  else .throw

end Yacl.Pqc
