/-
Public keys: crypto/key_utils.cc, crypto/pke/{rsa,sm2}_enc.cc, crypto/sign/{rsa,sm2}_signing.cc.
OpenSSL appears as a structure of functions; what the wrappers do with them is modelled.
-/
import Mathlib.Data.Nat.Notation

namespace Yacl.Pkey

abbrev Byte := ℕ
abbrev Bytes := List Byte

/-- Paddings of RSA. -/
inductive Pad | oaep | pkcs1 | none
deriving DecidableEq, Repr

/-- Hash algorithms that matter here, crypto/hash/hash_interface.h. -/
inductive Hash | sha224 | sha256 | sha384 | sha512 | sha1 | sm3 | blake2b | blake3 | shake128 | shake256
deriving DecidableEq, Repr

/-- `EVP_PKEY`: a public key, or a secret key with its public key. -/
inductive Pkey (PK SK : Type)
  | pub (p : PK)
  | full (s : SK)
deriving DecidableEq

/-- The part of a certificate that is signed. `version` is the number in the file (0 is v1, 2 is v3); times are in
seconds. -/
structure Tbs (PK : Type) where
  version : ℕ
  notBefore : ℕ
  notAfter : ℕ
  subject : List (String × Bytes)
  issuer : List (String × Bytes)
  pk : PK
  isCa : Bool
  keyId : Bytes

/-- A certificate. -/
structure Cert (PK : Type) where
  tbs : Tbs PK
  alg : Hash
  sig : Bytes

/-- What OpenSSL computes. `none` is an error return. -/
structure Ossl (PK SK : Type) where
  pubOf : SK → PK
  /-- `PEM_write_bio_PUBKEY`, `PEM_write_bio_PKCS8PrivateKey`, `OSSL_ENCODER_to_bio`. -/
  pubPem : PK → Bytes
  secPem : SK → Bytes
  pubDer : PK → Bytes
  secDer : SK → Bytes
  /-- `OSSL_DECODER_from_bio` for any format and structure. -/
  decode : Bytes → Option (Pkey PK SK)
  /-- `EVP_PKEY_encrypt`: the size answered without output buffer, and the ciphertext, which depends on randomness. -/
  encMax : PK → ℕ → ℕ
  encrypt : PK → Pad → ℕ → Bytes → Option Bytes
  decMax : SK → ℕ → ℕ
  decrypt : SK → Pad → Bytes → Option Bytes
  /-- `EVP_PKEY_sign` on a digest. -/
  signMax : SK → ℕ
  sign : SK → Pad → Hash → Bytes → Option Bytes
  /-- `EVP_PKEY_verify`: 1 valid, 0 invalid, negative error. -/
  verify : PK → Pad → Hash → Bytes → Bytes → Int
  hash : Hash → Bytes → Bytes
  /-- SM2 with an identity: `EVP_DigestSign…`, `EVP_DigestVerify…`. -/
  sm2Sign : SK → Bytes → ℕ → Bytes → Option Bytes
  sm2Verify : PK → Bytes → Bytes → Bytes → Int
  /-- `X509_NAME_add_entry_by_txt` accepts the value for the field. -/
  nameOk : String → Bytes → Bool
  keyId : PK → Bytes
  /-- `X509_sign`: 0 bytes on failure. -/
  certSign : SK → Hash → Tbs PK → Bytes
  certVerify : PK → Hash → Tbs PK → Bytes → Bool
  certPem : Cert PK → Bytes
  certRead : Bytes → Option (Cert PK)

variable {PK SK : Type} (L : Ossl PK SK)

/-- The public key in a key. -/
def Ossl.public : Pkey PK SK → PK
  | .pub p => p
  | .full s => L.pubOf s

/-- The secret key in a key, if there is one; operations with the secret key fail otherwise. -/
def secret : Pkey PK SK → Option SK
  | .pub _ => none
  | .full s => some s

/-- The calling pattern of all output functions: the first call asks for the size `max`, then the buffer of `max`
zero bytes is passed; the result is written to its front and its length is stored. A result longer than the buffer
is an error of the second call. Returns the buffer and the stored length. -/
def twoCalls (max : ℕ) (r : Option Bytes) : Option (Bytes × ℕ) :=
  match r with
  | none => none
  | some b => if b.length ≤ max then some (b ++ List.replicate (max - b.length) 0, b.length) else none

/-! ### Encryption -/

/-- crypto/pke/rsa_enc.cc L31-55 `RsaEncryptor::Encrypt`. -/
def rsaEncrypt (key : Pkey PK SK) (rand : ℕ) (plaintext : Bytes) : Option Bytes := do
  let r ← twoCalls (L.encMax (L.public key) plaintext.length) (L.encrypt (L.public key) .oaep rand plaintext)
  some (r.1.take r.2)

/-- crypto/pke/rsa_enc.cc L57-81 `RsaDecryptor::Decrypt`. -/
def rsaDecrypt (key : Pkey PK SK) (ciphertext : Bytes) : Option Bytes := do
  let s ← secret key
  let r ← twoCalls (L.decMax s ciphertext.length) (L.decrypt s .oaep ciphertext)
  some (r.1.take r.2)

/-- crypto/pke/sm2_enc.cc L29-50 `Sm2Encryptor::Encrypt`; the identity is set before the context is initialised and
plays no role in encryption. -/
def sm2Encrypt (key : Pkey PK SK) (rand : ℕ) (plaintext : Bytes) : Option Bytes := do
  let r ← twoCalls (L.encMax (L.public key) plaintext.length) (L.encrypt (L.public key) .none rand plaintext)
  some (r.1.take r.2)

/-- crypto/pke/sm2_enc.cc L52-73 `Sm2Decryptor::Decrypt`. -/
def sm2Decrypt (key : Pkey PK SK) (ciphertext : Bytes) : Option Bytes := do
  let s ← secret key
  let r ← twoCalls (L.decMax s ciphertext.length) (L.decrypt s .none ciphertext)
  some (r.1.take r.2)

/-! ### Signatures -/

/-- crypto/sign/rsa_signing.cc L29-60 `RsaSigner::Sign`: the buffer is returned as it is, it is not cut to the
stored length. -/
def rsaSign (key : Pkey PK SK) (message : Bytes) : Option Bytes := do
  let s ← secret key
  let md := L.hash .sha256 message
  let r ← twoCalls (L.signMax s) (L.sign s .pkcs1 .sha256 md)
  some r.1

/-- crypto/sign/rsa_signing.cc L62-88 `RsaVerifier::Verify`. -/
def rsaVerify (key : Pkey PK SK) (message signature : Bytes) : Option Bool :=
  let md := L.hash .sha256 message
  let ret := L.verify (L.public key) .pkcs1 .sha256 md signature
  if ret ≥ 0 then some (ret = 1) else none

/-- crypto/sign/sm2_signing.cc L19-23: the default identity `1234567812345678`. -/
def sm2Id : Bytes := [49, 50, 51, 52, 53, 54, 55, 56, 49, 50, 51, 52, 53, 54, 55, 56]

/-- crypto/sign/sm2_signing.cc L25-63 `Sm2Signer::Sign`. -/
def sm2Sign (key : Pkey PK SK) (rand : ℕ) (message : Bytes) : Option Bytes := do
  let s ← secret key
  let r ← twoCalls (L.signMax s) (L.sm2Sign s sm2Id rand message)
  some (r.1.take r.2)

/-- crypto/sign/sm2_signing.cc L65-89 `Sm2Verifier::Verify`. -/
def sm2Verify (key : Pkey PK SK) (message signature : Bytes) : Option Bool :=
  let rc := L.sm2Verify (L.public key) sm2Id message signature
  if rc ≥ 0 then some (rc = 1) else none

/-! ### Keys in buffers and files -/

/-- A file system: contents by path. -/
abbrev Fs := String → Option Bytes

/-- crypto/key_utils.cc L51-60 `BioToBuf`: what was written to the bio; empty is refused. -/
def bioToBuf (b : Bytes) : Option Bytes := if b.length > 0 then some b else none

/-- crypto/key_utils.cc L62-67 `LoadBufFromFile`. -/
def loadBuf (fs : Fs) (path : String) : Option Bytes := fs path

/-- crypto/key_utils.cc L71-74 `ExportBufToFile`: the output stream truncates. -/
def exportBuf (fs : Fs) (b : Bytes) (path : String) : Fs := fun p => if p = path then some b else fs p

/-- crypto/key_utils.cc L136-158 `LoadKeyFromBuf`. -/
def loadKey (buf : Bytes) : Option (Pkey PK SK) := L.decode buf

/-- crypto/key_utils.cc L160-162 `LoadKeyFromFile`. -/
def loadKeyFile (fs : Fs) (path : String) : Option (Pkey PK SK) := do
  let b ← loadBuf fs path
  loadKey L b

/-- crypto/key_utils.cc L169-175 `ExportPublicKeyToPemBuf`. -/
def exportPubPem (key : Pkey PK SK) : Option Bytes := bioToBuf (L.pubPem (L.public key))

/-- crypto/key_utils.cc L177-180 `ExportPublicKeyToPemFile`. -/
def exportPubPemFile (fs : Fs) (key : Pkey PK SK) (path : String) : Option Fs := do
  let b ← exportPubPem L key
  some (exportBuf fs b path)

/-- crypto/key_utils.cc L184-193 `ExportSecretKeyToPemBuf`: without secret key the library fails. -/
def exportSecPem (key : Pkey PK SK) : Option Bytes := do
  let s ← secret key
  bioToBuf (L.secPem s)

/-- crypto/key_utils.cc L195-198 `ExportSecretKeyToPemBuf` with a path. -/
def exportSecPemFile (fs : Fs) (key : Pkey PK SK) (path : String) : Option Fs := do
  let b ← exportSecPem L key
  some (exportBuf fs b path)

/-- crypto/key_utils.cc L205-217 `ExportPublicKeyToDerBuf`. -/
def exportPubDer (key : Pkey PK SK) : Option Bytes := bioToBuf (L.pubDer (L.public key))

/-- crypto/key_utils.cc L219-222 `ExportPublicKeyToDerFile`, as written. -/
def exportPubDerFile (fs : Fs) (key : Pkey PK SK) (path : String) : Option Fs := do
  let b ← exportPubPem L key
  some (exportBuf fs b path)

/-- crypto/key_utils.cc L226-238 `ExportSecretKeyToDerBuf`. -/
def exportSecDer (key : Pkey PK SK) : Option Bytes := do
  let s ← secret key
  bioToBuf (L.secDer s)

/-- crypto/key_utils.cc L240-243 `ExportSecretKeyToDerFile`, as written. -/
def exportSecDerFile (fs : Fs) (key : Pkey PK SK) (path : String) : Option Fs := do
  let b ← exportSecPem L key
  some (exportBuf fs b path)

/-- crypto/key_utils.cc L117-129 `GenRsaKeyPairToPemBuf`, `GenSm2KeyPairToPemBuf`, for the generated key `s`. -/
def genKeyPairToPem (s : SK) : Option (Bytes × Bytes) := do
  let a ← exportPubPem L (.full s)
  let b ← exportSecPem L (.full s)
  some (a, b)

/-! ### Certificates -/

/-- crypto/key_utils.cc L27-34. -/
def subjectFields : List String := ["C", "ST", "L", "O", "OU", "CN"]

/-- `c_str()` and length −1: the bytes before the first zero. -/
def cStr (b : Bytes) : Bytes := b.takeWhile (· ≠ 0)

/-- crypto/key_utils.cc L293-299: one entry per field; `none` if a field is missing or refused. -/
def buildName (subjects : String → Option Bytes) : List String → Option (List (String × Bytes))
  | [] => some []
  | f :: fs => do
    let v ← subjects f
    if L.nameOk f (cStr v) then
      let rest ← buildName subjects fs
      some ((f, cStr v) :: rest)
    else none

/-- crypto/key_utils.cc L249-319 `MakeX509Cert`; `now` is the time of the call, `days` a 32-bit number. -/
def makeCert (pk sk : Pkey PK SK) (subjects : String → Option Bytes) (now days : ℕ) (hash : Hash) : Option (Cert PK) := do
  if hash = .sha256 ∨ hash = .sm3 then
    let name ← buildName L subjects subjectFields
    let tbs : Tbs PK := ⟨3, now, now + days * 86400 % 2 ^ 32, name, name, L.public pk, true, L.keyId (L.public pk)⟩
    let s ← secret sk
    let sig := L.certSign s hash tbs
    if sig.length > 0 then some ⟨tbs, hash, sig⟩ else none
  else none

/-- crypto/key_utils.cc L322-333 `LoadX509Cert`. -/
def loadCert (buf : Bytes) : Option (Cert PK) := L.certRead buf

/-- crypto/key_utils.cc L340-346 `LoadX509CertPublicKeyFromBuf`. -/
def loadCertKey (buf : Bytes) : Option (Pkey PK SK) := do
  let c ← loadCert L buf
  some (.pub c.tbs.pk)

/-- crypto/key_utils.cc L354-361 `ExportX509CertToBuf`. -/
def exportCert (c : Cert PK) : Option Bytes := bioToBuf (L.certPem c)

/-- crypto/key_utils.cc L363-366 `ExportX509CertToFile`. -/
def exportCertFile (fs : Fs) (c : Cert PK) (path : String) : Option Fs := do
  let b ← exportCert L c
  some (exportBuf fs b path)

/-- crypto/key_utils.cc L335-337 `LoadX509CertFromFile`. -/
def loadCertFile (fs : Fs) (path : String) : Option (Cert PK) := do
  let b ← loadBuf fs path
  loadCert L b

end Yacl.Pkey
