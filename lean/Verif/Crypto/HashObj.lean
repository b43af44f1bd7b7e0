/-
Hash, extendable-output and HMAC objects: crypto/hash/{ssl_hash,ssl_hash_xof,blake3,hash_utils}.cc
and crypto/hmac/hmac.cc.  OpenSSL and BLAKE3 are parameters; what their contexts do between the calls
(initialise, absorb, finalise, copy) is a small state machine with the documented error cases.
-/
import Mathlib.Data.List.Basic
import Mathlib.Data.List.TakeWhile
import Mathlib.Tactic.Common

namespace Yacl.HashObj

abbrev Bytes := List UInt8

/-- hash/hash_interface.h L30-50 `HashAlgorithm`. -/
inductive Algo
  | unknown | sha224 | sha256 | sha384 | sha512 | sm3 | blake2b | blake3 | shake128 | shake256
deriving DecidableEq, Repr

/-- hash/hash_interface.h L90-116 `ToString`; `none` is the exception. -/
def toStr : Algo → Option String
  | .sha224 => some "sha2-224"
  | .sha256 => some "sha2-256"
  | .sha384 => some "sha2-384"
  | .sha512 => some "sha2-512"
  | .sm3 => some "sm3"
  | .blake2b => some "blake2b-512"
  | .shake128 => some "shake-128"
  | .shake256 => some "shake-256"
  | .unknown => none
  | .blake3 => none

/-- The functions of libcrypto and of BLAKE3, as parameters. -/
structure Lib where
  /-- `EVP_MD_fetch` finds the name. -/
  knows : String → Bool
  /-- `EVP_MD_size`. -/
  size : String → ℕ
  /-- The digest with its fixed length. -/
  digest : String → Bytes → Bytes
  /-- Block length, used by HMAC. -/
  block : String → ℕ
  /-- The algorithm is an extendable-output function. -/
  isXof : String → Bool
  /-- Its output stream. -/
  stream : String → Bytes → ℕ → UInt8
  /-- The output stream of BLAKE3. -/
  blake3 : Bytes → ℕ → UInt8

/-- The first `n` bytes of a stream. -/
def firstBytes (s : ℕ → UInt8) (n : ℕ) : Bytes := (List.range n).map s

/-! ### OpenSSL digest contexts (contract) -/

/-- openssl_wrappers.h L58-59: an `EVP_MD_CTX`: without algorithm, absorbing, or finalised. -/
inductive Ctx
  | blank
  | absorbing (md : String) (data : Bytes)
  | finished (md : String)
deriving DecidableEq, Repr

/-- `EVP_DigestInit_ex(ctx, md, nullptr)`; a null `md` is refused by a context without algorithm. -/
def digestInit : Ctx → Option String → Option Ctx
  | _, some md => some (.absorbing md [])
  | .blank, none => none
  | .absorbing md _, none => some (.absorbing md [])
  | .finished md, none => some (.absorbing md [])

/-- `EVP_DigestUpdate`: refused unless the context is absorbing. -/
def digestUpdate : Ctx → Bytes → Option Ctx
  | .absorbing md d, b => some (.absorbing md (d ++ b))
  | _, _ => none

/-- `EVP_DigestFinal_ex`: output and the finalised context. -/
def digestFinal (L : Lib) : Ctx → Option (Bytes × Ctx)
  | .absorbing md d => some (L.digest md d, .finished md)
  | _ => none

/-- `EVP_DigestFinalXOF`: refused by algorithms that are no XOF. -/
def digestFinalXof (L : Lib) (n : ℕ) : Ctx → Option (Bytes × Ctx)
  | .absorbing md d => if L.isXof md then some (firstBytes (L.stream md d) n, .finished md) else none
  | _ => none

/-- openssl_wrappers.h L101-103 `FetchEvpMd`: null when the name is unknown. -/
def fetchMd (L : Lib) (name : String) : Option String := if L.knows name then some name else none

/-! ### SslHash -/

/-- hash/ssl_hash.h L41-45. -/
structure SslHash where
  algo : Algo
  ctx : Ctx
  digestSize : ℕ
deriving DecidableEq, Repr

/-- hash/ssl_hash.cc L35-43 `Reset`. -/
def SslHash.reset (L : Lib) (h : SslHash) : Option SslHash := do
  let name ← toStr h.algo
  let c ← digestInit .blank (fetchMd L name)
  some { h with ctx := c }

/-- hash/ssl_hash.cc L23-29: the constructor (ends with `Reset`). -/
def SslHash.new (L : Lib) (a : Algo) : Option SslHash := do
  let name ← toStr a
  SslHash.reset L ⟨a, .blank, L.size name⟩

/-- hash/ssl_hash.cc L45-48 `Update`. -/
def SslHash.update (h : SslHash) (b : Bytes) : Option SslHash := do
  let c ← digestUpdate h.ctx b
  some { h with ctx := c }

/-- hash/ssl_hash.cc L50-67 `CumulativeHash`: finalises a copy; the object after the call is returned too. -/
def SslHash.cumulativeHash (L : Lib) (h : SslHash) : Option (Bytes × SslHash) := do
  let snapshot := h.ctx
  let r ← digestFinal L snapshot
  if r.1.length = h.digestSize then some (r.1, h) else none

/-! ### SslHashXof -/

/-- hash/ssl_hash_xof.h L39-43. -/
structure XofHash where
  md : String
  ctx : Ctx
  digestSize : ℕ
deriving DecidableEq, Repr

/-- hash/ssl_hash_xof.cc L23-41: the constructor; only the two SHAKE functions pass the `switch`. -/
def XofHash.new (L : Lib) (a : Algo) : Option XofHash := do
  let name ← toStr a
  let md ← fetchMd L name
  let c ← digestInit .blank (some md)
  match a with
  | .shake128 => some ⟨md, c, 32⟩
  | .shake256 => some ⟨md, c, 64⟩
  | _ => none

/-- hash/ssl_hash_xof.cc L43-46 `Reset`. -/
def XofHash.reset (h : XofHash) : Option XofHash := do
  let c ← digestInit h.ctx (some h.md)
  some { h with ctx := c }

/-- hash/ssl_hash_xof.cc L48-51 `Update`. -/
def XofHash.update (h : XofHash) (b : Bytes) : Option XofHash := do
  let c ← digestUpdate h.ctx b
  some { h with ctx := c }

/-- hash/ssl_hash_xof.cc L57-68 `CumulativeHash(output_length)`. -/
def XofHash.cumulativeHashN (L : Lib) (h : XofHash) (n : ℕ) : Option (Bytes × XofHash) := do
  let snapshot := h.ctx
  let r ← digestFinalXof L n snapshot
  some (r.1, h)

/-- hash/ssl_hash_xof.cc L53-55 `CumulativeHash()`. -/
def XofHash.cumulativeHash (L : Lib) (h : XofHash) : Option (Bytes × XofHash) :=
  h.cumulativeHashN L h.digestSize

/-! ### Blake3Hash -/

/-- hash/blake3.h L53-58; the hasher is the bytes absorbed since `blake3_hasher_init`. -/
structure Blake3Hash where
  ctx : Bytes
  digestSize : ℕ
deriving DecidableEq, Repr

/-- hash/blake3.cc L23-38: the constructors (`BLAKE3_OUT_LEN` is 32). -/
def Blake3Hash.new (n : ℕ := 32) : Blake3Hash := ⟨[], n⟩

/-- hash/blake3.cc L46-50 `Reset`. -/
def Blake3Hash.reset (h : Blake3Hash) : Option Blake3Hash := some { h with ctx := [] }

/-- hash/blake3.cc L52-55 `Update`. -/
def Blake3Hash.update (h : Blake3Hash) (b : Bytes) : Option Blake3Hash := some { h with ctx := h.ctx ++ b }

/-- hash/blake3.cc L57-68 `CumulativeHash`: a copy of the hasher is finalised. -/
def Blake3Hash.cumulativeHash (L : Lib) (h : Blake3Hash) : Option (Bytes × Blake3Hash) :=
  let snapshot := h.ctx
  some (firstBytes (L.blake3 snapshot) h.digestSize, h)

/-! ### Hmac -/

/-- An `EVP_MAC_CTX` of the HMAC provider. -/
structure MacCtx where
  md : Option String
  key : Option Bytes
  data : Bytes
deriving DecidableEq, Repr

/-- `EVP_MAC_init(ctx, key, keylen, params)`: a digest name in `params` is installed first; a null key pointer
keeps the key of the context and fails when there is none (OpenSSL's `hmac_init`, `HMAC_Init_ex`). -/
def macInit (L : Lib) (c : MacCtx) (key : Option Bytes) (name : Option String) : Option MacCtx :=
  let md := match name with
    | some n => fetchMd L n
    | none => c.md
  match md with
  | none => none
  | some m =>
    match key with
    | some k => some ⟨some m, some k, []⟩
    | none => match c.key with
      | some k => some ⟨some m, some k, []⟩
      | none => none

/-- RFC 2104: HMAC over the digest `H` with blocks of `B` bytes. -/
def rfc2104 (H : Bytes → Bytes) (B : ℕ) (key msg : Bytes) : Bytes :=
  let k0 := if B < key.length then H key else key
  let k := k0 ++ List.replicate (B - k0.length) 0
  H (k.map (· ^^^ 0x5c) ++ H (k.map (· ^^^ 0x36) ++ msg))

/-- `EVP_MAC_final` on a keyed context. -/
def macFinal (L : Lib) (c : MacCtx) : Option Bytes :=
  match c.md, c.key with
  | some m, some k => some (rfc2104 (L.digest m) (L.block m) k c.data)
  | _, _ => none

/-- hmac/hmac.h: the object. -/
structure Hmac where
  key : Bytes
  ctx : MacCtx
deriving DecidableEq, Repr

/-- `std::vector::data()`: null for the empty vector (libstdc++, libc++). -/
def dataPtr (k : Bytes) : Option Bytes := if k = [] then none else some k

/-- hmac/hmac.cc L22-38: the constructor. -/
def Hmac.new (L : Lib) (a : Algo) (key : Bytes) : Option Hmac := do
  let name ← toStr a
  let c ← macInit L ⟨none, none, []⟩ (dataPtr key) (some name)
  some ⟨key, c⟩

/-- hmac/hmac.cc L42-52 `Reset`; the list of gettable parameters passed along has no digest name. -/
def Hmac.reset (L : Lib) (h : Hmac) : Option Hmac := do
  let c ← macInit L h.ctx (dataPtr h.key) none
  some { h with ctx := c }

/-- hmac/hmac.cc L54-58 `Update`. -/
def Hmac.update (h : Hmac) (b : Bytes) : Option Hmac :=
  some { h with ctx := { h.ctx with data := h.ctx.data ++ b } }

/-- hmac/hmac.cc L60-79 `CumulativeMac`: a copy is finalised (the first call only asks for the size). -/
def Hmac.cumulativeMac (L : Lib) (h : Hmac) : Option (Bytes × Hmac) := do
  let ctxCopy := h.ctx
  let r ← macFinal L ctxCopy
  some (r, h)

/-! ### One-call functions -/

/-- hash/hash_utils.cc L29-43, L63-69: `Sha256`, `Sm3` (32 bytes) and `Blake2` (64 bytes). -/
def oneShot (L : Lib) (a : Algo) (n : ℕ) (data : Bytes) : Option Bytes := do
  let h ← SslHash.new L a
  let h ← h.update data
  let r ← h.cumulativeHash L
  if n ≤ r.1.length then some (r.1.take n) else none

/-- hash/hash_utils.cc L45-59: `Shake128` and `Shake256`. -/
def shake (L : Lib) (a : Algo) (data : Bytes) (n : ℕ) : Option Bytes := do
  if n = 0 then none else
  let h ← XofHash.new L a
  let h ← h.update data
  let r ← h.cumulativeHashN L n
  some r.1

/-- hash/hash_utils.cc L73-81 `Blake3`. -/
def blake3 (L : Lib) (data : Bytes) : Option Bytes :=
  some (firstBytes (L.blake3 ([] ++ data)) 32)

/-- hash/hash_utils.h L37-45 `…_128`: the first 16 bytes as a number, least significant byte first. -/
def low128 (hash : Option Bytes) : Option ℕ := do
  let b ← hash
  if 16 ≤ b.length then some ((b.take 16).foldr (fun x acc => x.toNat + 256 * acc) 0) else none

/-! ### Histories -/

/-- A call on a hash or HMAC object. -/
inductive Op
  | reset
  | update (b : Bytes)
  | get
deriving DecidableEq, Repr

/-- An object with its three calls. -/
structure Obj (σ : Type) where
  reset : σ → Option σ
  update : σ → Bytes → Option σ
  get : σ → Option (Bytes × σ)

/-- A sequence of calls; `none` when one of them throws. -/
def Obj.run {σ : Type} (o : Obj σ) : σ → List Op → Option (List Bytes × σ)
  | s, [] => some ([], s)
  | s, .reset :: t => (o.reset s).bind fun s' => o.run s' t
  | s, .update b :: t => (o.update s b).bind fun s' => o.run s' t
  | s, .get :: t => (o.get s).bind fun r => (o.run r.2 t).map fun q => (r.1 :: q.1, q.2)

def sslObj (L : Lib) : Obj SslHash := ⟨SslHash.reset L, SslHash.update, SslHash.cumulativeHash L⟩
def xofObj (L : Lib) : Obj XofHash := ⟨XofHash.reset, XofHash.update, XofHash.cumulativeHash L⟩
def blakeObj (L : Lib) : Obj Blake3Hash := ⟨Blake3Hash.reset, Blake3Hash.update, Blake3Hash.cumulativeHash L⟩
def hmacObj (L : Lib) : Obj Hmac := ⟨Hmac.reset L, Hmac.update, Hmac.cumulativeMac L⟩

end Yacl.HashObj
