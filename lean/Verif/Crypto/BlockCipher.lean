/-! Symmetric encryption (yacl/crypto/block_cipher/symmetric_crypto.{h,cc}), the random permutation built on it (yacl/crypto/tools/rp.{h,cc}),
SM4 MAC-then-encrypt (yacl/crypto/aead/sm4_mte.cc), the AEAD context (yacl/crypto/aead/aead.cc) and the SM digital envelope
(yacl/crypto/envelope/digital_envelope.cc). The block cipher itself, SM3, HMAC and the public-key scheme are OpenSSL's and stay abstract. -/

namespace Yacl.BlockCipher

abbrev Byte := BitVec 8
abbrev Bytes := List Byte

/-- A keyed block cipher on 16-byte blocks (AES-128 or SM4 with a key). -/
structure Cipher where
  enc : Bytes → Bytes
  dec : Bytes → Bytes
  enc_len : ∀ b, b.length = 16 → (enc b).length = 16
  dec_len : ∀ b, b.length = 16 → (dec b).length = 16
  dec_enc : ∀ b, b.length = 16 → dec (enc b) = b
  enc_dec : ∀ b, b.length = 16 → enc (dec b) = b

/-- symmetric_crypto.h: the modes. -/
inductive Mode where
  | ecb | cbc | ctr
  deriving DecidableEq

/-- Bytewise exclusive or. -/
def xorB (a b : Bytes) : Bytes := List.zipWith (· ^^^ ·) a b

/-- A block as a big-endian number and back; the counter mode of OpenSSL counts with it. -/
def beNat (b : Bytes) : Nat := b.foldl (fun a x => a * 256 + x.toNat) 0
def beBytes : Nat → Nat → Bytes
  | 0, _ => []
  | k + 1, v => beBytes k (v / 256) ++ [BitVec.ofNat 8 v]
def counter (iv : Bytes) (i : Nat) : Bytes := beBytes 16 (beNat iv + i)

/-- A cipher context of OpenSSL: the chaining block and, in counter mode, the number of key-stream bytes used. -/
structure Ctx where
  iv : Bytes
  used : Nat

/-- Block modes: one block at a time with a chaining block. -/
def blockRun (f : Bytes → Bytes → Bytes × Bytes) : Nat → Bytes → Bytes → Bytes × Bytes
  | 0, iv, _ => ([], iv)
  | n + 1, iv, l =>
    let o := f iv (l.take 16)
    let r := blockRun f n o.2 (l.drop 16)
    (o.1 ++ r.1, r.2)

def ecbEnc (c : Cipher) (iv b : Bytes) : Bytes × Bytes := (c.enc b, iv)
def ecbDec (c : Cipher) (iv b : Bytes) : Bytes × Bytes := (c.dec b, iv)
def cbcEnc (c : Cipher) (iv b : Bytes) : Bytes × Bytes := let o := c.enc (xorB b iv); (o, o)
def cbcDec (c : Cipher) (iv b : Bytes) : Bytes × Bytes := (xorB (c.dec b) iv, b)

/-- Byte `j` of the key stream in counter mode. -/
def stream (c : Cipher) (iv : Bytes) (j : Nat) : Byte := (c.enc (counter iv (j / 16))).getD (j % 16) 0

def ctrRun (c : Cipher) (iv : Bytes) : Nat → Bytes → Bytes
  | _, [] => []
  | n, x :: l => (x ^^^ stream c iv n) :: ctrRun c iv (n + 1) l

/-- `EVP_CipherUpdate` without padding: whole blocks in the block modes, bytes in counter mode (where the context keeps its place in the stream). The
documented behaviour of OpenSSL; inputs of the block modes are whole blocks here. -/
def update (c : Cipher) (m : Mode) (enc : Bool) (x : Ctx) (l : Bytes) : Bytes × Ctx :=
  match m with
  | .ecb => let r := blockRun (if enc then ecbEnc c else ecbDec c) (l.length / 16) x.iv l; (r.1, { x with iv := r.2 })
  | .cbc => let r := blockRun (if enc then cbcEnc c else cbcDec c) (l.length / 16) x.iv l; (r.1, { x with iv := r.2 })
  | .ctr => (ctrRun c x.iv x.used l, { x with used := x.used + l.length })

/-- symmetric_crypto.cc L116, L157: at most this many bytes per call. -/
def limit : Nat := 2 ^ 31 - 16

/-- symmetric_crypto.cc L118-129, L159-170: the loop; `off` bytes done, the rest of the output is appended. -/
def loop (c : Cipher) (m : Mode) (enc : Bool) (inp : Bytes) : Nat → Nat → Ctx → Bytes × Ctx
  | 0, _, x => ([], x)
  | fuel + 1, off, x =>
    if off < inp.length then
      let step := min (inp.length - off) limit
      let o := update c m enc x ((inp.drop off).take step)
      let r := loop c m enc inp fuel (off + step) o.2
      (o.1 ++ r.1, r.2)
    else ([], x)

/-- symmetric_crypto.h: an object: the cipher with its key, mode, initial vector and two contexts. -/
structure Obj where
  c : Cipher
  m : Mode
  iv : Bytes
  encCtx : Ctx
  decCtx : Ctx

/-- symmetric_crypto.cc L72-95: constructors. The byte version reads 16 bytes of key and of vector without checking sizes; sizes are assumed here. -/
def mk (c : Cipher) (m : Mode) (iv : Bytes) : Obj := ⟨c, m, iv, ⟨iv, 0⟩, ⟨iv, 0⟩⟩

/-- symmetric_crypto.cc L139-180 `Encrypt`: `size` is the size of the output span. In counter mode a final call is made when the size is no multiple of 16, it
produces nothing. -/
def encrypt (o : Obj) (plain : Bytes) (size : Nat) : Option (Bytes × Obj) :=
  if (o.m = .ctr ∨ size % 16 = 0) ∧ plain.length = size then
    let r := loop o.c o.m true plain (plain.length / limit + 1) 0 o.encCtx
    some (r.1, { o with encCtx := r.2 })
  else none

/-- symmetric_crypto.cc L97-137 `Decrypt`. -/
def decrypt (o : Obj) (cipher : Bytes) (size : Nat) : Option (Bytes × Obj) :=
  if (o.m = .ctr ∨ cipher.length % 16 = 0) ∧ size = cipher.length then
    let r := loop o.c o.m false cipher (cipher.length / limit + 1) 0 o.decCtx
    some (r.1, { o with decCtx := r.2 })
  else none

/-- symmetric_crypto.cc L220-233 `Reset`. -/
def reset (o : Obj) : Obj := { o with encCtx := ⟨o.iv, 0⟩, decCtx := ⟨o.iv, 0⟩ }

/-- A sequence of calls on one object. -/
def encryptAll : Obj → List Bytes → Option (List Bytes × Obj)
  | o, [] => some ([], o)
  | o, m :: ms => (encrypt o m m.length).bind fun r => (encryptAll r.2 ms).map fun s => (r.1 :: s.1, s.2)
def decryptAll : Obj → List Bytes → Option (List Bytes × Obj)
  | o, [] => some ([], o)
  | o, m :: ms => (decrypt o m m.length).bind fun r => (decryptAll r.2 ms).map fun s => (r.1 :: s.1, s.2)

/-! ### Random permutation -/

/-- rp.cc L24-32 `RP::Gen`: a fresh cipher object for every call. -/
def rpGen (c : Cipher) (m : Mode) (iv b : Bytes) : Option Bytes := (encrypt (mk c m iv) b b.length).map (·.1)

/-- rp.cc L34-50 `RP::GenForMultiInputs`, `GenForMultiInputsInplace`: one fresh object for all blocks, which are bytes behind each other in memory. -/
def rpMulti (c : Cipher) (m : Mode) (iv : Bytes) (bs : List Bytes) : Option Bytes := (encrypt (mk c m iv) bs.flatten bs.flatten.length).map (·.1)

/-! ### MAC then encrypt -/

/-- The primitives: SM4 with a key, SM3, HMAC-SM3 with a key. -/
structure Prim where
  sm4 : Bytes → Cipher
  sm3 : Bytes → Bytes
  hmac : Bytes → Bytes → Bytes
  sm3_len : ∀ x, (sm3 x).length = 32
  hmac_len : ∀ k x, (hmac k x).length = 32

/-- sm4_mte.cc L23-29, L54-60: the MAC under the first 16 bytes of `SM3(iv || key)`. -/
def mteMac (p : Prim) (key iv plain : Bytes) : Bytes := p.hmac ((p.sm3 (iv ++ key)).take 16) plain

/-- sm4_mte.cc L21-39 `Sm4MteEncrypt`. -/
def mteEncrypt (p : Prim) (key iv plain : Bytes) : Option Bytes :=
  let hp := mteMac p key iv plain ++ plain
  (encrypt (mk (p.sm4 key) .ctr iv) hp hp.length).map (·.1)

/-- sm4_mte.cc L41-68 `Sm4MteDecrypt`. -/
def mteDecrypt (p : Prim) (key iv cipher : Bytes) : Option Bytes :=
  (decrypt (mk (p.sm4 key) .ctr iv) cipher cipher.length).bind fun r =>
    if r.1.length > 32 then
      let plain := r.1.drop 32
      if mteMac p key iv plain = r.1.take 32 then some plain else none
    else none

/-- aead.cc L106-112, L148-154: the SM4_MTE case of `AeadCtx`. `size`: size of the output span. The additional data and the MAC span are not looked at. -/
def aeadMteEncrypt (p : Prim) (key iv plain _aad : Bytes) (size : Nat) : Option Bytes :=
  (mteEncrypt p key iv plain).bind fun c => if c.length = size then some c else none
def aeadMteDecrypt (p : Prim) (key iv cipher _mac _aad : Bytes) (size : Nat) : Option Bytes :=
  (mteDecrypt p key iv cipher).bind fun m => if m.length = size then some m else none

/-- aead.cc L23-61: `GetKeySize` and `GetMacSize` for AES-128-GCM, AES-256-GCM and SM4-MTE; sizes from all_gcm.h, sm4_mte.h. -/
inductive Aead where
  | aes128 | aes256 | mte
def keySize : Aead → Nat
  | .aes128 => 16
  | .aes256 => 32
  | .mte => 16
def macSize : Aead → Nat
  | .aes128 => 16
  | .aes256 => 32
  | .mte => 32
/-- all_gcm.h: the size of the tag GCM makes; sm4_mte.h L33. -/
def tagSize : Aead → Nat
  | .aes128 => 16
  | .aes256 => 16
  | .mte => 32

/-- A public-key encryption scheme that decrypts what it encrypts (SM2, RSA-OAEP of OpenSSL). `r` is the randomness of encryption. -/
structure Pke (Pub Pri Rnd : Type) where
  pair : Pub → Pri → Prop
  enc : Pub → Rnd → Bytes → Bytes
  dec : Pri → Bytes → Option Bytes
  dec_enc : ∀ pub pri r m, pair pub pri → dec pri (enc pub r m) = some m

/-- digital_envelope.cc L21-33 `SmEnvSeal`, with the random key `k`. -/
def smSeal {Pub Pri Rnd : Type} (e : Pke Pub Pri Rnd) (p : Prim) (pub : Pub) (r : Rnd) (k iv plain : Bytes) : Option (Bytes × Bytes) :=
  (mteEncrypt p k iv plain).map fun c => (e.enc pub r k, c)

/-- digital_envelope.cc L35-41 `SmEnvOpen`. -/
def smOpen {Pub Pri Rnd : Type} (e : Pke Pub Pri Rnd) (p : Prim) (pri : Pri) (iv ek cipher : Bytes) : Option Bytes :=
  (e.dec pri ek).bind fun k => mteDecrypt p k iv cipher

/-- GCM of OpenSSL with a key: a key stream per vector and a tag over vector, additional data and ciphertext. -/
structure Gcm where
  ks : Bytes → Bytes → Nat → Byte
  tag : Bytes → Bytes → Bytes → Bytes → Bytes
  tag_len : ∀ k iv aad c, (tag k iv aad c).length = 16

def gcmXor (ks : Nat → Byte) : Nat → Bytes → Bytes
  | _, [] => []
  | n, x :: l => (x ^^^ ks n) :: gcmXor ks (n + 1) l

/-- all_gcm.cc L41-81 `GcmCrypto::Encrypt`: key and vector sizes checked, output span of the size of the input; the tag goes to the first 16 bytes of `mac` (its size is not checked:
a smaller span is overrun, `none` here). -/
def gcmEncrypt (g : Gcm) (kl : Nat) (k iv plain aad : Bytes) (size macSpan : Nat) : Option (Bytes × Bytes) :=
  if size = plain.length ∧ k.length = kl ∧ iv.length = 12 ∧ 16 ≤ macSpan then
    let c := gcmXor (g.ks k iv) 0 plain
    some (c, g.tag k iv aad c)
  else none

/-- all_gcm.cc L83-125 `GcmCrypto::Decrypt`. -/
def gcmDecrypt (g : Gcm) (kl : Nat) (k iv cipher aad mac : Bytes) (size : Nat) : Option Bytes :=
  if cipher.length = size ∧ k.length = kl ∧ iv.length = 12 ∧ 16 ≤ mac.length then
    if g.tag k iv aad cipher = mac.take 16 then some (gcmXor (g.ks k iv) 0 cipher) else none
  else none

/-- digital_envelope.cc L43-56 `RsaEnvSeal`, with the random key `k`. -/
def rsaSeal {Pub Pri Rnd : Type} (e : Pke Pub Pri Rnd) (g : Gcm) (pub : Pub) (r : Rnd) (k iv plain : Bytes) : Option (Bytes × Bytes × Bytes) :=
  (gcmEncrypt g 16 k iv plain [] plain.length 16).map fun o => (e.enc pub r k, o.1, o.2)

/-- digital_envelope.cc L58-67 `RsaEnvOpen`. -/
def rsaOpen {Pub Pri Rnd : Type} (e : Pke Pub Pri Rnd) (g : Gcm) (pri : Pri) (iv ek cipher mac : Bytes) : Option Bytes :=
  (e.dec pri ek).bind fun k => gcmDecrypt g 16 k iv cipher [] mac cipher.length

end Yacl.BlockCipher
