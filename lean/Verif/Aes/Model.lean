import Verif.Aes.Fips

/-!
# `yacl/crypto/aes`: AES-128 with the x86 AES instructions

`__m128i` is sixteen bytes in memory order.  The instructions are modelled from
their definition in the Intel manual; they are the hardware, not the code.  The
`sse2neon.h` replacements used on `__aarch64__` are taken to have the same
meaning.
-/

namespace Verif.Aes

open Fips (sbox subBytes invSubBytes shiftRows invShiftRows mixColumns invMixColumns)

/-- `__m128i`: byte `i` is the `i`-th byte in memory. -/
abbrev M128 := Fin 16 → BitVec 8

/-! ## Instructions -/

/-- `_mm_xor_si128` (used in `aes_intrinsics.h:98-103,147,210`). -/
def xor128 (a b : M128) : M128 := fun i => a i ^^^ b i

/-- `_mm_setzero_si128` (used in `aes_intrinsics.h:115`). -/
def zero128 : M128 := fun _ => 0#8

/-- The 32-bit lane `l` of a register. -/
def lane (a : M128) (l : Nat) : BitVec 32 :=
  a (Fin.ofNat 16 (4 * l + 3)) ++ a (Fin.ofNat 16 (4 * l + 2)) ++ a (Fin.ofNat 16 (4 * l + 1)) ++
    a (Fin.ofNat 16 (4 * l))

/-- The register with the given 32-bit lanes. -/
def ofLanes (f : Nat → BitVec 32) : M128 := fun i => (f (i.val / 4)).extractLsb' (8 * (i.val % 4)) 8

/-- `_mm_set_epi32(e3, e2, e1, e0)` (used in `aes_opt.h:56-60`). -/
def setEpi32 (e3 e2 e1 e0 : BitVec 32) : M128 :=
  ofLanes fun l => if l = 0 then e0 else if l = 1 then e1 else if l = 2 then e2 else e3

/-- `_mm_set_epi64x(e1, e0)` (used in `aes_intrinsics.h:78`). -/
def setEpi64x (e1 e0 : BitVec 64) : M128 := fun i =>
  if i.val < 8 then e0.extractLsb' (8 * i.val) 8 else e1.extractLsb' (8 * (i.val - 8)) 8

/-- `_mm_slli_epi32(a, n)` (used in `aes_opt.h:68-83`). -/
def slliEpi32 (a : M128) (n : Nat) : M128 := ofLanes fun l => lane a l <<< n

/-- `_mm_slli_epi64(a, 32)` (used in `aes_opt.h:42`), for the shift by 32 the
code uses: each 64-bit half moves its low lane to its high lane. -/
def slliEpi64By32 (a : M128) : M128 := fun i =>
  if i.val % 8 < 4 then 0#8 else a (Fin.ofNat 16 (i.val - 4))

/-- `_mm_shuffle_epi32(a, imm)` (used in `aes_intrinsics.h:102`): lane `l` is
lane `imm[2l+1:2l]` of the source. -/
def shuffleEpi32 (a : M128) (imm : Nat) : M128 := fun i =>
  a (Fin.ofNat 16 (4 * (imm / 4 ^ (i.val / 4) % 4) + i.val % 4))

/-- `_mm_shuffle_ps(a, b, imm)` (used in `aes_intrinsics.h:97,100`): the low two
lanes are picked from `a`, the high two from `b`. -/
def shufflePs (a b : M128) (imm : Nat) : M128 := fun i =>
  (if i.val / 4 < 2 then a else b) (Fin.ofNat 16 (4 * (imm / 4 ^ (i.val / 4) % 4) + i.val % 4))

/-- `_mm_shuffle_epi8(a, m)` (used in `aes_opt.h:39,44`). -/
def shuffleEpi8 (a m : M128) : M128 := fun i =>
  if (m i).msb then 0#8 else a (Fin.ofNat 16 ((m i).toNat % 16))

/-- `_mm_aesenc_si128` (AESENC). -/
def aesenc (a k : M128) : M128 := xor128 (mixColumns (subBytes (shiftRows a))) k

/-- `_mm_aesenclast_si128` (AESENCLAST). -/
def aesenclast (a k : M128) : M128 := xor128 (subBytes (shiftRows a)) k

/-- `_mm_aesdec_si128` (AESDEC). -/
def aesdec (a k : M128) : M128 := xor128 (invMixColumns (invSubBytes (invShiftRows a))) k

/-- `_mm_aesdeclast_si128` (AESDECLAST). -/
def aesdeclast (a k : M128) : M128 := xor128 (invSubBytes (invShiftRows a)) k

/-- `_mm_aesimc_si128` (AESIMC). -/
def aesimc (a : M128) : M128 := invMixColumns a

/-- `_mm_aeskeygenassist_si128(a, imm)` (AESKEYGENASSIST): lanes
`SubWord(X1)`, `RotWord(SubWord(X1)) ^ imm`, `SubWord(X3)`,
`RotWord(SubWord(X3)) ^ imm`, where `X1`, `X3` are lanes 1 and 3 of `a`, RotWord
moves byte `b+1` to byte `b`, and `imm` is a byte. -/
def aeskeygenassist (a : M128) (imm : BitVec 8) : M128 := fun i =>
  let src := if i.val / 4 < 2 then 1 else 3
  if i.val / 4 % 2 = 0 then sbox (a (Fin.ofNat 16 (4 * src + i.val % 4)))
  else sbox (a (Fin.ofNat 16 (4 * src + (i.val % 4 + 1) % 4))) ^^^
    (if i.val % 4 = 0 then imm else 0#8)

/-! ## `aes_intrinsics.h` -/

/-- `DecomposeUInt128` (`base/int128.cc`, `int128.h`): high and low halves. -/
def decomposeU128 (x : BitVec 128) : BitVec 64 × BitVec 64 :=
  ((x >>> 64).setWidth 64, x.setWidth 64)

/-- `internal::uint128_cast_m128i` (`aes_intrinsics.h:76-79`). -/
def castM128 (x : BitVec 128) : M128 :=
  let tmp := decomposeU128 x
  setEpi64x tmp.1 tmp.2

/-- `internal::m128i_cast_uint128` (`aes_intrinsics.h:81-85`): `memcpy` to a
little-endian integer. -/
def castU128 (x : M128) : BitVec 128 :=
  BitVec.ofNat 128 ((List.range 16).foldl (fun acc i => acc + (x (Fin.ofNat 16 i)).toNat * 256 ^ i) 0)

/-- `AES_KEY` (`aes_intrinsics.h:88-91`).  `rd_key` has eleven entries; the
model reads and writes entries 0 to 10 only. -/
structure AesKey where
  rdKey : Nat → M128
  rounds : Nat

/-- `key->rd_key[i] = v`. -/
def AesKey.put (k : AesKey) (i : Nat) (v : M128) : AesKey :=
  { k with rdKey := fun j => if j = i then v else k.rdKey j }

/-- `AES_KEY out;` : entries not yet written are arbitrary (here `junk`). -/
def AesKey.fresh (junk : Nat → M128) : AesKey := { rdKey := junk, rounds := 0 }

/-- `AES_EXPAND_ASSIST(x0, x1, x2, x0, 255, aes_const)`
(`aes_intrinsics.h:94-103`): the new `x0` and `x2` (`x1` is a scratch value
written first). -/
def expandAssist (v1 v3 : M128) (shuff : Nat) (c : BitVec 8) : M128 × M128 :=
  let v2 := aeskeygenassist v1 c
  let v3 := shufflePs v3 v1 16
  let v1 := xor128 v1 v3
  let v3 := shufflePs v3 v1 140
  let v1 := xor128 v1 v3
  let v2 := shuffleEpi32 v2 shuff
  (xor128 v1 v2, v3)

/-- The constants of the ten expansions (`aes_intrinsics.h:116-134`). -/
def expandConsts : List (BitVec 8) := [1, 2, 4, 8, 16, 32, 64, 128, 27, 54]

/-- The ten expansions and stores (`aes_intrinsics.h:116-135`), from `kp[r]`. -/
def expandLoop : List (BitVec 8) → Nat → M128 → M128 → AesKey → AesKey
  | [], _, _, _, key => key
  | c :: cs, r, x0, x2, key =>
    let p := expandAssist x0 x2 255 c
    expandLoop cs (r + 1) p.1 p.2 (key.put r p.1)

/-- `AES_set_encrypt_key` (`aes_intrinsics.h:105-137`). -/
def setEncryptKey (userkey : M128) (key : AesKey) : AesKey :=
  let key := key.put 0 userkey
  let key := expandLoop expandConsts 1 userkey zero128 key
  { key with rounds := 10 }

/-- The inner loop `for (j = lo; j < hi; ++j)` of both ciphers
(`aes_intrinsics.h:148-150,211-213`) with one instruction per round. -/
def roundLoop (f : M128 → M128 → M128) (key : AesKey) (lo hi : Nat) (b : M128) : M128 :=
  (List.range' lo (hi - lo)).foldl (fun b j => f b (key.rdKey j)) b

/-- The body of `AES_ecb_encrypt_blks` for one block (`aes_intrinsics.h:147-151`). -/
def encryptBlk (key : AesKey) (b : M128) : M128 :=
  aesenclast (roundLoop aesenc key 1 key.rounds (xor128 b (key.rdKey 0))) (key.rdKey key.rounds)

/-- The block loop: `for (i = 0; i < n; ++i) out[i] = f(in[i])`
(`aes_intrinsics.h:146-152,209-215`).  `in` and `out` are either the same array
or do not overlap. -/
def blkLoop (f : M128 → M128) (inp : List M128) : Nat → List M128 → List M128
  | 0, out => out
  | n + 1, out =>
    let out := blkLoop f inp n out
    match inp[n]? with
    | some b => out.set n (f b)
    | none => out

/-- `AES_ecb_encrypt_blks` (`aes_intrinsics.h:140-153`). -/
def ecbEncrypt (key : AesKey) (inp out : List M128) (nblks : Nat) : List M128 :=
  blkLoop (encryptBlk key) inp nblks out

/-- The loop of `AES_set_decrypt_key_fast` (`aes_intrinsics.h:184-186`):
`while (i != 0) dkey[i--] = aesimc(ekey[j++])`; returns `dkey` and `j`. -/
def imcLoop (ekey : AesKey) : Nat → Nat → AesKey → AesKey × Nat
  | 0, j, dkey => (dkey, j)
  | i + 1, j, dkey => imcLoop ekey i (j + 1) (dkey.put (i + 1) (aesimc (ekey.rdKey j)))

/-- `AES_set_decrypt_key_fast` (`aes_intrinsics.h:173-188`), for two different
`AES_KEY`s and `rounds > 0`.  `OCB_KEY_LEN` is not defined anywhere, so the
preprocessor takes it as 0 and `rounds` is copied. -/
def setDecryptKeyFast (dkey ekey : AesKey) : AesKey :=
  let i := ekey.rounds
  let dkey := { dkey with rounds := i }
  let dkey := dkey.put i (ekey.rdKey 0)
  let p := imcLoop ekey (i - 1) 1 dkey
  p.1.put 0 (ekey.rdKey p.2)

/-- `AES_set_decrypt_key` (`aes_intrinsics.h:190-198`). -/
def setDecryptKey (userkey : M128) (key : AesKey) (junk : Nat → M128) : AesKey :=
  setDecryptKeyFast key (setEncryptKey userkey (AesKey.fresh junk))

/-- The body of `AES_ecb_decrypt_blks` for one block (`aes_intrinsics.h:210-214`);
`j` is `max 1 rounds` when the inner loop ends. -/
def decryptBlk (key : AesKey) (b : M128) : M128 :=
  aesdeclast (roundLoop aesdec key 1 key.rounds (xor128 b (key.rdKey 0)))
    (key.rdKey (max 1 key.rounds))

/-- `AES_ecb_decrypt_blks` (`aes_intrinsics.h:200-216`).  `nblks` is a 32-bit
`unsigned`: callers' `size_t` counts are reduced on the way in. -/
def ecbDecrypt (key : AesKey) (inp out : List M128) (nblks : Nat) : List M128 :=
  blkLoop (decryptBlk key) inp (nblks % 2 ^ 32) out

/-- `AES_ecb_encrypt_blks(key, in)` (`aes_intrinsics.h:252-257`, by way of
`:243-250`): the result starts as zeros. -/
def ecbEncryptVec (key : AesKey) (inp : List M128) : List M128 :=
  ecbEncrypt key inp (List.replicate inp.length zero128) inp.length

/-- `AES_ecb_decrypt_blks(key, in)` (`aes_intrinsics.h:276-281`, by way of
`:267-274`). -/
def ecbDecryptVec (key : AesKey) (inp : List M128) : List M128 :=
  ecbDecrypt key inp (List.replicate inp.length zero128) inp.length

/-- The span overloads (`aes_intrinsics.h:243-250,267-274`): `none` is the
exception for two sizes. -/
def ecbEncryptSpan (key : AesKey) (inp out : List M128) : Option (List M128) :=
  if inp.length = out.length then some (ecbEncrypt key inp out inp.length) else none

/-- See `ecbEncryptSpan` (`aes_intrinsics.h:267-274`). -/
def ecbDecryptSpan (key : AesKey) (inp out : List M128) : Option (List M128) :=
  if inp.length = out.length then some (ecbDecrypt key inp out inp.length) else none

/-! ## `aes_opt.h` -/

/-- One key of `ks_rounds` (`aes_opt.h:38-46`). -/
def ksRound (key con con3 mask : M128) : M128 :=
  let x2 := shuffleEpi8 key mask
  let aux := aesenclast x2 con
  let globAux := slliEpi64By32 key
  let key := xor128 globAux key
  let globAux := shuffleEpi8 key con3
  let key := xor128 globAux key
  xor128 aux key

/-- `ks_rounds<NumKeys>` (`aes_opt.h:34-48`); the keys do not interact. -/
def ksRounds (con con3 mask : M128) (r : Nat) (keys : List AesKey) : List AesKey :=
  keys.map fun k => k.put r (ksRound (k.rdKey (r - 1)) con con3 mask)

/-- `con3` (`aes_opt.h:58-59`). -/
def con3 : M128 := setEpi32 0x07060504#32 0x07060504#32 0xffffffff#32 0xffffffff#32

/-- `mask` (`aes_opt.h:60`). -/
def mask : M128 := setEpi32 0x0c0f0e0d#32 0x0c0f0e0d#32 0x0c0f0e0d#32 0x0c0f0e0d#32

/-- Calls of `ks_rounds` at rounds `r, r+1, …, r+n-1`, with `con` doubled
between two of them (`aes_opt.h:67-81,82-84`). -/
def ksChain : Nat → Nat → M128 → List AesKey → List AesKey
  | 0, _, _, keys => keys
  | n + 1, r, con, keys => ksChain n (r + 1) (slliEpi32 con 1) (ksRounds con con3 mask r keys)

/-- `AES_opt_key_schedule<NumKeys>` (`aes_opt.h:54-85`). -/
def optKeySchedule (userKeys : List M128) (keys : List AesKey) : List AesKey :=
  let con := setEpi32 1 1 1 1
  let con2 := setEpi32 0x1b#32 0x1b#32 0x1b#32 0x1b#32
  let keys := List.zipWith (fun u k => ({ k with rounds := 10 } : AesKey).put 0 u) userKeys keys
  let keys := ksChain 8 1 con keys
  ksChain 2 9 con2 keys

/-- The inner loop over `numEncs` blocks with one key (`aes_opt.h:95-98`), at
pointer `ptr`. -/
def paraInner (f : M128 → M128 → M128) (K : M128) : Nat → Nat → List M128 → Nat × List M128
  | 0, ptr, blks => (ptr, blks)
  | n + 1, ptr, blks => paraInner f K n (ptr + 1) (blks.modify ptr (fun b => f b K))

/-- One pass over all blocks (`aes_opt.h:93-99,103-109,113-119`): `r` is the
round key index. -/
def paraPass (f : M128 → M128 → M128) (r numEncs : Nat) : List AesKey → Nat → List M128 → List M128
  | [], _, blks => blks
  | k :: ks, ptr, blks =>
    let p := paraInner f (k.rdKey r) numEncs ptr blks
    paraPass f r numEncs ks p.1 p.2

/-- `ParaEnc<numKeys, numEncs>(blks, keys)` and
`ParaEnc<numKeys>(blks, keys, num_encs)` (`aes_opt.h:90-120,125-154`, the same
body). -/
def paraEnc (keys : List AesKey) (numEncs : Nat) (blks : List M128) : List M128 :=
  let blks := paraPass xor128 0 numEncs keys 0 blks
  let blks := (List.range' 1 9).foldl (fun blks r => paraPass aesenc r numEncs keys 0 blks) blks
  paraPass aesenclast 10 numEncs keys 0 blks

end Verif.Aes
