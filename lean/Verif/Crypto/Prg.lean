import Verif.Kernel.OtExt

/-! Pseudo-random generators: yacl/crypto/tools/prg.{h,cc}. Properties C54–C57 and C75.

The block cipher `E key block` is an arbitrary function; the chaining modes are OpenSSL's. -/
namespace Yacl.Prg

abbrev B := BitVec 128
abbrev Byte := BitVec 8
abbrev Cipher := B → B → B

/-! ### Model of FillPRand -/

/-- The 16 bytes of a block in memory (little endian). -/
def leBytes (b : B) : List Byte := (List.range 16).map fun i => b.extractLsb' (8 * i) 8

/-- symmetric_crypto.h L84-86 `EcbMakeContentBlocks` then block-wise encryption: the `n` blocks for counters `count`, `count+1`, … (128-bit). -/
def ecbBlocks (E : Cipher) (seed count : B) (n : Nat) : List Byte :=
  (List.range n).flatMap fun i => leBytes (E seed (count + BitVec.ofNat 128 i))

/-- prg.cc L38-59 `FillPRand` in ECB mode: the bytes written and the returned counter. `count` is a `uint64_t`; the padded last block is
computed with 64-bit arithmetic (L56) while the others count in 128 bits. -/
def fillEcb (E : Cipher) (seed : B) (count : BitVec 64) (len : Nat) : List Byte × BitVec 64 :=
  let nblock := (len + 16 - 1) / 16
  let pad := len % 16
  (if pad = 0 then ecbBlocks E seed (count.setWidth 128) nblock
   else (if nblock > 1 then ecbBlocks E seed (count.setWidth 128) (nblock - 1) else []) ++
      (leBytes (E seed ((count + BitVec.ofNat 64 nblock - 1).setWidth 128))).take pad,
   count + BitVec.ofNat 64 nblock)

/-- Reversal of the 16 bytes of a block. -/
def bswap (x : B) : B := OtExt.word fun j => x.getLsbD (8 * (15 - j / 8) + j % 8)

/-- prg.cc L32-37 `FillPRand` in CTR mode: `count` is the initial vector; OpenSSL increments it as a big-endian number. -/
def fillCtr (E : Cipher) (seed : B) (count : BitVec 64) (len : Nat) : List Byte × BitVec 64 :=
  let nblock := (len + 16 - 1) / 16
  (((List.range nblock).flatMap fun i => leBytes (E seed (bswap (bswap (count.setWidth 128) + BitVec.ofNat 128 i)))).take len,
   count + BitVec.ofNat 64 nblock)

/-- CBC chaining over the counter blocks. -/
def cbcBlock (E : Cipher) (seed iv count : B) : Nat → B
  | 0 => E seed (count ^^^ iv)
  | i + 1 => E seed ((count + BitVec.ofNat 128 (i + 1)) ^^^ cbcBlock E seed iv count i)

/-- prg.cc L38-45, L60-66 `FillPRand` in CBC mode. -/
def fillCbc (E : Cipher) (seed iv : B) (count : BitVec 64) (len : Nat) : List Byte × BitVec 64 :=
  let nblock := (len + 16 - 1) / 16
  (((List.range nblock).flatMap fun i => leBytes (cbcBlock E seed iv (count.setWidth 128) i)).take len,
   count + BitVec.ofNat 64 nblock)

/-! ### Model of the cached generator -/

/-- prg.h L303-387, element types of `sz` bytes, `batch` elements per refill. -/
structure St where
  seed : B
  counter : B
  cache : List Byte
  consumed : Nat

/-- prg.h L308-312 (and the member initialisers L380-384). -/
def fresh (sz batch : Nat) (seed : B) : St := ⟨seed, 0, List.replicate (batch * sz) 0, batch⟩

/-- prg.h L319-322. -/
def setSeed (st : St) (seed : B) : St := { st with seed := seed, counter := 0 }

/-- prg.h L324-327. -/
def setStatus (st : St) (seed counter : B) : St := { st with seed := seed, counter := counter }

/-- prg.h L361-378: the 128-bit counter is passed as `uint64_t`. -/
def refill (E : Cipher) (sz batch : Nat) (st : St) : St :=
  let r := fillEcb E st.seed (st.counter.setWidth 64) (batch * sz)
  { st with cache := r.1, counter := r.2.setWidth 128 }

/-- prg.h L331-337 `operator()`. -/
def next (E : Cipher) (sz batch : Nat) (st : St) : List Byte × St :=
  let st := if st.consumed = batch then { refill E sz batch st with consumed := 0 } else st
  ((st.cache.drop (st.consumed * sz)).take sz, { st with consumed := st.consumed + 1 })

/-- prg.h L343-357 `Fill`. -/
def fill (E : Cipher) (st : St) (len : Nat) : List Byte × St :=
  let r := fillEcb E st.seed (st.counter.setWidth 64) len
  (r.1, { st with counter := r.2.setWidth 128 })

/-- State after `k` calls of `operator()`. -/
def nexts (E : Cipher) (sz batch : Nat) (st : St) : Nat → St
  | 0 => st
  | k + 1 => (next E sz batch (nexts E sz batch st k)).2

/-- prg.h L279-289, L331-337 for `T = bool`: the cache is a bit set of `8 * batch` bits, initially zero, yet `num_consumed_` starts at `batch`
and is compared with the number of bits. -/
def freshBool (batch : Nat) (seed : B) : St := ⟨seed, 0, List.replicate batch 0, batch⟩

def nextBool (E : Cipher) (batch : Nat) (st : St) : Bool × St :=
  let st := if st.consumed = 8 * batch then { refill E 1 batch st with consumed := 0 } else st
  ((st.cache.getD (st.consumed / 8) 0).getLsbD (st.consumed % 8), { st with consumed := st.consumed + 1 })

def nextsBool (E : Cipher) (batch : Nat) (st : St) : Nat → St
  | 0 => st
  | k + 1 => (nextBool E batch (nextsBool E batch st k)).2

/-! ### Model of the Mersenne reductions -/

/-- Little-endian value of a byte string. -/
def leNat : List Byte → Nat
  | [] => 0
  | b :: l => b.toNat + 256 * leNat l

/-- prg.h L151-160 (`uint64_t`: w = 64, e = 61; `uint128_t`: w = 128, e = 127); `none` when the size `ENFORCE` fails. The sum is a `w`-bit sum. -/
def mersenneWide (w e : Nat) (buf : List Byte) : Option (BitVec w) :=
  if buf.length = w / 8 + 5 then
    let mask : BitVec w := BitVec.ofNat w (2 ^ e - 1)
    let rand : BitVec w := BitVec.ofNat w (leNat (buf.take (w / 8)))
    let aux : BitVec w := BitVec.ofNat w (leNat ((buf.drop (w / 8)).take 5))
    let i := (rand &&& mask) + aux
    some (if i > mask then i - mask else i)
  else none

/-- prg.h L166-171: one round of the narrow reduction, in 128-bit arithmetic. -/
def mersenneRound (e : Nat) (a : B) : B :=
  let mask : B := BitVec.ofNat 128 (2 ^ e - 1)
  let i := (a &&& mask) + (a >>> e)
  if i ≥ mask then i - mask else i

/-- prg.h L165-172, the `do … while` loop; `fuel` bounds the rounds. -/
def mersenneLoop (e : Nat) : Nat → B → B
  | 0, a => a
  | fuel + 1, a =>
    let r := mersenneRound e a
    if r ≥ BitVec.ofNat 128 (2 ^ e - 1) then mersenneLoop e fuel r else r

/-- prg.h L161-173 (`uint32_t`: w = 32, e = 31; `uint8_t`: w = 8, e = 7). -/
def mersenneNarrow (w e : Nat) (buf : List Byte) : Option (BitVec w) :=
  if buf.length = w / 8 + 5 then
    some ((mersenneLoop e (leNat buf + 1) (BitVec.ofNat 128 (leNat buf))).setWidth w)
  else none

/-- prg.h L182-196: the wide version of `FillPRandWithMersennePrime`, on one element. -/
def mersenneFillWide (w e : Nat) (v : BitVec w) : BitVec w :=
  let mask : BitVec w := BitVec.ofNat w (2 ^ e - 1)
  if v &&& mask = mask then 0 else v &&& mask

/-- prg.h L228-259 `FillPRandWithLtN`: the bytes per element, and the element computed from them (`MPInt` arithmetic is exact). -/
def ltNSize (n : Nat) : Nat := ((if n = 0 then 0 else Nat.log2 n + 1) + 40 + 7) / 8
def ltNElem (n : Nat) (bytes : List Byte) : Nat := leNat bytes % n

end Yacl.Prg
