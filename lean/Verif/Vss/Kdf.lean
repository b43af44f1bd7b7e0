import Mathlib.Data.List.Basic

/-! The key derivation function of the proxy re-encryption scheme:
yacl/crypto/experimental/tpre/kdf.cc.  Property C81.  SM3 is an arbitrary function to 32 bytes. -/
namespace Yacl.Kdf

abbrev Byte := BitVec 8

/-! ### Model -/

/-- kdf.cc L30-35: the counter as four bytes, most significant first. -/
def counterBytes (c : BitVec 32) : List Byte :=
  [((c >>> 24) &&& 0xFF#32).setWidth 8, ((c >>> 16) &&& 0xFF#32).setWidth 8,
   ((c >>> 8) &&& 0xFF#32).setWidth 8, (c &&& 0xFF#32).setWidth 8]

/-- kdf.cc L22-25: `int index = (key_len + 32) / 32` (64-bit arithmetic, then conversion to `int`). -/
def index (keyLen : BitVec 64) : Int := (((keyLen + 32#64) / 32#64).setWidth 32).toInt

/-- kdf.cc L42-48: `dgst_len` in round `i`. -/
def dgstLen (keyLen : BitVec 64) (i : Nat) : Nat :=
  if (i : Int) = index keyLen - 1 then
    if keyLen % 32#64 ≠ 0#64 then (keyLen % 32#64).toNat else 0
  else 32

/-- kdf.cc L28-51: rounds `i`, `i + 1`, ... (`fuel` many). -/
def loop (sm3 : List Byte → List Byte) (Z : List Byte) (keyLen : BitVec 64) :
    Nat → Nat → BitVec 32 → List Byte → List Byte
  | 0, _, _, acc => acc
  | fuel + 1, i, counter, acc =>
    loop sm3 Z keyLen fuel (i + 1) (counter + 1#32)
      (acc ++ (sm3 (Z ++ counterBytes counter)).take (dgstLen keyLen i))

/-- kdf.cc L21-53 `KDF`. -/
def kdf (sm3 : List Byte → List Byte) (Z : List Byte) (keyLen : BitVec 64) : List Byte :=
  loop sm3 Z keyLen (index keyLen).toNat 0 1#32 []

/-! ### C81 -/

theorem index_eq (keyLen : BitVec 64) (h : keyLen.toNat < 2 ^ 36 - 32) :
    index keyLen = keyLen.toNat / 32 + 1 := by
  unfold index
  have e : ((keyLen + 32#64) / 32#64).toNat = keyLen.toNat / 32 + 1 := by
    rw [BitVec.toNat_udiv, BitVec.toNat_add]
    simp
    omega
  rw [BitVec.toInt_eq_toNat_of_lt]
  · rw [BitVec.toNat_setWidth, e]; omega
  · rw [BitVec.toNat_setWidth, e]; omega

theorem dgstLen_eq (keyLen : BitVec 64) (h : keyLen.toNat < 2 ^ 36 - 32) (i : Nat) :
    dgstLen keyLen i = if i = keyLen.toNat / 32 then keyLen.toNat % 32 else 32 := by
  unfold dgstLen
  rw [index_eq keyLen h]
  have e : (keyLen % 32#64).toNat = keyLen.toNat % 32 := by rw [BitVec.toNat_umod]; rfl
  by_cases hi : i = keyLen.toNat / 32
  · rw [if_pos (by omega), if_pos hi]
    split
    · exact e
    · rename_i h0
      simp only [ne_eq, Decidable.not_not] at h0
      rw [h0] at e
      simpa using e
  · rw [if_neg (by omega), if_neg hi]

/-- The counter bytes are the big-endian encoding. -/
theorem counterBytes_eq (n : Nat) (h : n < 2 ^ 32) : counterBytes (BitVec.ofNat 32 n) =
    [BitVec.ofNat 8 (n / 2 ^ 24), BitVec.ofNat 8 (n / 2 ^ 16), BitVec.ofNat 8 (n / 2 ^ 8), BitVec.ofNat 8 n] := by
  have m : ∀ k, k &&& 255 = k % 256 := fun k => Nat.and_two_pow_sub_one_eq_mod k 8
  unfold counterBytes
  congr 1
  · apply BitVec.eq_of_toNat_eq
    simp [Nat.shiftRight_eq_div_pow, m]
    omega
  · congr 1
    · apply BitVec.eq_of_toNat_eq
      simp [Nat.shiftRight_eq_div_pow, m]
      omega
    · congr 1
      · apply BitVec.eq_of_toNat_eq
        simp [Nat.shiftRight_eq_div_pow, m]
        omega
      · congr 1
        apply BitVec.eq_of_toNat_eq
        simp [m]

theorem loop_eq (sm3 : List Byte → List Byte) (Z : List Byte) (keyLen : BitVec 64)
    (fuel i : Nat) (acc : List Byte) :
    loop sm3 Z keyLen fuel i (BitVec.ofNat 32 (i + 1)) acc = acc ++ (List.range' i fuel).flatMap fun k =>
      (sm3 (Z ++ counterBytes (BitVec.ofNat 32 (k + 1)))).take (dgstLen keyLen k) := by
  induction fuel generalizing i acc with
  | zero => simp [loop]
  | succ fuel ih =>
    rw [loop, show BitVec.ofNat 32 (i + 1) + 1#32 = BitVec.ofNat 32 (i + 1 + 1) from by
      rw [← BitVec.ofNat_add], ih, List.range'_succ, List.flatMap_cons, List.append_assoc]

/-- Big-endian encoding of a 32-bit number. -/
def be32 (n : Nat) : List Byte :=
  [BitVec.ofNat 8 (n / 2 ^ 24), BitVec.ofNat 8 (n / 2 ^ 16), BitVec.ofNat 8 (n / 2 ^ 8), BitVec.ofNat 8 n]

theorem blocks_get (blk : Nat → List Byte) (hb : ∀ k, (blk k).length = 32) (m : Nat) (tail : List Byte) (j : Nat) :
    (((List.range m).flatMap blk) ++ tail)[j]? = if j < 32 * m then (blk (j / 32))[j % 32]? else tail[j - 32 * m]? := by
  have hl : ∀ m, ((List.range m).flatMap blk).length = 32 * m := by
    intro m
    induction m with
    | zero => rfl
    | succ m ih => rw [List.range_succ, List.flatMap_append, List.length_append, ih]; simp [hb]; omega
  induction m generalizing tail with
  | zero => simp
  | succ m ih =>
    rw [List.range_succ, List.flatMap_append, List.append_assoc, ih]
    split
    · rw [if_pos (by omega)]
    · simp only [List.flatMap_cons, List.flatMap_nil, List.append_nil]
      rw [List.getElem?_append, hb]
      split
      · rw [if_pos (by omega), show j / 32 = m by omega, show j - 32 * m = j % 32 by omega]
      · rw [if_neg (by omega)]
        congr 1

/-- C81.  For every hash with 32-byte output, every input `Z` and every length below 2^36 - 32, `KDF` returns
exactly `key_len` bytes, and byte `j` is byte `j % 32` of the hash of `Z` followed by the big-endian 32-bit
number `j / 32 + 1`. -/
theorem C81_kdf (sm3 : List Byte → List Byte) (hs : ∀ x, (sm3 x).length = 32) (Z : List Byte)
    (keyLen : BitVec 64) (h : keyLen.toNat < 2 ^ 36 - 32) :
    (kdf sm3 Z keyLen).length = keyLen.toNat ∧
    ∀ j, j < keyLen.toNat → (kdf sm3 Z keyLen)[j]? = (sm3 (Z ++ be32 (j / 32 + 1)))[j % 32]? := by
  have hk : kdf sm3 Z keyLen = ((List.range (keyLen.toNat / 32)).flatMap fun k => sm3 (Z ++ be32 (k + 1))) ++
      (sm3 (Z ++ be32 (keyLen.toNat / 32 + 1))).take (keyLen.toNat % 32) := by
    unfold kdf
    rw [index_eq keyLen h, show ((keyLen.toNat : Int) / 32 + 1).toNat = keyLen.toNat / 32 + 1 by omega]
    rw [show 1#32 = BitVec.ofNat 32 (0 + 1) from rfl, loop_eq, List.nil_append, ← List.range_eq_range',
      List.range_succ, List.flatMap_append]
    congr 1
    · apply List.flatMap_congr
      intro k hk
      have hk := List.mem_range.1 hk
      rw [dgstLen_eq keyLen h, if_neg (by omega), List.take_of_length_le (by rw [hs]; exact Nat.le_refl _), counterBytes_eq _ (by omega)]
      rfl
    · simp only [List.flatMap_cons, List.flatMap_nil, List.append_nil]
      rw [dgstLen_eq keyLen h, if_pos rfl, counterBytes_eq _ (by omega)]
      rfl
  constructor
  · rw [hk, List.length_append, List.length_take, hs]
    have : ∀ m, ((List.range m).flatMap fun k => sm3 (Z ++ be32 (k + 1))).length = 32 * m := by
      intro m
      induction m with
      | zero => rfl
      | succ m ih => rw [List.range_succ, List.flatMap_append, List.length_append, ih]; simp [hs]; omega
    rw [this]
    omega
  · intro j hj
    rw [hk, blocks_get _ (fun _ => hs _)]
    split
    · rfl
    · rw [List.getElem?_take, if_pos (by omega), show j / 32 = keyLen.toNat / 32 by omega,
        show j - 32 * (keyLen.toNat / 32) = j % 32 by omega]

/-- C81, the edge: at 2^36 - 32 bytes the `int` block count overflows to a negative number and the result is
empty. -/
theorem C81_edge (sm3 : List Byte → List Byte) (Z : List Byte) :
    kdf sm3 Z (BitVec.ofNat 64 (2 ^ 36 - 32)) = [] := by
  have : (index (BitVec.ofNat 64 (2 ^ 36 - 32))).toNat = 0 := by decide +kernel
  unfold kdf
  rw [this]
  rfl

/-- Non-vacuity: 40 bytes from a toy hash. -/
example : kdf (fun x => List.replicate 31 7#8 ++ [x.getLastD 0#8]) [1#8] 40#64 =
    List.replicate 31 7#8 ++ [1#8] ++ List.replicate 8 7#8 := by decide +kernel

end Yacl.Kdf
