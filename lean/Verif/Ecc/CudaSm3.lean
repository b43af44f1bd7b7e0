import Mathlib.Data.List.GetD
import Mathlib.Tactic.Common

/-! The SM3 hash of the GPU code for SM2 (yacl/crypto/ecc/cuda/kernels/sm2_kernels.cu L1718-1832), which handles 32-byte messages only,
against SM3 as the standard (GM/T 0004-2012) defines it for messages of any length.  Simplification: the right shift by 32 in
`rotl32(x, 0)` is undefined in C++ (see `C151_sm3_shift_violated`); here it gives 0, as the shift instruction of the device does. -/

namespace Yacl.Cuda.Sm3

abbrev W32 := BitVec 32
abbrev Byte := BitVec 8

/-! ### Specification: GM/T 0004-2012 -/

/-- The eight words of a chaining value. -/
structure St where
  (a b c d e f g h : W32)
deriving DecidableEq

/-- The initial value (4.1). -/
def iv : St := ⟨0x7380166F, 0x4914B2B9, 0x172442D7, 0xDA8A0600, 0xA96F30BC, 0x163138AA, 0xE38DEE4D, 0xB0FB0E4E⟩

/-- The constants (4.2). -/
def T (j : ℕ) : W32 := if j ≤ 15 then 0x79CC4519 else 0x7A879D8A

/-- The boolean functions (4.3). -/
def FF (j : ℕ) (x y z : W32) : W32 := if j ≤ 15 then x ^^^ y ^^^ z else (x &&& y) ||| (x &&& z) ||| (y &&& z)
def GG (j : ℕ) (x y z : W32) : W32 := if j ≤ 15 then x ^^^ y ^^^ z else (x &&& y) ||| (~~~x &&& z)

/-- The permutations (4.4). -/
def P0 (x : W32) : W32 := x ^^^ x.rotateLeft 9 ^^^ x.rotateLeft 17
def P1 (x : W32) : W32 := x ^^^ x.rotateLeft 15 ^^^ x.rotateLeft 23

/-- A round of the compression function (5.3.3). -/
def roundSpec (j : ℕ) (w w' : W32) (s : St) : St :=
  let ss1 := (s.a.rotateLeft 12 + s.e + (T j).rotateLeft (j % 32)).rotateLeft 7
  let ss2 := ss1 ^^^ s.a.rotateLeft 12
  let tt1 := FF j s.a s.b s.c + s.d + ss2 + w'
  let tt2 := GG j s.e s.f s.g + s.h + ss1 + w
  ⟨tt1, s.a, s.b.rotateLeft 9, s.c, P0 tt2, s.e, s.f.rotateLeft 19, s.g⟩

def St.xor (s t : St) : St := ⟨s.a ^^^ t.a, s.b ^^^ t.b, s.c ^^^ t.c, s.d ^^^ t.d, s.e ^^^ t.e, s.f ^^^ t.f, s.g ^^^ t.g, s.h ^^^ t.h⟩

/-- `v'` is the compression of the chaining value `v` with the block `m` (5.3.2, 5.3.3). -/
def Compress (m : ℕ → W32) (v v' : St) : Prop :=
  ∃ (W : ℕ → W32) (R : ℕ → St),
    (∀ j < 16, W j = m j) ∧
    (∀ j, 16 ≤ j → j < 68 →
      W j = P1 (W (j - 16) ^^^ W (j - 9) ^^^ (W (j - 3)).rotateLeft 15) ^^^ (W (j - 13)).rotateLeft 7 ^^^ W (j - 6)) ∧
    R 0 = v ∧ (∀ j < 64, R (j + 1) = roundSpec j (W j) (W j ^^^ W (j + 4)) (R j)) ∧ v' = (R 64).xor v

/-- Number of zero bytes of the padding (5.2). -/
def zeros (n : ℕ) : ℕ := (119 - n % 64) % 64

/-- The padding (5.2): a one bit, zeros, and the length in bits as 64 bits. -/
def pad (m : List Byte) : List Byte :=
  m ++ [0x80] ++ List.replicate (zeros m.length) 0 ++ (List.range 8).map fun i => BitVec.ofNat 8 (8 * m.length / 256 ^ (7 - i))

/-- The big-endian word at byte `i`. -/
def word (l : List Byte) (i : ℕ) : W32 :=
  BitVec.ofNat 32 ((l.getD i 0).toNat * 2 ^ 24 + (l.getD (i + 1) 0).toNat * 2 ^ 16 + (l.getD (i + 2) 0).toNat * 2 ^ 8 + (l.getD (i + 3) 0).toNat)

/-- The bytes of a word, big-endian. -/
def wordBytes (w : W32) : List Byte := [24, 16, 8, 0].map fun k => BitVec.ofNat 8 (w.toNat / 2 ^ k)

def St.bytes (s : St) : List Byte :=
  wordBytes s.a ++ wordBytes s.b ++ wordBytes s.c ++ wordBytes s.d ++ wordBytes s.e ++ wordBytes s.f ++ wordBytes s.g ++ wordBytes s.h

/-- `d` is the SM3 hash of the message `m` (5.3.1, 5.4). -/
def IsSm3 (m d : List Byte) : Prop :=
  ∃ V : ℕ → St, V 0 = iv ∧
    (∀ i < (pad m).length / 64, Compress (fun j => word (pad m) (64 * i + 4 * j)) (V i) (V (i + 1))) ∧
    d = (V ((pad m).length / 64)).bytes

/-! ### Model -/

/-- L1718-1720; see the note above for `n = 0`. -/
def rotl32 (x : W32) (n : ℕ) : W32 := (x <<< n) ||| (x >>> (32 - n))

/-- L1722-1726. -/
def loadBe32 (p : List Byte) (i : ℕ) : W32 :=
  ((p.getD i 0).setWidth 32 <<< 24) ||| ((p.getD (i + 1) 0).setWidth 32 <<< 16) ||| ((p.getD (i + 2) 0).setWidth 32 <<< 8) |||
    (p.getD (i + 3) 0).setWidth 32

/-- L1732-1737. -/
def storeBe32 (v : W32) : List Byte := [(v >>> 24).setWidth 8, (v >>> 16).setWidth 8, (v >>> 8).setWidth 8, v.setWidth 8]

/-- L1739-1741. -/
def sm3P0 (x : W32) : W32 := x ^^^ rotl32 x 9 ^^^ rotl32 x 17
/-- L1743-1745. -/
def sm3P1 (x : W32) : W32 := x ^^^ rotl32 x 15 ^^^ rotl32 x 23
/-- L1747-1753. -/
def sm3FF (x y z : W32) (j : ℕ) : W32 := if j < 16 then x ^^^ y ^^^ z else (x &&& y) ||| (x &&& z) ||| (y &&& z)
/-- L1755-1761. -/
def sm3GG (x y z : W32) (j : ℕ) : W32 := if j < 16 then x ^^^ y ^^^ z else (x &&& y) ||| (~~~x &&& z)

/-- The first sixteen words (L1768-1777). -/
def firstWords (msg : List Byte) : List W32 :=
  (List.range 8).map (fun i => loadBe32 msg (i * 4)) ++ [0x80000000] ++ List.replicate 5 0 ++ [0] ++ [256]

/-- The message expansion (L1780-1784) after `n` turns of the loop. -/
def expand (w0 : List W32) : ℕ → List W32
  | 0 => w0
  | n + 1 =>
    let W := expand w0 n
    let j := 16 + n
    let x := W.getD (j - 16) 0 ^^^ W.getD (j - 9) 0 ^^^ rotl32 (W.getD (j - 3) 0) 15
    W ++ [sm3P1 x ^^^ rotl32 (W.getD (j - 13) 0) 7 ^^^ W.getD (j - 6) 0]

/-- `W1` (L1787-1790). -/
def primed (W : List W32) : List W32 := (List.range 64).map fun j => W.getD j 0 ^^^ W.getD (j + 4) 0

/-- The body of the loop of the rounds (L1802-1814). -/
def roundStep (W W1 : List W32) (j : ℕ) (s : St) : St :=
  let Tj : W32 := if j < 16 then 0x79CC4519 else 0x7A879D8A
  let ss1 := rotl32 (rotl32 s.a 12 + s.e + rotl32 Tj (j &&& 31)) 7
  let ss2 := ss1 ^^^ rotl32 s.a 12
  let tt1 := sm3FF s.a s.b s.c j + s.d + ss2 + W1.getD j 0
  let tt2 := sm3GG s.e s.f s.g j + s.h + ss1 + W.getD j 0
  { d := s.c, c := rotl32 s.b 9, b := s.a, a := tt1, h := s.g, g := rotl32 s.f 19, f := s.e, e := sm3P0 tt2 }

/-- The loop of the rounds (L1801-1815) after `n` turns, from the words of L1792-1799. -/
def rounds (W W1 : List W32) : ℕ → St
  | 0 => ⟨0x7380166F, 0x4914B2B9, 0x172442D7, 0xDA8A0600, 0xA96F30BC, 0x163138AA, 0xE38DEE4D, 0xB0FB0E4E⟩
  | n + 1 => roundStep W W1 n (rounds W W1 n)

/-- The last xors (L1817-1824) on the result of the rounds. -/
def core (w0 : List W32) : St :=
  let W := expand w0 52
  let s := rounds W (primed W) 64
  ⟨s.a ^^^ 0x7380166F, s.b ^^^ 0x4914B2B9, s.c ^^^ 0x172442D7, s.d ^^^ 0xDA8A0600, s.e ^^^ 0xA96F30BC, s.f ^^^ 0x163138AA,
    s.g ^^^ 0xE38DEE4D, s.h ^^^ 0xB0FB0E4E⟩

/-- L1764-1832 `sm3Hash32`. -/
def sm3Hash32 (msg : List Byte) : List Byte :=
  let s := core (firstWords msg)
  storeBe32 s.a ++ storeBe32 s.b ++ storeBe32 s.c ++ storeBe32 s.d ++ storeBe32 s.e ++ storeBe32 s.f ++ storeBe32 s.g ++ storeBe32 s.h

/-! ### Proofs -/

theorem rotl32_eq (x : W32) (n : ℕ) (h : n < 32) : rotl32 x n = x.rotateLeft n := by
  simp [rotl32, BitVec.rotateLeft, BitVec.rotateLeftAux, Nat.mod_eq_of_lt h]

theorem storeBe32_eq (w : W32) : storeBe32 w = wordBytes w := by
  simp only [storeBe32, wordBytes, List.map_cons, List.map_nil]
  congr 1
  · apply BitVec.eq_of_toNat_eq; simp [Nat.shiftRight_eq_div_pow]
  congr 1
  · apply BitVec.eq_of_toNat_eq; simp [Nat.shiftRight_eq_div_pow]
  congr 1
  · apply BitVec.eq_of_toNat_eq; simp [Nat.shiftRight_eq_div_pow]
  congr 1
  · apply BitVec.eq_of_toNat_eq; simp

theorem loadBe32_eq (p : List Byte) (i : ℕ) : loadBe32 p i = word p i := by
  unfold loadBe32 word
  generalize p.getD i 0 = a
  generalize p.getD (i + 1) 0 = b
  generalize p.getD (i + 2) 0 = c
  generalize p.getD (i + 3) 0 = d
  have ha := a.isLt
  have hb := b.isLt
  have hc := c.isLt
  have hd := d.isLt
  apply BitVec.eq_of_toNat_eq
  simp only [BitVec.toNat_or, BitVec.toNat_shiftLeft, BitVec.toNat_setWidth, BitVec.toNat_ofNat, Nat.shiftLeft_eq]
  have e1 : a.toNat % 2 ^ 32 * 2 ^ 24 % 2 ^ 32 = a.toNat * 2 ^ 24 := by
    rw [Nat.mod_eq_of_lt (show a.toNat < 2 ^ 32 by omega), Nat.mod_eq_of_lt (show a.toNat * 2 ^ 24 < 2 ^ 32 by omega)]
  have e2 : b.toNat % 2 ^ 32 * 2 ^ 16 % 2 ^ 32 = b.toNat * 2 ^ 16 := by
    rw [Nat.mod_eq_of_lt (show b.toNat < 2 ^ 32 by omega), Nat.mod_eq_of_lt (show b.toNat * 2 ^ 16 < 2 ^ 32 by omega)]
  have e3 : c.toNat % 2 ^ 32 * 2 ^ 8 % 2 ^ 32 = c.toNat * 2 ^ 8 := by
    rw [Nat.mod_eq_of_lt (show c.toNat < 2 ^ 32 by omega), Nat.mod_eq_of_lt (show c.toNat * 2 ^ 8 < 2 ^ 32 by omega)]
  have e4 : d.toNat % 2 ^ 32 = d.toNat := by omega
  rw [e1, e2, e3, e4]
  have o1 : a.toNat * 2 ^ 24 ||| b.toNat * 2 ^ 16 = a.toNat * 2 ^ 24 + b.toNat * 2 ^ 16 := by
    rw [Nat.mul_comm, ← Nat.two_pow_add_eq_or_of_lt (by omega)]
  have o2 : (a.toNat * 2 ^ 24 + b.toNat * 2 ^ 16) ||| c.toNat * 2 ^ 8 = a.toNat * 2 ^ 24 + b.toNat * 2 ^ 16 + c.toNat * 2 ^ 8 := by
    have : a.toNat * 2 ^ 24 + b.toNat * 2 ^ 16 = 2 ^ 16 * (a.toNat * 2 ^ 8 + b.toNat) := by omega
    rw [this, ← Nat.two_pow_add_eq_or_of_lt (by omega)]
  have o3 : (a.toNat * 2 ^ 24 + b.toNat * 2 ^ 16 + c.toNat * 2 ^ 8) ||| d.toNat =
      a.toNat * 2 ^ 24 + b.toNat * 2 ^ 16 + c.toNat * 2 ^ 8 + d.toNat := by
    have : a.toNat * 2 ^ 24 + b.toNat * 2 ^ 16 + c.toNat * 2 ^ 8 = 2 ^ 8 * (a.toNat * 2 ^ 16 + b.toNat * 2 ^ 8 + c.toNat) := by omega
    rw [this, ← Nat.two_pow_add_eq_or_of_lt (by omega)]
  rw [o1, o2, o3]
  omega

theorem expand_length (w0 : List W32) (h : w0.length = 16) (n : ℕ) : (expand w0 n).length = 16 + n := by
  induction n with
  | zero => exact h
  | succ n ih => simp only [expand, List.length_append, ih, List.length_singleton]; omega

theorem expand_old (w0 : List W32) (h : w0.length = 16) (n k i : ℕ) (hi : i < 16 + n) :
    (expand w0 (n + k)).getD i 0 = (expand w0 n).getD i 0 := by
  induction k with
  | zero => rfl
  | succ k ih =>
    rw [← ih, ← Nat.add_assoc]
    have hl := expand_length w0 h (n + k)
    simp only [expand]
    rw [List.getD_append _ _ _ _ (by omega)]

theorem expand_new (w0 : List W32) (h : w0.length = 16) (N j : ℕ) (h1 : 16 ≤ j) (h2 : j < 16 + N) :
    let W := fun i => (expand w0 N).getD i 0
    W j = P1 (W (j - 16) ^^^ W (j - 9) ^^^ (W (j - 3)).rotateLeft 15) ^^^ (W (j - 13)).rotateLeft 7 ^^^ W (j - 6) := by
  intro W
  obtain ⟨n, rfl⟩ : ∃ n, j = 16 + n := ⟨j - 16, by omega⟩
  obtain ⟨k, rfl⟩ : ∃ k, N = n + 1 + k := ⟨N - n - 1, by omega⟩
  have o : ∀ i, i < 16 + n → W i = (expand w0 n).getD i 0 := by
    intro i hi
    show (expand w0 (n + 1 + k)).getD i 0 = _
    rw [Nat.add_assoc]
    exact expand_old w0 h n (1 + k) i hi
  have hl := expand_length w0 h n
  have hj : W (16 + n) = (expand w0 (n + 1)).getD (16 + n) 0 := expand_old w0 h (n + 1) k _ (by omega)
  rw [hj, o _ (by omega), o _ (by omega), o _ (by omega), o _ (by omega), o _ (by omega)]
  simp only [expand]
  rw [List.getD_append_right _ _ _ _ (by omega), hl, Nat.sub_self, List.getD_cons_zero]
  simp only [sm3P1, P1, rotl32_eq _ _ (show 15 < 32 by omega), rotl32_eq _ _ (show 23 < 32 by omega), rotl32_eq _ _ (show 7 < 32 by omega)]

theorem roundStep_eq (W : List W32) (j : ℕ) (hj : j < 64) (s : St) :
    roundStep W (primed W) j s = roundSpec j (W.getD j 0) (W.getD j 0 ^^^ W.getD (j + 4) 0) s := by
  have hp : (primed W).getD j 0 = W.getD j 0 ^^^ W.getD (j + 4) 0 := by
    unfold primed
    rw [List.getD_eq_getElem _ _ (by simpa using hj)]
    simp
  have hm : j &&& 31 = j % 32 := Nat.and_two_pow_sub_one_eq_mod j 5
  have hlt : j % 32 < 32 := Nat.mod_lt _ (by omega)
  have hle : (j < 16) = (j ≤ 15) := by apply propext; omega
  unfold roundStep roundSpec
  simp only [hp, hm, sm3FF, sm3GG, FF, GG, T, sm3P0, P0, hle, rotl32_eq _ _ (show 12 < 32 by omega), rotl32_eq _ _ (show 9 < 32 by omega),
    rotl32_eq _ _ (show 7 < 32 by omega), rotl32_eq _ _ (show 19 < 32 by omega), rotl32_eq _ _ (show 17 < 32 by omega), rotl32_eq _ _ hlt]

theorem core_spec (w0 : List W32) (h : w0.length = 16) : Compress (fun j => w0.getD j 0) iv (core w0) := by
  refine ⟨fun i => (expand w0 52).getD i 0, fun n => rounds (expand w0 52) (primed (expand w0 52)) n, fun j hj => ?_, fun j h1 h2 => ?_, rfl, fun j hj => ?_, rfl⟩
  · exact expand_old w0 h 0 52 j hj
  · exact expand_new w0 h 52 j h1 h2
  · exact roundStep_eq _ _ hj _

/-- The words of the padded message. -/
theorem pad_words (m : List Byte) (h : m.length = 32) (j : ℕ) (hj : j < 16) : word (pad m) (4 * j) = (firstWords m).getD j 0 := by
  have hp : pad m = m ++ ([0x80] ++ List.replicate 23 0 ++ [0, 0, 0, 0, 0, 0, 1, 0]) := by
    unfold pad
    rw [h]
    simp only [List.append_assoc]
    congr 1
  obtain ⟨t, ht⟩ : ∃ t : List Byte, t = [0x80] ++ List.replicate 23 0 ++ [0, 0, 0, 0, 0, 0, 1, 0] := ⟨_, rfl⟩
  rw [← ht] at hp
  by_cases h8 : j < 8
  · have e : (firstWords m).getD j 0 = word m (4 * j) := by
      unfold firstWords
      simp only [List.append_assoc]
      rw [List.getD_append _ _ _ _ (by simpa using h8), List.getD_eq_getElem _ _ (by simpa using h8)]
      simp [loadBe32_eq, Nat.mul_comm]
    rw [e, hp]
    unfold word
    rw [List.getD_append _ _ _ _ (by omega), List.getD_append _ _ _ _ (by omega), List.getD_append _ _ _ _ (by omega),
      List.getD_append _ _ _ _ (by omega)]
  · have e : (firstWords m).getD j 0 = ([0x80000000] ++ List.replicate 5 0 ++ [0] ++ [256] : List W32).getD (j - 8) 0 := by
      unfold firstWords
      simp only [List.append_assoc]
      rw [List.getD_append_right _ _ _ _ (by simp; omega)]
      simp
    have e2 : word (pad m) (4 * j) = word t (4 * (j - 8)) := by
      rw [hp]
      unfold word
      rw [List.getD_append_right _ _ _ _ (by omega), List.getD_append_right _ _ _ _ (by omega), List.getD_append_right _ _ _ _ (by omega),
        List.getD_append_right _ _ _ _ (by omega), h]
      have a0 : 4 * j - 32 = 4 * (j - 8) := by omega
      have a1 : 4 * j + 1 - 32 = 4 * (j - 8) + 1 := by omega
      have a2 : 4 * j + 2 - 32 = 4 * (j - 8) + 2 := by omega
      have a3 : 4 * j + 3 - 32 = 4 * (j - 8) + 3 := by omega
      rw [a0, a1, a2, a3]
    rw [e, e2, ht]
    obtain ⟨k, rfl⟩ : ∃ k, j = k + 8 := ⟨j - 8, by omega⟩
    rw [Nat.add_sub_cancel]
    have hk : k < 8 := by omega
    clear ht hp e e2 hj h8
    revert k
    decide +kernel

/-- **C153**.  The hash of the GPU code is SM3: for every message of 32 bytes it computes the digest the standard defines. -/
theorem C153_sm3 (m : List Byte) (h : m.length = 32) : IsSm3 m (sm3Hash32 m) := by
  have hl : (pad m).length / 64 = 1 := by
    unfold pad
    simp [h, zeros]
  refine ⟨fun n => if n = 0 then iv else core (firstWords m), rfl, ?_, ?_⟩
  · rw [hl]
    intro i hi
    obtain rfl : i = 0 := by omega
    obtain ⟨W, R, h1, h2, h3, h4, h5⟩ := core_spec (firstWords m) (by simp [firstWords])
    refine ⟨W, R, fun j hj => ?_, h2, h3, h4, h5⟩
    rw [h1 j hj]
    show (firstWords m).getD j 0 = word (pad m) (64 * 0 + 4 * j)
    rw [Nat.mul_zero, Nat.zero_add, pad_words m h j hj]
  · rw [hl]
    simp only [sm3Hash32, St.bytes, storeBe32_eq]
    rfl

theorem compress_unique {m : ℕ → W32} {v v1 v2 : St} (h1 : Compress m v v1) (h2 : Compress m v v2) : v1 = v2 := by
  obtain ⟨W, R, a1, a2, a3, a4, a5⟩ := h1
  obtain ⟨W', R', b1, b2, b3, b4, b5⟩ := h2
  have hW : ∀ j, j < 68 → W j = W' j := by
    intro j
    induction j using Nat.strongRecOn with
    | _ j ih =>
      intro hj
      by_cases h : j < 16
      · rw [a1 j h, b1 j h]
      · rw [a2 j (by omega) hj, b2 j (by omega) hj, ih (j - 16) (by omega) (by omega), ih (j - 9) (by omega) (by omega),
          ih (j - 3) (by omega) (by omega), ih (j - 13) (by omega) (by omega), ih (j - 6) (by omega) (by omega)]
  have hR : ∀ j, j ≤ 64 → R j = R' j := by
    intro j
    induction j with
    | zero => intro _; rw [a3, b3]
    | succ j ih =>
      intro hj
      rw [a4 j (by omega), b4 j (by omega), ih (by omega), hW j (by omega), hW (j + 4) (by omega)]
  rw [a5, b5, hR 64 (Nat.le_refl _)]

/-- **C153** (unique).  The standard leaves no choice: a message has one digest. -/
theorem C153_unique (m d d' : List Byte) (h : IsSm3 m d) (h' : IsSm3 m d') : d = d' := by
  obtain ⟨V, a1, a2, a3⟩ := h
  obtain ⟨V', b1, b2, b3⟩ := h'
  have hV : ∀ i, i ≤ (pad m).length / 64 → V i = V' i := by
    intro i
    induction i with
    | zero => intro _; rw [a1, b1]
    | succ i ih =>
      intro hi
      have e := ih (by omega)
      have k := b2 i (by omega)
      rw [← e] at k
      exact compress_unique (a2 i (by omega)) k
  rw [a3, b3, hV _ (Nat.le_refl _)]

/-- **C153** (iff).  What the GPU code computes for a 32-byte message is the digest, and nothing else is. -/
theorem C153_iff (m d : List Byte) (h : m.length = 32) : IsSm3 m d ↔ d = sm3Hash32 m :=
  ⟨fun k => C153_unique m d _ k (C153_sm3 m h), fun k => k ▸ C153_sm3 m h⟩

/-- The example of the standard (appendix A.1), with the block of the message "abc". -/
example : core ([0x61626380] ++ List.replicate 14 0 ++ [24]) =
    ⟨0x66C7F0F4, 0x62EEEDD9, 0xD1F2D46B, 0xDC10E4E2, 0x4167C487, 0x5CF2F7A2, 0x297DA02B, 0x8F4BA8E0⟩ := by decide +kernel

example : (List.replicate 32 (7 : Byte)).length = 32 := by decide

end Yacl.Cuda.Sm3
