import Mathlib.Data.Fin.VecNotation

/-!
# FIPS 197: the Advanced Encryption Standard, 128-bit keys

The specification `yacl/crypto/aes` is compared with, written from the standard
and not from the code.  A block is sixteen bytes in memory order; byte `r + 4c`
is the entry in row `r` and column `c` of the state (FIPS 197, 3.4).
-/

namespace Verif.Aes.Fips

/-- A block, a state or a 128-bit key: sixteen bytes (FIPS 197, 3.4). -/
abbrev State := Fin 16 → BitVec 8

/-- Multiplication by `x` in GF(2^8) (FIPS 197, 4.2.1). -/
def xtime (b : BitVec 8) : BitVec 8 :=
  (b <<< 1) ^^^ (if b.msb then 0x1b#8 else 0#8)

/-- Multiplication in GF(2^8) (FIPS 197, 4.2): the sum of `x^i b` over the bits
`i` of `a`. -/
def gmul (a b : BitVec 8) : BitVec 8 :=
  (List.range 8).foldr (fun i acc => acc ^^^ (if a.getLsbD i then xtime^[i] b else 0#8)) 0#8

/-- The substitution table (FIPS 197, table 4). -/
def sboxTable : List Nat :=
  [0x63, 0x7c, 0x77, 0x7b, 0xf2, 0x6b, 0x6f, 0xc5, 0x30, 0x01, 0x67, 0x2b, 0xfe, 0xd7, 0xab, 0x76,
   0xca, 0x82, 0xc9, 0x7d, 0xfa, 0x59, 0x47, 0xf0, 0xad, 0xd4, 0xa2, 0xaf, 0x9c, 0xa4, 0x72, 0xc0,
   0xb7, 0xfd, 0x93, 0x26, 0x36, 0x3f, 0xf7, 0xcc, 0x34, 0xa5, 0xe5, 0xf1, 0x71, 0xd8, 0x31, 0x15,
   0x04, 0xc7, 0x23, 0xc3, 0x18, 0x96, 0x05, 0x9a, 0x07, 0x12, 0x80, 0xe2, 0xeb, 0x27, 0xb2, 0x75,
   0x09, 0x83, 0x2c, 0x1a, 0x1b, 0x6e, 0x5a, 0xa0, 0x52, 0x3b, 0xd6, 0xb3, 0x29, 0xe3, 0x2f, 0x84,
   0x53, 0xd1, 0x00, 0xed, 0x20, 0xfc, 0xb1, 0x5b, 0x6a, 0xcb, 0xbe, 0x39, 0x4a, 0x4c, 0x58, 0xcf,
   0xd0, 0xef, 0xaa, 0xfb, 0x43, 0x4d, 0x33, 0x85, 0x45, 0xf9, 0x02, 0x7f, 0x50, 0x3c, 0x9f, 0xa8,
   0x51, 0xa3, 0x40, 0x8f, 0x92, 0x9d, 0x38, 0xf5, 0xbc, 0xb6, 0xda, 0x21, 0x10, 0xff, 0xf3, 0xd2,
   0xcd, 0x0c, 0x13, 0xec, 0x5f, 0x97, 0x44, 0x17, 0xc4, 0xa7, 0x7e, 0x3d, 0x64, 0x5d, 0x19, 0x73,
   0x60, 0x81, 0x4f, 0xdc, 0x22, 0x2a, 0x90, 0x88, 0x46, 0xee, 0xb8, 0x14, 0xde, 0x5e, 0x0b, 0xdb,
   0xe0, 0x32, 0x3a, 0x0a, 0x49, 0x06, 0x24, 0x5c, 0xc2, 0xd3, 0xac, 0x62, 0x91, 0x95, 0xe4, 0x79,
   0xe7, 0xc8, 0x37, 0x6d, 0x8d, 0xd5, 0x4e, 0xa9, 0x6c, 0x56, 0xf4, 0xea, 0x65, 0x7a, 0xae, 0x08,
   0xba, 0x78, 0x25, 0x2e, 0x1c, 0xa6, 0xb4, 0xc6, 0xe8, 0xdd, 0x74, 0x1f, 0x4b, 0xbd, 0x8b, 0x8a,
   0x70, 0x3e, 0xb5, 0x66, 0x48, 0x03, 0xf6, 0x0e, 0x61, 0x35, 0x57, 0xb9, 0x86, 0xc1, 0x1d, 0x9e,
   0xe1, 0xf8, 0x98, 0x11, 0x69, 0xd9, 0x8e, 0x94, 0x9b, 0x1e, 0x87, 0xe9, 0xce, 0x55, 0x28, 0xdf,
   0x8c, 0xa1, 0x89, 0x0d, 0xbf, 0xe6, 0x42, 0x68, 0x41, 0x99, 0x2d, 0x0f, 0xb0, 0x54, 0xbb, 0x16]

/-- The inverse substitution table (FIPS 197, table 6). -/
def invSboxTable : List Nat :=
  [0x52, 0x09, 0x6a, 0xd5, 0x30, 0x36, 0xa5, 0x38, 0xbf, 0x40, 0xa3, 0x9e, 0x81, 0xf3, 0xd7, 0xfb,
   0x7c, 0xe3, 0x39, 0x82, 0x9b, 0x2f, 0xff, 0x87, 0x34, 0x8e, 0x43, 0x44, 0xc4, 0xde, 0xe9, 0xcb,
   0x54, 0x7b, 0x94, 0x32, 0xa6, 0xc2, 0x23, 0x3d, 0xee, 0x4c, 0x95, 0x0b, 0x42, 0xfa, 0xc3, 0x4e,
   0x08, 0x2e, 0xa1, 0x66, 0x28, 0xd9, 0x24, 0xb2, 0x76, 0x5b, 0xa2, 0x49, 0x6d, 0x8b, 0xd1, 0x25,
   0x72, 0xf8, 0xf6, 0x64, 0x86, 0x68, 0x98, 0x16, 0xd4, 0xa4, 0x5c, 0xcc, 0x5d, 0x65, 0xb6, 0x92,
   0x6c, 0x70, 0x48, 0x50, 0xfd, 0xed, 0xb9, 0xda, 0x5e, 0x15, 0x46, 0x57, 0xa7, 0x8d, 0x9d, 0x84,
   0x90, 0xd8, 0xab, 0x00, 0x8c, 0xbc, 0xd3, 0x0a, 0xf7, 0xe4, 0x58, 0x05, 0xb8, 0xb3, 0x45, 0x06,
   0xd0, 0x2c, 0x1e, 0x8f, 0xca, 0x3f, 0x0f, 0x02, 0xc1, 0xaf, 0xbd, 0x03, 0x01, 0x13, 0x8a, 0x6b,
   0x3a, 0x91, 0x11, 0x41, 0x4f, 0x67, 0xdc, 0xea, 0x97, 0xf2, 0xcf, 0xce, 0xf0, 0xb4, 0xe6, 0x73,
   0x96, 0xac, 0x74, 0x22, 0xe7, 0xad, 0x35, 0x85, 0xe2, 0xf9, 0x37, 0xe8, 0x1c, 0x75, 0xdf, 0x6e,
   0x47, 0xf1, 0x1a, 0x71, 0x1d, 0x29, 0xc5, 0x89, 0x6f, 0xb7, 0x62, 0x0e, 0xaa, 0x18, 0xbe, 0x1b,
   0xfc, 0x56, 0x3e, 0x4b, 0xc6, 0xd2, 0x79, 0x20, 0x9a, 0xdb, 0xc0, 0xfe, 0x78, 0xcd, 0x5a, 0xf4,
   0x1f, 0xdd, 0xa8, 0x33, 0x88, 0x07, 0xc7, 0x31, 0xb1, 0x12, 0x10, 0x59, 0x27, 0x80, 0xec, 0x5f,
   0x60, 0x51, 0x7f, 0xa9, 0x19, 0xb5, 0x4a, 0x0d, 0x2d, 0xe5, 0x7a, 0x9f, 0x93, 0xc9, 0x9c, 0xef,
   0xa0, 0xe0, 0x3b, 0x4d, 0xae, 0x2a, 0xf5, 0xb0, 0xc8, 0xeb, 0xbb, 0x3c, 0x83, 0x53, 0x99, 0x61,
   0x17, 0x2b, 0x04, 0x7e, 0xba, 0x77, 0xd6, 0x26, 0xe1, 0x69, 0x14, 0x63, 0x55, 0x21, 0x0c, 0x7d]

/-- SBOX. -/
def sbox (b : BitVec 8) : BitVec 8 := BitVec.ofNat 8 (sboxTable.getD b.toNat 0)

/-- INVSBOX. -/
def invSbox (b : BitVec 8) : BitVec 8 := BitVec.ofNat 8 (invSboxTable.getD b.toNat 0)

/-- SUBBYTES (FIPS 197, 5.1.1). -/
def subBytes (s : State) : State := fun i => sbox (s i)

/-- INVSUBBYTES (FIPS 197, 5.3.2). -/
def invSubBytes (s : State) : State := fun i => invSbox (s i)

/-- The position of row `r`, column `c`. -/
def pos (r c : Nat) : Fin 16 := Fin.ofNat 16 (r % 4 + 4 * (c % 4))

/-- SHIFTROWS (FIPS 197, 5.1.2): row `r` is rotated left by `r` columns. -/
def shiftRows (s : State) : State := fun i => s (pos (i.val % 4) (i.val / 4 + i.val % 4))

/-- INVSHIFTROWS (FIPS 197, 5.3.1): row `r` is rotated right by `r` columns. -/
def invShiftRows (s : State) : State := fun i => s (pos (i.val % 4) (i.val / 4 + 4 - i.val % 4))

/-- The circulant matrix with first row `a b c d` applied to every column:
entry `(r, k)` of the matrix is the `(k - r) mod 4`-th of the four. -/
def circulant (a b c d : BitVec 8) (s : State) : State := fun i =>
  gmul a (s (pos (i.val % 4) (i.val / 4))) ^^^
  gmul b (s (pos (i.val % 4 + 1) (i.val / 4))) ^^^
  gmul c (s (pos (i.val % 4 + 2) (i.val / 4))) ^^^
  gmul d (s (pos (i.val % 4 + 3) (i.val / 4)))

/-- MIXCOLUMNS (FIPS 197, 5.1.3). -/
def mixColumns : State → State := circulant 2#8 3#8 1#8 1#8

/-- INVMIXCOLUMNS (FIPS 197, 5.3.3). -/
def invMixColumns : State → State := circulant 0x0e#8 0x0b#8 0x0d#8 0x09#8

/-- ADDROUNDKEY (FIPS 197, 5.1.4). -/
def addRoundKey (s k : State) : State := fun i => s i ^^^ k i

/-- A word: four bytes (FIPS 197, 3.5). -/
abbrev Word := Fin 4 → BitVec 8

/-- ROTWORD: `[a0,a1,a2,a3]` becomes `[a1,a2,a3,a0]` (FIPS 197, 5.2). -/
def rotWord (w : Word) : Word := fun i => w (i + 1)

/-- SUBWORD (FIPS 197, 5.2). -/
def subWord (w : Word) : Word := fun i => sbox (w i)

/-- `Rcon[j] = [x^(j-1), 0, 0, 0]` (FIPS 197, 5.2, table 5). -/
def rcon (j : Nat) : Word := fun i => if i = 0 then xtime^[j - 1] 1#8 else 0#8

/-- KEYEXPANSION for `Nk = 4` (FIPS 197, algorithm 2): the word `w[i]`. -/
def keyWord (key : State) : Nat → Word
  | 0 => fun b => key (pos b.val 0)
  | 1 => fun b => key (pos b.val 1)
  | 2 => fun b => key (pos b.val 2)
  | 3 => fun b => key (pos b.val 3)
  | i + 4 =>
    let temp := keyWord key (i + 3)
    let temp := if (i + 4) % 4 = 0 then
        fun b => subWord (rotWord temp) b ^^^ rcon ((i + 4) / 4) b else temp
    fun b => keyWord key i b ^^^ temp b

/-- The round key of round `r`: words `w[4r .. 4r+3]`, one per column. -/
def roundKey (key : State) (r : Nat) : State := fun i =>
  keyWord key (4 * r + i.val / 4) (Fin.ofNat 4 (i.val % 4))

/-- The state after `r` full rounds of CIPHER (FIPS 197, algorithm 1, lines 3-9). -/
def rounds (key : State) (inp : State) : Nat → State
  | 0 => addRoundKey inp (roundKey key 0)
  | r + 1 => addRoundKey (mixColumns (shiftRows (subBytes (rounds key inp r)))) (roundKey key (r + 1))

/-- CIPHER with `Nr = 10` (FIPS 197, algorithm 1): AES-128. -/
def cipher (key inp : State) : State :=
  addRoundKey (shiftRows (subBytes (rounds key inp 9))) (roundKey key 10)

/-- The state after `r` rounds of INVCIPHER (FIPS 197, algorithm 3, lines 3-9). -/
def invRounds (key : State) (inp : State) : Nat → State
  | 0 => addRoundKey inp (roundKey key 10)
  | r + 1 => invMixColumns (addRoundKey (invSubBytes (invShiftRows (invRounds key inp r)))
      (roundKey key (10 - (r + 1))))

/-- INVCIPHER with `Nr = 10` (FIPS 197, algorithm 3). -/
def invCipher (key inp : State) : State :=
  addRoundKey (invSubBytes (invShiftRows (invRounds key inp 9))) (roundKey key 0)

/-- The bytes of a 128-bit number in memory, least significant first. -/
def ofU128 (x : BitVec 128) : State := fun i => x.extractLsb' (8 * i.val) 8

end Verif.Aes.Fips
