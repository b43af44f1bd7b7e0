import Mathlib.Logic.Function.Basic
import Mathlib.Tactic.ByContra

/-! Correlation-robust hashes (yacl/crypto/tools/crhash.{h,cc}). -/

namespace Yacl.CrHash

abbrev B := BitVec 128

/-! ### The SSE instructions used -/

/-- Lane `i` of four 32-bit lanes, and the two 64-bit halves. -/
def lane (x : B) (i : Nat) : BitVec 32 := x.extractLsb' (32 * i) 32
def lo (x : B) : BitVec 64 := x.extractLsb' 0 64
def hi (x : B) : BitVec 64 := x.extractLsb' 64 64

/-- `_mm_shuffle_epi32`: lane `j` of the result is the lane selected by bits `2j, 2j+1` of the constant. -/
def shuffle (x : B) (imm : BitVec 8) : B :=
  let s := fun j => lane x (imm.extractLsb' (2 * j) 2).toNat
  s 3 ++ s 2 ++ s 1 ++ s 0

/-- `_mm_unpackhi_epi64`, `_mm_unpacklo_epi64`: the high (low) halves of the two arguments, the first one's in the low half. -/
def unpackhi (a b : B) : B := hi b ++ hi a
def unpacklo (a b : B) : B := lo b ++ lo a

/-! ### The code -/

/-- crhash.cc L36-41 `Sigma` of one block. -/
def sigma1 (x : B) : B := shuffle x 0b01001110 ^^^ unpackhi x 0

/-- crhash.cc L52-59, L68-75: the loop bodies of the two batch versions. -/
def sigmaBody (x : B) : B := shuffle x 0b01001110 ^^^ unpacklo x 0

/-- crhash.cc L43-61 `Sigma` of a span: the count is narrowed to 32 bits. -/
def sigmaN (x : List B) : List B := (x.take (x.length % 2 ^ 32)).map sigmaBody

/-- crhash.cc L63-77 `SigmaInplace`. -/
def sigmaInplace (x : List B) : List B := (x.take (x.length % 2 ^ 32)).map sigmaBody ++ x.drop (x.length % 2 ^ 32)

/-- crhash.cc L86-89 `CrHash_128`. `rp` is AES-128 with a fixed key (ECB: block by block). -/
def crHash (rp : B → B) (x : B) : B := rp x ^^^ x

/-- crhash.cc L92-99 `ParaCrHash_128`: permute all, then add. -/
def paraCrHash (rp : B → B) (x : List B) : List B := List.zipWith (· ^^^ ·) x (x.map rp)

/-- Writing a span at an offset. -/
def splice (buf : List B) (off : Nat) (x : List B) : List B := buf.take off ++ x ++ buf.drop (off + x.length)

/-- crhash.cc L108-121: the loop over full batches, then the rest. `tmp` holds the permuted span. -/
def crLoop (rp : B → B) : Nat → Nat → List B → List B
  | 0, _, buf => buf
  | fuel + 1, off, buf =>
    let span := fun n => (buf.drop off).take n
    let upd := fun n => splice buf off (List.zipWith (· ^^^ ·) ((span n).map rp) (span n))
    if off + 1024 ≤ buf.length then crLoop rp fuel (off + 1024) (upd 1024)
    else if buf.length - off > 0 then upd (buf.length - off) else buf

/-- crhash.cc L102-122 `ParaCrHashInplace_128`. -/
def crInplace (rp : B → B) (x : List B) : List B := crLoop rp (x.length / 1024 + 1) 0 x

/-- crhash.cc L124 `CcrHash_128`. -/
def ccrHash (rp : B → B) (x : B) : B := crHash rp (sigma1 x)

/-- crhash.cc L127-131 `ParaCcrHash_128`. -/
def paraCcrHash (rp : B → B) (x : List B) : List B := crInplace rp (sigmaN x)

/-- crhash.cc L138-147: the loop of `ParaCcrHashInplace_128`, then the rest (possibly a full batch, possibly empty). -/
def ccrLoop (rp : B → B) : Nat → Nat → List B → List B
  | 0, _, buf => buf
  | fuel + 1, off, buf =>
    let upd := fun n => splice buf off (crInplace rp (sigmaInplace ((buf.drop off).take n)))
    if off + 1024 < buf.length then ccrLoop rp fuel (off + 1024) (upd 1024)
    else upd (buf.length - off)

/-- crhash.cc L134-148 `ParaCcrHashInplace_128`. -/
def ccrInplace (rp : B → B) (x : List B) : List B := ccrLoop rp (x.length / 1024 + 1) 0 x

/-! ### Specification -/

/-- crhash.h L41-43: `Sigma(x) = (x.left ^ x.right) || x.left`, first half in memory first. -/
def Sigma (x : B) : B := lo x ++ (lo x ^^^ hi x)

/-- crhash.h L41-42: `CcrHash = RP(Sigma(x)) ^ Sigma(x)`. -/
def Ccr (rp : B → B) (x : B) : B := rp (Sigma x) ^^^ Sigma x

end Yacl.CrHash
