import Verif.Ecc.CudaKernel
import Verif.Ecc.CudaSm3

/-! The hash to the curve of the GPU code for SM2 on bytes (yacl/crypto/ecc/cuda/kernels/sm2_kernels.cu L1728-1730, L1836-1903): the loop of
CudaKernel with the digests as byte strings and the hash of CudaSm3. -/

namespace Yacl.Cuda

open Sm3 (Byte sm3Hash32 loadBe32 IsSm3)

/-- Specification: the number a byte string spells, big-endian. -/
def beNat (l : List Byte) : ℕ := l.foldl (fun n b => n * 256 + b.toNat) 0

/-- L1728-1730 `loadBe64`. -/
def loadBe64 (p : List Byte) (i : ℕ) : ℕ :=
  (((loadBe32 p i).setWidth 64 <<< 32) ||| ((loadBe32 p (i + 4)).setWidth 64 : BitVec 64)).toNat

/-- The limbs of a digest (L1839-1842). -/
def digestLimbs (p : List Byte) : Fe := ⟨loadBe64 p 24, loadBe64 p 16, loadBe64 p 8, loadBe64 p 0⟩

/-- L1861-1900: the loop of `hashToCurveTryAndRehashSmFromDigest` on the bytes of the digest, with `n` tries left. -/
def hashBytesLoop : ℕ → List Byte → Option Aff
  | 0, _ => none
  | n + 1, p => (hashStep (digestLimbs p)).or (hashBytesLoop n (sm3Hash32 p))

/-- L1854-1903 with its 100 tries. -/
def hashBytes (p : List Byte) : Option Aff := hashBytesLoop 100 p

theorem loadBe64_eq (p : List Byte) (i : ℕ) : loadBe64 p i = (Sm3.word p i).toNat * 2 ^ 32 + (Sm3.word p (i + 4)).toNat := by
  unfold loadBe64
  rw [Sm3.loadBe32_eq, Sm3.loadBe32_eq]
  generalize Sm3.word p i = a
  generalize Sm3.word p (i + 4) = b
  have ha := a.isLt
  have hb := b.isLt
  simp only [BitVec.toNat_or, BitVec.toNat_shiftLeft, BitVec.toNat_setWidth, Nat.shiftLeft_eq]
  rw [Nat.mod_eq_of_lt (show a.toNat < 2 ^ 64 by omega), Nat.mod_eq_of_lt (show a.toNat * 2 ^ 32 < 2 ^ 64 by omega),
    Nat.mod_eq_of_lt (show b.toNat < 2 ^ 64 by omega), Nat.mul_comm, ← Nat.two_pow_add_eq_or_of_lt hb]

theorem digestLimbs_wf (p : List Byte) : (digestLimbs p).Wf := by
  have h : ∀ i, loadBe64 p i < W := fun i => BitVec.isLt _
  exact ⟨h _, h _, h _, h _⟩

theorem word_toNat (l : List Byte) (i : ℕ) : (Sm3.word l i).toNat = (l.getD i 0).toNat * 2 ^ 24 + (l.getD (i + 1) 0).toNat * 2 ^ 16 +
    (l.getD (i + 2) 0).toNat * 2 ^ 8 + (l.getD (i + 3) 0).toNat := by
  unfold Sm3.word
  have h0 := (l.getD i 0).isLt
  have h1 := (l.getD (i + 1) 0).isLt
  have h2 := (l.getD (i + 2) 0).isLt
  have h3 := (l.getD (i + 3) 0).isLt
  rw [BitVec.toNat_ofNat, Nat.mod_eq_of_lt]
  omega

theorem beNat_snoc (l : List Byte) (b : Byte) : beNat (l ++ [b]) = beNat l * 256 + b.toNat := by
  simp [beNat]

theorem beNat_take (l : List Byte) (n : ℕ) (h : n < l.length) : beNat (l.take (n + 1)) = beNat (l.take n) * 256 + (l.getD n 0).toNat := by
  rw [List.take_add_one, List.getElem?_eq_getElem h, Option.toList_some, beNat_snoc, List.getD_eq_getElem _ _ h]

theorem beNat_take8 (l : List Byte) (n : ℕ) (h : n + 8 ≤ l.length) : beNat (l.take (n + 8)) = beNat (l.take n) * 2 ^ 64 + loadBe64 l n := by
  rw [loadBe64_eq, word_toNat, word_toNat]
  have e0 := beNat_take l n (by omega)
  have e1 := beNat_take l (n + 1) (by omega)
  have e2 := beNat_take l (n + 2) (by omega)
  have e3 := beNat_take l (n + 3) (by omega)
  have e4 := beNat_take l (n + 4) (by omega)
  have e5 := beNat_take l (n + 5) (by omega)
  have e6 := beNat_take l (n + 6) (by omega)
  have e7 := beNat_take l (n + 7) (by omega)
  rw [show n + 4 + 1 = n + 5 from rfl, show n + 4 + 2 = n + 6 from rfl, show n + 4 + 3 = n + 7 from rfl]
  rw [show n + 8 = n + 7 + 1 from rfl, e7, show n + 7 = n + 6 + 1 from rfl, e6, show n + 6 = n + 5 + 1 from rfl, e5,
    show n + 5 = n + 4 + 1 from rfl, e4, show n + 4 = n + 3 + 1 from rfl, e3, show n + 3 = n + 2 + 1 from rfl, e2,
    show n + 2 = n + 1 + 1 from rfl, e1, e0]
  generalize beNat (l.take n) = A
  omega

/-- The limbs of a digest spell the number its bytes spell. -/
theorem digestLimbs_val (p : List Byte) (h : p.length = 32) : (digestLimbs p).val = beNat p := by
  have e1 := beNat_take8 p 0 (by omega)
  have e2 := beNat_take8 p 8 (by omega)
  have e3 := beNat_take8 p 16 (by omega)
  have e4 := beNat_take8 p 24 (by omega)
  rw [show 24 + 8 = p.length by omega, List.take_length] at e4
  simp only [Nat.zero_add, List.take_zero] at e1
  have e0 : beNat [] = 0 := rfl
  rw [e0] at e1
  rw [e4, e3, e2, e1]
  unfold Fe.val digestLimbs
  ring

theorem sm3Hash32_length (p : List Byte) : (sm3Hash32 p).length = 32 := rfl

/-- Specification: the abscissa tried at step `t`: the `t`-th SM3 digest after `p`, read big-endian, in the field. -/
noncomputable def candBytes (p : List Byte) (t : ℕ) : ZMod Pm := (beNat (sm3Hash32^[t] p) : ZMod Pm)

/-- Specification: `Q` is the point that try-and-rehash gives for `p` within 100 tries. -/
def HashesBytes (p : List Byte) (Q : E.Point) : Prop :=
  ∃ t < 100, (∀ s < t, ¬ IsSquare (rhsOf (candBytes p s))) ∧
    ∃ y, ∃ h : E.Nonsingular (candBytes p t) y, Q = .some (candBytes p t) y h ∧ y.val % 2 = 0

theorem digest_res (p : List Byte) (h : p.length = 32) : (digestLimbs p).res = candBytes p 0 := by
  rw [Fe.res, digestLimbs_val p h]
  rfl

theorem hashBytesLoop_spec (n : ℕ) : ∀ p : List Byte, p.length = 32 →
    (∃ P t, hashBytesLoop n p = some P ∧ t < n ∧ (∀ s < t, ¬ IsSquare (rhsOf (candBytes p s))) ∧
      ∃ y, ∃ h : E.Nonsingular (candBytes p t) y, RepA P (.some (candBytes p t) y h) ∧ y.val % 2 = 0) ∨
    (hashBytesLoop n p = none ∧ ∀ t < n, ¬ IsSquare (rhsOf (candBytes p t))) := by
  induction n with
  | zero => intro p _; exact .inr ⟨rfl, by simp⟩
  | succ n ih =>
    intro p hp
    have hs := hashStep_spec (digestLimbs p) (digestLimbs_wf p)
    rw [digest_res p hp] at hs
    obtain ⟨h1, h2⟩ := hs
    by_cases hq : IsSquare (rhsOf (candBytes p 0))
    · obtain ⟨P, e, y, h, hP⟩ := h1 hq
      exact .inl ⟨P, 0, by rw [hashBytesLoop, e, Option.some_or], by omega, by simp, y, h, hP⟩
    · rw [hashBytesLoop, h2 hq, Option.none_or]
      rcases ih (sm3Hash32 p) (sm3Hash32_length p) with ⟨P, t, e, ht, hlt, y, h, hP⟩ | ⟨e, ht⟩
      · refine .inl ⟨P, t + 1, e, by omega, ?_, y, h, hP⟩
        intro s hs'
        cases s with
        | zero => exact hq
        | succ s => exact hlt s (by omega)
      · refine .inr ⟨e, ?_⟩
        intro s hs'
        cases s with
        | zero => exact hq
        | succ s => exact ht s (by omega)

/-- **C153** (hash to curve).  For every 32-byte digest the GPU code gives the point of the first of 100 abscissas (the digest, its SM3
hash, the hash of that, …) that has one, with even ordinate, or reports failure when none has. -/
theorem C153_hash_to_curve (p : List Byte) (hp : p.length = 32) :
    (∃ P Q, hashBytes p = some P ∧ RepA P Q ∧ HashesBytes p Q) ∨
    (hashBytes p = none ∧ ∀ t < 100, ¬ IsSquare (rhsOf (candBytes p t))) := by
  rcases hashBytesLoop_spec 100 p hp with ⟨P, t, e, ht, hlt, y, h, hP, hy⟩ | h
  · exact .inl ⟨P, _, e, hP, t, ht, hlt, y, h, rfl, hy⟩
  · exact .inr h

/-- **C153** (the digests tried).  Each digest tried after the first is the SM3 digest, by the standard, of the one before. -/
theorem C153_chain (p : List Byte) (hp : p.length = 32) (t : ℕ) : IsSm3 (sm3Hash32^[t] p) (sm3Hash32^[t + 1] p) := by
  rw [Function.iterate_succ_apply']
  apply Sm3.C153_sm3
  cases t with
  | zero => exact hp
  | succ t => rw [Function.iterate_succ_apply']; exact sm3Hash32_length _

example : beNat [1, 2] = 258 := by decide

example : (List.replicate 32 (255 : Byte)).length = 32 ∧ loadBe64 (List.replicate 31 0 ++ [5]) 24 = 5 := by decide

end Yacl.Cuda
