import Verif.Gf.Poly
import Mathlib.Tactic.ComputeDegree

/-! The reductions and products of the GF(2^64) and GF(2^128) code as polynomial identities. -/
namespace Yacl.Gf
open Polynomial

/-- The documented polynomials `X^64 + X^4 + X^3 + X + 1` and `X^128 + X^7 + X^2 + X + 1`. -/
noncomputable def f64 : (ZMod 2)[X] := X ^ 64 + X ^ 4 + X ^ 3 + X + 1
noncomputable def f128 : (ZMod 2)[X] := X ^ 128 + X ^ 7 + X ^ 2 + X + 1

theorem gfMod64_poly : toPoly gfMod64 = X ^ 4 + X ^ 3 + X + 1 := by
  have e : ∀ i, gfMod64.getLsbD i = decide (i = 4 ∨ i = 3 ∨ i = 1 ∨ i = 0) := by
    intro i
    by_cases h : i < 64
    · have : ∀ i < 64, gfMod64.getLsbD i = decide (i = 4 ∨ i = 3 ∨ i = 1 ∨ i = 0) := by decide +kernel
      exact this i h
    · rw [BitVec.getLsbD_of_ge _ _ (Nat.le_of_not_lt h)]
      symm
      rw [decide_eq_false_iff_not]
      omega
  ext i
  rw [toPoly_coeff, e]
  simp only [coeff_add, coeff_X_pow, coeff_X, coeff_one, decide_eq_true_eq]
  by_cases h0 : i = 0
  · subst h0; decide
  · by_cases h1 : i = 1
    · subst h1; decide
    · by_cases h3 : i = 3
      · subst h3; decide
      · by_cases h4 : i = 4
        · subst h4; decide
        · simp [h0, h1, h3, h4, Ne.symm h1]

theorem gfMod128_poly : toPoly gfMod128 = X ^ 7 + X ^ 2 + X + 1 := by
  have e : ∀ i, gfMod128.getLsbD i = decide (i = 7 ∨ i = 2 ∨ i = 1 ∨ i = 0) := by
    intro i
    by_cases h : i < 64
    · have : ∀ i < 64, gfMod128.getLsbD i = decide (i = 7 ∨ i = 2 ∨ i = 1 ∨ i = 0) := by decide +kernel
      exact this i h
    · rw [BitVec.getLsbD_of_ge _ _ (Nat.le_of_not_lt h)]
      symm
      rw [decide_eq_false_iff_not]
      omega
  ext i
  rw [toPoly_coeff, e]
  simp only [coeff_add, coeff_X_pow, coeff_X, coeff_one, decide_eq_true_eq]
  by_cases h0 : i = 0
  · subst h0; decide
  · by_cases h1 : i = 1
    · subst h1; decide
    · by_cases h3 : i = 2
      · subst h3; decide
      · by_cases h4 : i = 7
        · subst h4; decide
        · simp [h0, h1, h3, h4, Ne.symm h1]

theorem toPoly_natDeg {w : Nat} (x : BitVec (w + 1)) : (toPoly x).natDegree ≤ w := by
  rw [natDegree_le_iff_coeff_eq_zero]
  intro n hn
  rw [toPoly_coeff, BitVec.getLsbD_of_ge x n (by omega)]
  rfl

theorem hi_natDeg {x : BitVec 128} {k : Nat} (h : (toPoly x).natDegree ≤ 64 + k) : (toPoly (hi x)).natDegree ≤ k := by
  rw [natDegree_le_iff_coeff_eq_zero] at h ⊢
  intro n hn
  have := h (64 + n) (by omega)
  rw [toPoly_coeff] at this ⊢
  simp only [hi, BitVec.getLsbD_extractLsb']
  by_cases hb : x.getLsbD (64 + n) = true
  · simp [hb] at this
  · simp [hb]

theorem hi_zero {x : BitVec 128} (h : (toPoly x).natDegree < 64) : toPoly (hi x) = 0 := by
  ext n
  rw [toPoly_coeff, coeff_zero]
  simp only [hi, BitVec.getLsbD_extractLsb']
  have := coeff_eq_zero_of_natDegree_lt (p := toPoly x) (n := 64 + n) (by omega)
  rw [toPoly_coeff] at this
  by_cases hb : x.getLsbD (64 + n) = true
  · simp [hb] at this
  · simp [hb]

theorem lo_poly (x : BitVec 128) : toPoly (lo x) = toPoly x + toPoly (hi x) * X ^ 64 := by
  rw [split_poly x, add_right_comm, add_self, zero_add]

theorem lo_xor (x y : BitVec 128) : lo (x ^^^ y) = lo x ^^^ lo y := by
  unfold lo
  apply BitVec.eq_of_getLsbD_eq
  intro i hi
  simp [BitVec.getLsbD_extractLsb', BitVec.getLsbD_xor, hi]

theorem lo_setWidth (x : BitVec 64) : lo (x.setWidth 128) = x := by
  apply BitVec.eq_of_getLsbD_eq
  intro i hi
  simp [lo, BitVec.getLsbD_extractLsb', BitVec.getLsbD_setWidth, hi, show i < 128 by omega]

theorem hi_setWidth (x : BitVec 64) : hi (x.setWidth 128) = 0 := by
  apply BitVec.eq_of_getLsbD_eq
  intro i _
  simp [hi, BitVec.getLsbD_extractLsb', BitVec.getLsbD_setWidth]

theorem mod64_natDeg : (toPoly gfMod64).natDegree ≤ 4 := by
  rw [gfMod64_poly]
  compute_degree

theorem mod128_natDeg : (toPoly gfMod128).natDegree ≤ 7 := by
  rw [gfMod128_poly]
  compute_degree

theorem f64_eq : f64 = X ^ 64 + toPoly gfMod64 := by
  rw [gfMod64_poly, f64]
  simp only [add_assoc]

theorem f128_eq' (P : (ZMod 2)[X]) (hP : P = X ^ 7 + X ^ 2 + X + 1) : f128 = X ^ 128 + P := by
  unfold f128
  generalize (X ^ 128 : (ZMod 2)[X]) = Q
  rw [hP]
  ring

theorem f128_eq : f128 = X ^ 128 + toPoly gfMod128 := f128_eq' _ gfMod128_poly

/-- `Gf64Reduce` changes the polynomial by a multiple of the modulus. -/
theorem gf64Reduce_poly (x : BitVec 128) : ∃ q, toPoly x = f64 * q + toPoly (gf64Reduce x) := by
  have ht := clmul_poly gfMod64 (hi x)
  set t := clmul gfMod64 (hi x) with htd
  have ht2 := clmul_poly gfMod64 (hi t)
  set t2 := clmul gfMod64 (hi t) with ht2d
  have d1 : (toPoly (hi t)).natDegree ≤ 3 := by
    apply hi_natDeg
    rw [ht]
    exact Nat.le_trans (natDegree_mul_le_of_le mod64_natDeg (toPoly_natDeg (hi x))) (by decide)
  have d2 : (toPoly t2).natDegree ≤ 4 + 3 := by
    rw [ht2]
    exact natDegree_mul_le_of_le mod64_natDeg d1
  have h2 : toPoly (lo t2) = toPoly t2 := by
    rw [lo_poly, hi_zero (by omega), zero_mul, add_zero]
  have ho : gf64Reduce x = lo x ^^^ lo t ^^^ lo t2 := by
    unfold gf64Reduce
    simp only [lo_setWidth, lo_xor, ← htd, ← ht2d]
  refine ⟨toPoly (hi x) + toPoly (hi t), ?_⟩
  rw [ho, toPoly_xor, toPoly_xor, h2, lo_poly, lo_poly, f64_eq, ht2, ht]
  linear_combination (-toPoly (hi x) * X ^ 64 - toPoly (hi t) * X ^ 64 - toPoly gfMod64 * toPoly (hi x)
    - toPoly gfMod64 * toPoly (hi t)) * two_eq_zero

theorem gf64Mul_poly (x y : BitVec 64) : ∃ q, toPoly x * toPoly y = f64 * q + toPoly (gf64Mul x y) := by
  obtain ⟨q, h⟩ := gf64Reduce_poly (clmul x y)
  exact ⟨q, by rw [← clmul_poly, h, gf64Mul]⟩

theorem shr64_poly (x : BitVec 128) : toPoly (x >>> 64) = toPoly (hi x) := by
  ext i
  rw [toPoly_coeff, toPoly_coeff]
  simp only [hi, BitVec.getLsbD_extractLsb', BitVec.getLsbD_ushiftRight]
  by_cases h : i < 64
  · simp [h]
  · simp [h, BitVec.getLsbD_of_ge x (64 + i) (by omega)]

theorem shl64_poly (x : BitVec 128) : toPoly (x <<< 64) = toPoly (lo x) * X ^ 64 := by
  ext i
  rw [toPoly_coeff, coeff_mul_X_pow', toPoly_coeff]
  simp only [lo, BitVec.getLsbD_extractLsb', BitVec.getLsbD_shiftLeft, Nat.zero_add]
  by_cases h : i < 64
  · simp [h]
  · by_cases h2 : i < 128
    · simp [h, h2, show 64 ≤ i by omega, show i - 64 < 64 by omega]
    · simp [h, h2, show 64 ≤ i by omega, show ¬ i - 64 < 64 by omega]

/-- `Gf128ClMul` returns the full 256-bit product. -/
theorem gf128ClMul_poly (x y : BitVec 128) :
    toPoly (gf128ClMul x y).1 * X ^ 128 + toPoly (gf128ClMul x y).2 = toPoly x * toPoly y := by
  unfold gf128ClMul
  simp only
  rw [toPoly_xor, toPoly_xor, shr64_poly, shl64_poly, lo_poly (_ ^^^ _), toPoly_xor, clmul_poly, clmul_poly, clmul_poly, clmul_poly]
  rw [split_poly x, split_poly y]
  linear_combination (toPoly (hi (clmul (lo x) (hi y) ^^^ clmul (hi x) (lo y))) * X ^ 128) * two_eq_zero

set_option maxRecDepth 10000 in
theorem gf128Reduce_poly (h l : BitVec 128) : ∃ q, toPoly h * X ^ 128 + toPoly l = f128 * q + toPoly (gf128Reduce h l) := by
  have hm : toPoly (gfMod128.setWidth 128) = toPoly gfMod128 := toPoly_setWidth _ (by omega)
  have h1 := gf128ClMul_poly h (gfMod128.setWidth 128)
  set p := gf128ClMul h (gfMod128.setWidth 128) with hp
  have h2 := gf128ClMul_poly p.1 (gfMod128.setWidth 128)
  set r := gf128ClMul p.1 (gfMod128.setWidth 128) with hr
  rw [hm] at h1 h2
  have split_deg : ∀ (a b : BitVec 128) (k : Nat), (toPoly a * X ^ 128 + toPoly b).natDegree ≤ 128 + k → (toPoly a).natDegree ≤ k := by
    intro a b k hk
    rw [natDegree_le_iff_coeff_eq_zero] at hk ⊢
    intro n hn
    have := hk (n + 128) (by omega)
    rw [coeff_add, coeff_mul_X_pow, toPoly_coeff b, BitVec.getLsbD_of_ge b _ (by omega)] at this
    simpa using this
  have d1 : (toPoly p.1).natDegree ≤ 6 := by
    apply split_deg _ p.2
    rw [h1]
    exact Nat.le_trans (natDegree_mul_le_of_le (toPoly_natDeg h) mod128_natDeg) (by decide)
  have hz : toPoly r.1 = 0 := by
    ext n
    have hd : (toPoly p.1 * toPoly gfMod128).natDegree ≤ 6 + 7 := natDegree_mul_le_of_le d1 mod128_natDeg
    have := coeff_eq_zero_of_natDegree_lt (p := toPoly p.1 * toPoly gfMod128) (n := n + 128) (by omega)
    rw [← h2, coeff_add, coeff_mul_X_pow, toPoly_coeff r.2, BitVec.getLsbD_of_ge r.2 _ (by omega)] at this
    simpa using this
  rw [hz, zero_mul, zero_add] at h2
  have ho : gf128Reduce h l = l ^^^ p.2 ^^^ r.2 := rfl
  refine ⟨toPoly h + toPoly p.1, ?_⟩
  rw [ho, toPoly_xor, toPoly_xor, h2, f128_eq]
  linear_combination (-1 : (ZMod 2)[X]) * h1 + (-(toPoly gfMod128 * toPoly h) - toPoly gfMod128 * toPoly p.1) * two_eq_zero

theorem gf128Mul_poly (x y : BitVec 128) : ∃ q, toPoly x * toPoly y = f128 * q + toPoly (gf128Mul x y) := by
  obtain ⟨q, h⟩ := gf128Reduce_poly (gf128ClMul x y).1 (gf128ClMul x y).2
  exact ⟨q, by rw [← gf128ClMul_poly, h, gf128Mul]⟩

end Yacl.Gf
