import Verif.Gf.Model
import Mathlib.Algebra.Polynomial.Basic
import Mathlib.Algebra.Polynomial.Degree.Lemmas
import Mathlib.Algebra.Polynomial.BigOperators
import Mathlib.Data.ZMod.Basic
import Mathlib.Tactic.Ring
import Mathlib.Tactic.LinearCombination

/-! Bit vectors as polynomials over the field with two elements. -/
namespace Yacl.Gf
open Polynomial

/-- Bit `i` is the coefficient of `X^i`. -/
noncomputable def toPoly {w : Nat} (x : BitVec w) : (ZMod 2)[X] := ∑ i ∈ Finset.range w, if x.getLsbD i then X ^ i else 0

theorem toPoly_coeff {w : Nat} (x : BitVec w) (i : Nat) : (toPoly x).coeff i = if x.getLsbD i then 1 else 0 := by
  unfold toPoly
  rw [finset_sum_coeff]
  have : ∀ b ∈ Finset.range w, (if x.getLsbD b = true then (X : (ZMod 2)[X]) ^ b else 0).coeff i =
      if i = b then (if x.getLsbD i then 1 else 0) else 0 := by
    intro b _
    by_cases h : i = b
    · subst h
      by_cases h2 : x.getLsbD i = true <;> simp [h2]
    · by_cases h2 : x.getLsbD b = true <;> simp [h2, h, coeff_X_pow]
  rw [Finset.sum_congr rfl this, Finset.sum_ite_eq]
  by_cases h : i < w
  · simp [h]
  · simp [h, BitVec.getLsbD_of_ge x i (Nat.le_of_not_lt h)]

theorem toPoly_inj {w : Nat} {x y : BitVec w} (h : toPoly x = toPoly y) : x = y := by
  apply BitVec.eq_of_getLsbD_eq
  intro i _
  have := congrArg (fun p => p.coeff i) h
  simp only [toPoly_coeff] at this
  cases hx : x.getLsbD i <;> cases hy : y.getLsbD i <;> simp_all

theorem two_eq_zero : (2 : (ZMod 2)[X]) = 0 := by
  have : (2 : ZMod 2) = 0 := by decide
  rw [← C_ofNat, this, C_0]

theorem add_self (p : (ZMod 2)[X]) : p + p = 0 := by
  rw [← two_mul, two_eq_zero, zero_mul]

theorem neg_eq (p : (ZMod 2)[X]) : -p = p := by
  rw [neg_eq_iff_add_eq_zero, add_self]

theorem toPoly_xor {w : Nat} (x y : BitVec w) : toPoly (x ^^^ y) = toPoly x + toPoly y := by
  ext i
  rw [coeff_add, toPoly_coeff, toPoly_coeff, toPoly_coeff, BitVec.getLsbD_xor]
  cases x.getLsbD i <;> cases y.getLsbD i <;> decide

@[simp] theorem toPoly_zero {w : Nat} : toPoly (0 : BitVec w) = 0 := by
  ext i
  simp [toPoly_coeff]

theorem toPoly_setWidth {w v : Nat} (x : BitVec w) (h : w ≤ v) : toPoly (x.setWidth v) = toPoly x := by
  ext i
  rw [toPoly_coeff, toPoly_coeff, BitVec.getLsbD_setWidth]
  by_cases hi : i < v
  · simp [hi]
  · simp [hi, BitVec.getLsbD_of_ge x i (by omega)]

theorem toPoly_shift {w : Nat} (x : BitVec w) (v n : Nat) (h : w + n ≤ v) :
    toPoly ((x.setWidth v) <<< n) = X ^ n * toPoly x := by
  ext i
  rw [toPoly_coeff, coeff_X_pow_mul', BitVec.getLsbD_shiftLeft]
  by_cases hi : n ≤ i
  · rw [if_pos hi, toPoly_coeff, BitVec.getLsbD_setWidth]
    by_cases hv : i < v
    · simp [hv, hi, Nat.not_lt.mpr hi, show i - n < v by omega]
    · simp [hv, BitVec.getLsbD_of_ge x (i - n) (by omega)]
  · simp [hi, Nat.lt_of_not_le hi]

theorem clmul_fold (a b : BitVec 64) (n : Nat) (hn : n ≤ 64) :
    toPoly ((List.range n).foldl (fun acc i => acc ^^^ (if b.getLsbD i then (a.setWidth 128) <<< i else 0)) 0) =
      toPoly a * ∑ i ∈ Finset.range n, if b.getLsbD i then X ^ i else 0 := by
  induction n with
  | zero =>
    show toPoly 0 = _
    rw [toPoly_zero, Finset.range_zero, Finset.sum_empty, mul_zero]
  | succ n ih =>
    have e : toPoly (if b.getLsbD n then (a.setWidth 128) <<< n else 0) = toPoly a * (if b.getLsbD n then X ^ n else 0) := by
      by_cases h : b.getLsbD n = true
      · rw [if_pos h, if_pos h, toPoly_shift _ _ _ (by omega), mul_comm]
      · rw [if_neg h, if_neg h, toPoly_zero, mul_zero]
    rw [List.range_succ, List.foldl_append, Finset.sum_range_succ, mul_add, ← ih (by omega)]
    simp only [List.foldl_cons, List.foldl_nil]
    rw [toPoly_xor, e]

theorem clmul_poly (a b : BitVec 64) : toPoly (clmul a b) = toPoly a * toPoly b := clmul_fold a b 64 (Nat.le_refl _)

theorem split_poly (x : BitVec 128) : toPoly x = toPoly (hi x) * X ^ 64 + toPoly (lo x) := by
  ext i
  rw [coeff_add, coeff_mul_X_pow', toPoly_coeff, toPoly_coeff, toPoly_coeff]
  simp only [hi, lo, BitVec.getLsbD_extractLsb', Nat.zero_add]
  by_cases h : i < 64
  · simp [h, Nat.not_le.mpr h]
  · by_cases h2 : i < 128
    · simp [h, Nat.le_of_not_lt h, show i - 64 < 64 by omega, show 64 + (i - 64) = i by omega]
    · simp [h, Nat.le_of_not_lt h, BitVec.getLsbD_of_ge x i (by omega), show ¬ i - 64 < 64 by omega]

theorem toPoly_deg {w : Nat} (x : BitVec w) : (toPoly x).degree < w := by
  rw [degree_lt_iff_coeff_zero]
  intro m hm
  rw [toPoly_coeff, BitVec.getLsbD_of_ge x m hm]
  rfl

end Yacl.Gf
