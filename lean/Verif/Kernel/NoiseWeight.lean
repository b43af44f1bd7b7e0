import Verif.Math.Gadget
import Mathlib.Analysis.SpecialFunctions.Log.Base
import Mathlib.Algebra.Order.Floor.Semiring
import Mathlib.Tactic.NormNum
import Mathlib.Tactic.Positivity

/-! C142: the number of noise positions of the dual LPN assumption, yacl/secparam.h `GenRegNoiseWeight`. -/

namespace Yacl.NoiseWeight

/-- What a call can do. -/
inductive Outcome | threw | undefined | ok (w : ℕ)

/-- secparam.h L180-181, the quotient `-double(sec) / d` with `d = log2(1 - 2 * min_dist_ratio)`.  Simplification: real
numbers, so the rounding of `double` is not modelled.  For the ratio 1/2 the logarithm is minus infinity and the quotient 0. -/
noncomputable def quotient (ratio : ℝ) (sec : ℕ) : ℝ :=
  if ratio = 1 / 2 then 0 else -(sec : ℝ) / Real.logb 2 (1 - 2 * ratio)

open Classical in
/-- secparam.h L175-184 `GenRegNoiseWeight`.  Converting a `double` of 2^64 or more to `uint64_t` is undefined. -/
noncomputable def genRegNoiseWeight (ratio : ℝ) (sec : ℕ) : Outcome :=
  if ratio > 1 / 2 ∨ ratio ≤ 0 then .threw
  else if quotient ratio sec ≥ 2 ^ 64 then .undefined
  else
    let t := max 128 ⌊quotient ratio sec⌋₊
    match Yacl.Gadget.roundUpTo (BitVec.ofNat 64 t) 8 with
    | none => .undefined
    | some w => .ok w.toNat

/-! ### Specification -/

/-- The bias `(1 - 2 * ratio) ^ w` a linear test keeps with `w` noise positions is at most `2 ^ -sec`. -/
def Reaches (ratio : ℝ) (sec w : ℕ) : Prop := (1 - 2 * ratio) ^ w ≤ ((2 : ℝ) ^ sec)⁻¹

/-! ### Proofs -/

theorem round8 (t : ℕ) (h0 : 0 < t) (h1 : t ≤ 2 ^ 64 - 8) :
    ∃ w, Yacl.Gadget.roundUpTo (BitVec.ofNat 64 t) 8 = some w ∧ w.toNat = (t + 7) / 8 * 8 := by
  have ht : (BitVec.ofNat 64 t).toNat = t := by rw [BitVec.toNat_ofNat]; omega
  have hne : BitVec.ofNat 64 t ≠ 0 := by
    intro h
    have := congrArg BitVec.toNat h
    rw [ht] at this
    simp at this
    omega
  unfold Yacl.Gadget.roundUpTo Yacl.Gadget.divCeil
  rw [if_neg hne, if_neg (by decide), Option.map_some]
  refine ⟨_, rfl, ?_⟩
  rw [BitVec.toNat_mul, BitVec.toNat_add, BitVec.toNat_udiv, BitVec.toNat_sub, ht]
  have e1 : (1 : BitVec 64).toNat = 1 := rfl
  have e8 : (8 : BitVec 64).toNat = 8 := rfl
  rw [e1, e8]
  omega

/-- Against powers: the quotient is at least `x` exactly if `x` noise positions do no more than reach the level. -/
theorem le_quotient (ratio : ℝ) (h0 : 0 < ratio) (h1 : ratio < 1 / 2) (sec n : ℕ) :
    (n : ℝ) ≤ quotient ratio sec ↔ ((2 : ℝ) ^ sec)⁻¹ ≤ (1 - 2 * ratio) ^ n := by
  have ha : 0 < 1 - 2 * ratio := by linarith
  have hb : 1 - 2 * ratio < 1 := by linarith
  have hlog : Real.logb 2 (1 - 2 * ratio) < 0 := Real.logb_neg (by norm_num) ha hb
  unfold quotient
  rw [if_neg (ne_of_lt h1), le_div_iff_of_neg hlog]
  have hp : (0 : ℝ) < ((2 : ℝ) ^ sec)⁻¹ := by positivity
  have hq : 0 < (1 - 2 * ratio) ^ n := pow_pos ha n
  rw [← Real.logb_le_logb (b := 2) (by norm_num) hp hq, Real.logb_inv, Real.logb_pow, Real.logb_pow,
    Real.logb_self_eq_one (by norm_num), mul_one]

theorem floor_eq (ratio : ℝ) (h0 : 0 < ratio) (h1 : ratio < 1 / 2) (sec n : ℕ)
    (hn : ((2 : ℝ) ^ sec)⁻¹ ≤ (1 - 2 * ratio) ^ n) (hn' : (1 - 2 * ratio) ^ (n + 1) < ((2 : ℝ) ^ sec)⁻¹) :
    ⌊quotient ratio sec⌋₊ = n := by
  have a := (le_quotient ratio h0 h1 sec n).2 hn
  rw [Nat.floor_eq_iff (le_trans (Nat.cast_nonneg n) a)]
  refine ⟨a, ?_⟩
  by_contra hc
  have := (le_quotient ratio h0 h1 sec (n + 1)).1 (by push_cast; linarith)
  linarith

theorem quotient_lt (ratio : ℝ) (sec n : ℕ) (h : ⌊quotient ratio sec⌋₊ = n) (hn : n < 2 ^ 63) : ¬ quotient ratio sec ≥ 2 ^ 64 := by
  intro hc
  have h1 := Nat.lt_floor_add_one (quotient ratio sec)
  rw [h] at h1
  have : (n : ℝ) + 1 ≤ 2 ^ 63 := by exact_mod_cast hn
  norm_num at hc this
  linarith

/-- C142, in part: a ratio outside of (0, 1/2] throws; otherwise, if the number of positions fits, it is at least 128,
a multiple of 8, at most 7 above the quotient or 128, and one more position would always reach the security level.
Missing: the level itself (`C142_reaches_violated`), ratios so small that the number does not fit
(`C142_small_violated`), the rounding of `double`. -/
theorem C142_weight_partial (ratio : ℝ) (sec : ℕ) :
    (genRegNoiseWeight ratio sec = .threw ↔ ¬ (0 < ratio ∧ ratio ≤ 1 / 2)) ∧
    (0 < ratio → ratio ≤ 1 / 2 → quotient ratio sec ≤ 2 ^ 63 →
      ∃ w, genRegNoiseWeight ratio sec = .ok w ∧ 128 ≤ w ∧ 8 ∣ w ∧ (w : ℝ) < max 128 (quotient ratio sec) + 8 ∧
        Reaches ratio sec (w + 1)) := by
  constructor
  · unfold genRegNoiseWeight
    constructor
    · intro h
      split at h
      · rename_i hc
        rintro ⟨h1, h2⟩
        rcases hc with hc | hc <;> linarith
      · split at h
        · cases h
        · dsimp only at h
          split at h <;> cases h
    · intro h
      rw [if_pos]
      by_contra hc
      push Not at hc
      exact h ⟨hc.2, hc.1⟩
  · intro h0 h1 hq
    have hf : ⌊quotient ratio sec⌋₊ ≤ 2 ^ 63 := by
      apply Nat.floor_le_of_le
      exact_mod_cast hq
    obtain ⟨w, hw, hw'⟩ := round8 (max 128 ⌊quotient ratio sec⌋₊) (by omega) (by omega)
    have hqn : ¬ quotient ratio sec ≥ 2 ^ 64 := by
      intro hc; norm_num at hc hq; linarith
    have hnn : 0 ≤ quotient ratio sec := by
      rcases lt_or_eq_of_le h1 with hlt | heq
      · have := (le_quotient ratio h0 hlt sec 0).2 (by
          rw [pow_zero]; exact inv_le_one_of_one_le₀ (one_le_pow₀ (by norm_num)))
        simpa using this
      · simp [quotient, heq]
    refine ⟨w.toNat, ?_, by omega, by omega, ?_, ?_⟩
    · unfold genRegNoiseWeight
      rw [if_neg (by push Not; exact ⟨h1, h0⟩), if_neg hqn]
      dsimp only
      rw [hw]
    · have a1 : w.toNat < max 128 ⌊quotient ratio sec⌋₊ + 8 := by omega
      have a2 : ((max 128 ⌊quotient ratio sec⌋₊ : ℕ) : ℝ) ≤ max 128 (quotient ratio sec) := by
        push_cast
        exact max_le_max le_rfl (Nat.floor_le hnn)
      have a3 : (w.toNat : ℝ) < ((max 128 ⌊quotient ratio sec⌋₊ : ℕ) : ℝ) + 8 := by exact_mod_cast a1
      linarith
    · unfold Reaches
      rcases lt_or_eq_of_le h1 with hlt | heq
      · have hfw : ⌊quotient ratio sec⌋₊ ≤ w.toNat := by omega
        have hl := Nat.lt_floor_add_one (quotient ratio sec)
        by_contra hc
        push Not at hc
        have := (le_quotient ratio h0 hlt sec (w.toNat + 1)).2 (le_of_lt hc)
        have hfw' : ((⌊quotient ratio sec⌋₊ : ℕ) : ℝ) ≤ (w.toNat : ℝ) := by exact_mod_cast hfw
        push_cast at this
        linarith
      · rw [heq]
        norm_num

/-- The hypotheses hold for the ratio 1/2, where 128 positions are taken. -/
example : ∃ w, genRegNoiseWeight (1 / 2) 40 = .ok w ∧ 128 ≤ w ∧ (w : ℝ) < 136 := by
  have hq : quotient (1 / 2) 40 = 0 := by simp [quotient]
  obtain ⟨w, h1, h2, -, h3, -⟩ := (C142_weight_partial (1 / 2) 40).2 (by norm_num) le_rfl (by rw [hq]; norm_num)
  rw [hq] at h3
  norm_num at h3
  exact ⟨w, h1, h2, by exact_mod_cast h3⟩

theorem weight_of_floor (ratio : ℝ) (h0 : 0 < ratio) (h1 : ratio < 1 / 2) (sec n : ℕ) (hn : n < 2 ^ 62)
    (hf : ⌊quotient ratio sec⌋₊ = n) : genRegNoiseWeight ratio sec = .ok ((max 128 n + 7) / 8 * 8) := by
  obtain ⟨w, hw, hw'⟩ := round8 (max 128 n) (by omega) (by omega)
  unfold genRegNoiseWeight
  rw [if_neg (by push Not; exact ⟨h1.le, h0⟩), if_neg (quotient_lt ratio sec n hf (by omega))]
  dsimp only
  rw [hf, hw]
  dsimp only
  rw [hw']

theorem pow_frac (a b n sec : ℕ) (hb : 0 < b) : ((2 : ℝ) ^ sec)⁻¹ ≤ ((a : ℝ) / b) ^ n ↔ b ^ n ≤ 2 ^ sec * a ^ n := by
  have hb' : (0 : ℝ) < (b : ℝ) ^ n := by positivity
  rw [div_pow, inv_le_iff_one_le_mul₀ (by positivity), div_mul_eq_mul_div, le_div_iff₀ hb', one_mul, mul_comm]
  exact_mod_cast Iff.rfl

theorem floor_frac (ratio : ℝ) (h0 : 0 < ratio) (h1 : ratio < 1 / 2) (a b sec n : ℕ) (hb : 0 < b)
    (e : 1 - 2 * ratio = (a : ℝ) / b) (l : b ^ n ≤ 2 ^ sec * a ^ n) (u : ¬ b ^ (n + 1) ≤ 2 ^ sec * a ^ (n + 1)) :
    ⌊quotient ratio sec⌋₊ = n := by
  apply floor_eq ratio h0 h1
  · rw [e, pow_frac a b n sec hb]; exact l
  · rw [e, ← not_le, pow_frac a b _ sec hb]; exact u

theorem reaches_frac (ratio : ℝ) (a b sec w : ℕ) (hb : 0 < b) (e : 1 - 2 * ratio = (a : ℝ) / b) :
    Reaches ratio sec w ↔ 2 ^ sec * a ^ w ≤ b ^ w := by
  have hb' : (0 : ℝ) < (b : ℝ) ^ w := by positivity
  unfold Reaches
  rw [e, div_pow, div_le_iff₀ hb', ← div_eq_inv_mul, le_div_iff₀ (by positivity), mul_comm]
  exact_mod_cast Iff.rfl

/-- C142 (b): for the ratios of the codes offered (silent_vole.cc L29-32), the weights at 128 bits reach the level. -/
theorem C142_offered :
    (genRegNoiseWeight (1 / 5) 128 = .ok 176 ∧ Reaches (1 / 5) 128 176) ∧
    (genRegNoiseWeight (1 / 10) 128 = .ok 400 ∧ Reaches (1 / 10) 128 400) ∧
    (genRegNoiseWeight (1 / 20) 128 = .ok 848 ∧ Reaches (1 / 20) 128 848) := by
  refine ⟨⟨?_, ?_⟩, ⟨?_, ?_⟩, ?_, ?_⟩
  · exact weight_of_floor _ (by norm_num) (by norm_num) 128 173 (by norm_num)
      (floor_frac _ (by norm_num) (by norm_num) 3 5 128 173 (by decide) (by norm_num) (by decide +kernel) (by decide +kernel))
  · rw [reaches_frac _ 3 5 128 176 (by decide) (by norm_num)]; decide +kernel
  · exact weight_of_floor _ (by norm_num) (by norm_num) 128 397 (by norm_num)
      (floor_frac _ (by norm_num) (by norm_num) 4 5 128 397 (by decide) (by norm_num) (by decide +kernel) (by decide +kernel))
  · rw [reaches_frac _ 4 5 128 400 (by decide) (by norm_num)]; decide +kernel
  · exact weight_of_floor _ (by norm_num) (by norm_num) 128 842 (by norm_num)
      (floor_frac _ (by norm_num) (by norm_num) 9 10 128 842 (by decide) (by norm_num) (by decide +kernel) (by decide +kernel))
  · rw [reaches_frac _ 9 10 128 848 (by decide) (by norm_num)]; decide +kernel

/-- C142, negated: the quotient is cut off, not rounded up; when what is left is a multiple of 8, the level is missed.
Ratio 0.15 at 128 bits gives 248 positions, where 249 are needed. -/
theorem C142_reaches_violated : ∃ w, genRegNoiseWeight (3 / 20) 128 = .ok w ∧ ¬ Reaches (3 / 20) 128 w := by
  refine ⟨248, ?_, ?_⟩
  · exact weight_of_floor _ (by norm_num) (by norm_num) 128 248 (by norm_num)
      (floor_frac _ (by norm_num) (by norm_num) 7 10 128 248 (by decide) (by norm_num) (by decide +kernel) (by decide +kernel))
  · rw [reaches_frac _ 7 10 128 248 (by decide) (by norm_num)]; decide +kernel

/-- C142, negated: some ratios above 0 pass the check and give a number that does not fit. -/
theorem C142_small_violated : ∃ ratio : ℝ, 0 < ratio ∧ ratio ≤ 1 / 2 ∧ genRegNoiseWeight ratio 128 = .undefined := by
  refine ⟨1 / 2 ^ 70, by positivity, by norm_num, ?_⟩
  have hq : quotient (1 / 2 ^ 70) 128 ≥ 2 ^ 64 := by
    have := (le_quotient (1 / 2 ^ 70) (by positivity) (by norm_num) 128 (2 ^ 64)).2 (by
      have hb := one_add_mul_le_pow (a := -(2 * (1 / 2 ^ 70) : ℝ)) (by norm_num) (2 ^ 64)
      have e : (1 + -(2 * (1 / 2 ^ 70) : ℝ)) = 1 - 2 * (1 / 2 ^ 70) := by ring
      rw [e] at hb
      refine le_trans ?_ hb
      push_cast
      norm_num)
    exact_mod_cast this
  unfold genRegNoiseWeight
  rw [if_neg (by push Not; exact ⟨by norm_num, by positivity⟩), if_pos hq]

end Yacl.NoiseWeight
