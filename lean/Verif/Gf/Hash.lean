import Verif.Gf.Props

/-! C73: the universal hash is the polynomial hash, and the extracted coefficients are its weights. -/
namespace Yacl.Gf
open Polynomial

/-- How words stand for elements of a commutative ring in which `mul` is the product. -/
structure Rep {w : Nat} {R : Type} [CommRing R] (mul : BitVec w → BitVec w → BitVec w) (val : BitVec w → R) : Prop where
  mul : ∀ x y, val (mul x y) = val x * val y
  add : ∀ x y, val (x ^^^ y) = val x + val y
  zero : val 0 = 0
  one : val 1 = 1

theorem rep64 : Rep gf64Mul val64 := ⟨val64_mul, val64_add, val64_zero, val64_one⟩
theorem rep128 : Rep gf128Mul val128 := ⟨val128_mul, val128_add, val128_zero, val128_one⟩

variable {w : Nat} {R : Type} [CommRing R] {mul : BitVec w → BitVec w → BitVec w} {val : BitVec w → R}

/-- Specification: `Σ data[i] * seed^(i+1)`. -/
def weighted (s : R) (ds : List R) : R := (ds.zipIdx.map fun p => p.1 * s ^ (p.2 + 1)).sum

theorem weighted_append (s : R) (ds : List R) (d : R) : weighted s (d :: ds) = s * (d + weighted s ds) := by
  unfold weighted
  rw [List.zipIdx_cons, List.map_cons, List.sum_cons, mul_add]
  congr 1
  · ring
  · rw [List.zipIdx_succ, List.map_map, ← List.sum_map_mul_left]
    congr 1
    apply List.map_congr_left
    intro p _
    simp only [Function.comp]
    ring

theorem universalHash_cons (mul : BitVec w → BitVec w → BitVec w) (seed v : BitVec w) (data : List (BitVec w)) :
    universalHash mul seed (v :: data) = mul seed (universalHash mul seed data ^^^ v) := by
  unfold universalHash
  rw [List.reverse_cons, List.foldl_append]
  rfl

theorem universalHash_val (h : Rep mul val) (seed : BitVec w) (data : List (BitVec w)) :
    val (universalHash mul seed data) = weighted (val seed) (data.map val) := by
  induction data with
  | nil =>
    show val 0 = _
    rw [h.zero]
    rfl
  | cons v ds ih =>
    rw [universalHash_cons, h.mul, h.add, ih, List.map_cons, weighted_append, add_comm (val v)]

theorem hashBuff_spec (h : Rep mul val) (seed : BitVec w) (n : Nat) :
    (hashBuff mul seed n).length = n + 1 ∧ ∀ i ≤ n, val ((hashBuff mul seed n).getD i 0) = val seed ^ (2 ^ i) := by
  induction n with
  | zero =>
    refine ⟨rfl, ?_⟩
    intro i hi
    obtain rfl : i = 0 := by omega
    simp [hashBuff]
  | succ n ih =>
    obtain ⟨hl, hv⟩ := ih
    simp only [hashBuff]
    refine ⟨by simp [hl], ?_⟩
    intro i hi
    by_cases hin : i ≤ n
    · rw [List.getD_eq_getElem?_getD, List.getElem?_append_left (by omega), ← List.getD_eq_getElem?_getD]
      exact hv i hin
    · obtain rfl : i = n + 1 := by omega
      have hlast : (hashBuff mul seed n).getLastD 0 = (hashBuff mul seed n).getD n 0 := by
        rw [List.getLastD_eq_getLast?, List.getLast?_eq_getElem?, hl, List.getD_eq_getElem?_getD]
        rfl
      rw [List.getD_eq_getElem?_getD, List.getElem?_append_right (by omega), hl]
      simp only [Nat.sub_self, List.getElem?_cons_zero, Option.getD_some]
      rw [h.mul, hlast, hv n (Nat.le_refl _), ← pow_add]
      congr 1
      rw [pow_succ]
      ring

theorem coefLoop_val (h : Rep mul val) (seed : BitVec w) (n idx1 : Nat) (hb : idx1 < 2 ^ (n + 1)) (fuel : Nat) :
    ∀ (i : Nat) (coef : BitVec w), idx1 < 2 ^ (i + fuel) →
      val (coefLoop mul (hashBuff mul seed n) idx1 fuel i coef) = val coef * val seed ^ (idx1 / 2 ^ i * 2 ^ i) := by
  induction fuel with
  | zero =>
    intro i coef hi
    simp only [coefLoop]
    rw [Nat.div_eq_of_lt (by simpa using hi)]
    simp
  | succ fuel ih =>
    intro i coef hi
    simp only [coefLoop]
    by_cases hc : 2 ^ i ≤ idx1
    · rw [if_pos hc, ih (i + 1) _ (by rw [show i + 1 + fuel = i + (fuel + 1) by omega]; exact hi)]
      have hdiv : idx1 / 2 ^ i * 2 ^ i = (idx1 / 2 ^ i % 2) * 2 ^ i + idx1 / 2 ^ (i + 1) * 2 ^ (i + 1) := by
        rw [pow_succ, ← Nat.div_div_eq_div_mul, ← Nat.mul_assoc, Nat.mul_right_comm, ← Nat.add_mul]
        have := Nat.div_add_mod (idx1 / 2 ^ i) 2
        congr 1
        omega
      by_cases ht : idx1.testBit i = true
      · rw [if_pos ht, h.mul]
        have hin : i ≤ n := by
          have : 2 ^ i < 2 ^ (n + 1) := Nat.lt_of_le_of_lt hc hb
          have := (Nat.pow_lt_pow_iff_right (a := 2) (by omega)).mp this
          omega
        have h1 : idx1 / 2 ^ i % 2 = 1 := by
          rw [Nat.testBit_eq_decide_div_mod_eq] at ht
          simpa using ht
        rw [(hashBuff_spec h seed n).2 i hin, hdiv, h1, one_mul, pow_add (val seed), mul_assoc]
      · rw [if_neg ht]
        have h1 : idx1 / 2 ^ i % 2 = 0 := by
          rw [Nat.testBit_eq_decide_div_mod_eq] at ht
          simp at ht
          omega
        rw [hdiv, h1, Nat.zero_mul, Nat.zero_add]
    · rw [if_neg hc, Nat.div_eq_of_lt (by omega), Nat.zero_mul, pow_zero, mul_one]

/-- For ascending indexes whose last is at least 2 and not above `2^63`, the coefficients are the powers `seed^(index+1)`. -/
theorem coef_val (h : Rep mul val) (seed : BitVec w) (indexes : List (BitVec 64)) (b : BitVec 64) (hb : indexes.getLast? = some b)
    (hs : ∀ i ∈ indexes, i.toNat ≤ b.toNat) (h0 : 2 ≤ b.toNat) (h63 : b.toNat ≤ 2 ^ 63) :
    ∃ cs, extractHashCoef mul seed indexes = some cs ∧ cs.map val = indexes.map fun i => val seed ^ (i.toNat + 1) := by
  obtain ⟨k, k1, k2, k3⟩ := (Gadget.C60_log2Ceil b).2 (by rintro rfl; exact absurd h0 (by decide))
  have hk := k3 63 h63
  simp only [extractHashCoef, hb, k1]
  rw [if_pos (by omega)]
  refine ⟨_, rfl, ?_⟩
  rw [List.map_map]
  apply List.map_congr_left
  intro i hi
  simp only [Function.comp]
  have hib := hs i hi
  have hp : (i + 1).toNat = i.toNat + 1 := by
    rw [BitVec.toNat_add, Gadget.one_toNat]
    omega
  have h2 : 2 ^ k.toNat ≥ 2 := by omega
  rw [hp, coefLoop_val h seed k.toNat (i.toNat + 1) (by rw [pow_succ]; omega) 64 0 1 (by norm_num; omega), h.one, one_mul, pow_zero,
    Nat.div_one, Nat.mul_one]

/-- C73. `UniversalHash(seed, data)` is the field element `Σ data[i] * seed^(i+1)`, in both fields. -/
theorem C73_universalHash (s : BitVec 64) (d : List (BitVec 64)) (s' : BitVec 128) (d' : List (BitVec 128)) :
    val64 (universalHash gf64Mul s d) = weighted (val64 s) (d.map val64) ∧
    val128 (universalHash gf128Mul s' d') = weighted (val128 s') (d'.map val128) :=
  ⟨universalHash_val rep64 s d, universalHash_val rep128 s' d'⟩

/-- C73, in part. For a non-empty ascending list of indexes, the last at least 2 and not above `2^63`, `ExtractHashCoef` returns the weight
`seed^(index+1)` that `UniversalHash` gives to the element at that index. Missing: lists whose last index is 0 or 1, see `C73_coef_violated`. -/
theorem C73_coef_partial (s : BitVec 64) (s' : BitVec 128) (indexes : List (BitVec 64)) (b : BitVec 64)
    (hb : indexes.getLast? = some b) (hs : ∀ i ∈ indexes, i.toNat ≤ b.toNat) (h0 : 2 ≤ b.toNat) (h63 : b.toNat ≤ 2 ^ 63) :
    (∃ cs, extractHashCoef gf64Mul s indexes = some cs ∧ cs.map val64 = indexes.map fun i => val64 s ^ (i.toNat + 1)) ∧
    (∃ cs, extractHashCoef gf128Mul s' indexes = some cs ∧ cs.map val128 = indexes.map fun i => val128 s' ^ (i.toNat + 1)) :=
  ⟨coef_val rep64 s indexes b hb hs h0 h63, coef_val rep128 s' indexes b hb hs h0 h63⟩

/-- The code does not keep C73 when the last index is 0 or 1. For the single index 0, `Log2Ceil(0)` throws. When the last index is 1,
`Log2Ceil(1) = 0` squares are prepared, the weight of index 1 (`seed^2`) is read from an entry that was never filled, and the returned
weight is 0 for every seed. -/
theorem C73_coef_violated (s : BitVec 64) :
    extractHashCoef gf64Mul s [0] = none ∧ extractHashCoef gf64Mul s [0, 1] = some [s, 0] ∧
    universalHash gf64Mul 3 [0, 7] ≠ gf64Mul 7 0 := by
  refine ⟨by simp [extractHashCoef, Gadget.log2Ceil], ?_, by decide +kernel⟩
  have e1 : gf64Mul 1 s = s := (C59_ring64 s 0 0).2.2.2.1
  have e0 : gf64Mul 1 0 = 0 := by decide +kernel
  have hg : Gadget.log2Ceil 1 = some 0 := by decide
  simp only [extractHashCoef, List.getLast?_cons_cons, List.getLast?_singleton, hg]
  simp [coefLoop, hashBuff, Nat.testBit]
  exact ⟨e1, e0⟩

/-- Non-vacuity: hashing a vector that is zero outside two positions equals the combination of the two extracted weights. -/
example : extractHashCoef gf64Mul 3 [1, 4] = some [5, 0x33] ∧
    universalHash gf64Mul 3 [0, 7, 0, 0, 9] = gf64Mul 7 5 ^^^ gf64Mul 9 0x33 := by decide +kernel

end Yacl.Gf
