import Verif.Gf.Irred

/-! C59: the GF(2^64) and GF(2^128) routines compute in the field. -/
namespace Yacl.Gf
open Polynomial

/-! ### Specification -/

/-- `z` represents the product of `x` and `y` modulo `f`. -/
def IsProductMod {w : Nat} (f : (ZMod 2)[X]) (x y z : BitVec w) : Prop := f ∣ toPoly x * toPoly y - toPoly z

/-- `z` represents the inner product of `x` and `y` modulo `f`. -/
def IsInnerProductMod {w : Nat} (f : (ZMod 2)[X]) (x y : List (BitVec w)) (z : BitVec w) : Prop :=
  f ∣ ((x.zip y).map fun p => toPoly p.1 * toPoly p.2).sum - toPoly z

/-! ### Degrees -/

theorem f64_deg : f64.natDegree = 64 := by
  unfold f64
  compute_degree!

theorem f128_deg : f128.natDegree = 128 := by
  unfold f128
  compute_degree!

attribute [local irreducible] f64 f128

theorem rep_unique {w : Nat} {f : (ZMod 2)[X]} (hf : f.natDegree = w) (hw : 0 < w) {x y : BitVec w} (h : f ∣ toPoly x - toPoly y) : x = y := by
  apply toPoly_inj
  have hd : (toPoly x - toPoly y).degree < f.degree := by
    have h0 : f ≠ 0 := by
      rintro rfl
      simp at hf
      omega
    rw [degree_eq_natDegree h0, hf]
    exact lt_of_le_of_lt (degree_sub_le _ _) (max_lt (toPoly_deg x) (toPoly_deg y))
  exact sub_eq_zero.mp (eq_zero_of_dvd_of_degree_lt h hd)

/-! ### C59: products -/

/-- C59. `Gf64Mul` computes the product modulo `X^64 + X^4 + X^3 + X + 1`, and nothing else does. -/
theorem C59_mul64 (x y z : BitVec 64) : IsProductMod f64 x y z ↔ z = gf64Mul x y := by
  obtain ⟨q, h⟩ := gf64Mul_poly x y
  have h0 : IsProductMod f64 x y (gf64Mul x y) := ⟨q, by rw [h]; ring⟩
  refine ⟨fun hz => ?_, fun hz => hz ▸ h0⟩
  apply rep_unique f64_deg (by decide)
  have := dvd_sub h0 hz
  rwa [sub_sub_sub_cancel_left] at this

/-- C59. `Gf128Mul` computes the product modulo `X^128 + X^7 + X^2 + X + 1`, and nothing else does. -/
theorem C59_mul128 (x y z : BitVec 128) : IsProductMod f128 x y z ↔ z = gf128Mul x y := by
  obtain ⟨q, h⟩ := gf128Mul_poly x y
  have h0 : IsProductMod f128 x y (gf128Mul x y) := ⟨q, by rw [h]; ring⟩
  refine ⟨fun hz => ?_, fun hz => hz ▸ h0⟩
  apply rep_unique (w := 128) (f := f128) f128_deg (Nat.succ_pos _)
  have := dvd_sub h0 hz
  rwa [sub_sub_sub_cancel_left] at this

theorem gf64ClMulSpan_poly (x y : List (BitVec 64)) (r : BitVec 128) (h : x.length = y.length) :
    toPoly (gf64ClMulSpan x y r) = toPoly r + ((x.zip y).map fun p => toPoly p.1 * toPoly p.2).sum := by
  fun_induction gf64ClMulSpan x y r with
  | case1 ret x0 x1 xs y0 y1 ys ih =>
    rw [ih (by simpa using h), toPoly_xor, toPoly_xor, clmul_poly, clmul_poly]
    simp only [List.zip_cons_cons, List.map_cons, List.sum_cons]
    ring
  | case2 ret x0 y0 =>
    rw [toPoly_xor, clmul_poly]
    simp
  | case3 x y ret h1 h2 =>
    match x, y, h with
    | [], [], _ => simp
    | [a], [b], _ => exact absurd rfl (h2 a b rfl)
    | a :: b :: xs, c :: d :: ys, _ => exact absurd rfl (h1 a b xs c d ys rfl)

/-- C59. The span version of `Gf64Mul` computes the inner product, for every length, odd or even. -/
theorem C59_inner64 (x y : List (BitVec 64)) (h : x.length = y.length) :
    ∃ z, gf64MulSpan x y = some z ∧ IsInnerProductMod f64 x y z := by
  unfold gf64MulSpan
  rw [if_pos h]
  refine ⟨_, rfl, ?_⟩
  obtain ⟨q, hq⟩ := gf64Reduce_poly (gf64ClMulSpan x y 0)
  refine ⟨q, ?_⟩
  rw [gf64ClMulSpan_poly x y 0 h, toPoly_zero, zero_add] at hq
  rw [hq]
  ring

theorem gf128ClMulSpan_poly (x y : List (BitVec 128)) (r : BitVec 128 × BitVec 128) :
    toPoly (gf128ClMulSpan x y r).1 * X ^ 128 + toPoly (gf128ClMulSpan x y r).2 =
      toPoly r.1 * X ^ 128 + toPoly r.2 + ((x.zip y).map fun p => toPoly p.1 * toPoly p.2).sum := by
  induction x generalizing y r with
  | nil => simp [gf128ClMulSpan]
  | cons a xs ih =>
    cases y with
    | nil => simp [gf128ClMulSpan]
    | cons b ys =>
      simp only [gf128ClMulSpan, List.zip_cons_cons, List.map_cons, List.sum_cons]
      rw [ih, toPoly_xor, toPoly_xor, ← gf128ClMul_poly a b]
      ring

/-- C59. The span version of `Gf128Mul` computes the inner product. -/
theorem C59_inner128 (x y : List (BitVec 128)) (h : x.length = y.length) :
    ∃ z, gf128MulSpan x y = some z ∧ IsInnerProductMod f128 x y z := by
  unfold gf128MulSpan
  rw [if_pos h]
  refine ⟨_, rfl, ?_⟩
  obtain ⟨q, hq⟩ := gf128Reduce_poly (gf128ClMulSpan x y (0, 0)).1 (gf128ClMulSpan x y (0, 0)).2
  refine ⟨q, ?_⟩
  rw [gf128ClMulSpan_poly x y (0, 0)] at hq
  simp only [toPoly_zero, zero_mul, zero_add] at hq
  rw [hq]
  ring

/-- C59. Spans of different lengths are refused. -/
theorem C59_sizes (x y : List (BitVec 64)) (u v : List (BitVec 128)) :
    (x.length ≠ y.length → gf64MulSpan x y = none) ∧ (u.length ≠ v.length → gf128MulSpan u v = none) :=
  ⟨fun h => if_neg h, fun h => if_neg h⟩

/-! ### Algebra -/

/-- The value of a 64-bit word in GF(2)[X]/(f64). -/
noncomputable def val64 (x : BitVec 64) : AdjoinRoot f64 := AdjoinRoot.mk f64 (toPoly x)
noncomputable def val128 (x : BitVec 128) : AdjoinRoot f128 := AdjoinRoot.mk f128 (toPoly x)

theorem val64_inj {x y : BitVec 64} (h : val64 x = val64 y) : x = y :=
  rep_unique f64_deg (by decide) (AdjoinRoot.mk_eq_mk.mp h)

theorem val128_inj {x y : BitVec 128} (h : val128 x = val128 y) : x = y :=
  rep_unique (w := 128) (f := f128) f128_deg (Nat.succ_pos _) (AdjoinRoot.mk_eq_mk.mp h)

theorem val64_mul (x y : BitVec 64) : val64 (gf64Mul x y) = val64 x * val64 y := by
  obtain ⟨q, h⟩ := gf64Mul_poly x y
  unfold val64
  rw [← map_mul, h, map_add, map_mul, AdjoinRoot.mk_self, zero_mul, zero_add]

theorem val128_mul (x y : BitVec 128) : val128 (gf128Mul x y) = val128 x * val128 y := by
  obtain ⟨q, h⟩ := gf128Mul_poly x y
  unfold val128
  rw [← map_mul, h, map_add, map_mul, AdjoinRoot.mk_self, zero_mul, zero_add]

theorem val64_add (x y : BitVec 64) : val64 (x ^^^ y) = val64 x + val64 y := by
  unfold val64
  rw [toPoly_xor, map_add]

theorem val128_add (x y : BitVec 128) : val128 (x ^^^ y) = val128 x + val128 y := by
  unfold val128
  rw [toPoly_xor, map_add]

theorem val64_zero : val64 0 = 0 := by
  unfold val64
  rw [toPoly_zero, map_zero]

theorem val128_zero : val128 0 = 0 := by
  unfold val128
  rw [toPoly_zero, map_zero]

theorem toPoly_one {w : Nat} (hw : 0 < w) : toPoly (BitVec.ofNat w 1) = 1 := by
  ext i
  rw [toPoly_coeff, coeff_one, BitVec.getLsbD_ofNat]
  by_cases h : i = 0
  · subst h
    simp [hw]
  · have : Nat.testBit 1 i = false := by
      rw [Nat.testBit_one_eq_true_iff_self_eq_zero.not.mpr h |> Bool.eq_false_iff.mpr]
    simp [this, h]

theorem toPoly_two {w : Nat} (hw : 1 < w) : toPoly (BitVec.ofNat w 2) = X := by
  ext i
  rw [toPoly_coeff, coeff_X, BitVec.getLsbD_ofNat]
  have h2 : Nat.testBit 2 i = decide (1 = i) := by
    have := Nat.testBit_two_pow (n := 1) (m := i)
    simpa using this
  rw [h2]
  by_cases h : 1 = i
  · subst h
    simp [hw]
  · simp [h]

theorem val64_one : val64 1 = 1 := by
  unfold val64
  rw [show (1 : BitVec 64) = BitVec.ofNat 64 1 from rfl, toPoly_one (by decide), map_one]

theorem val128_one : val128 1 = 1 := by
  unfold val128
  rw [show (1 : BitVec 128) = BitVec.ofNat 128 1 from rfl, toPoly_one (by decide), map_one]

theorem val64_two : val64 2 = AdjoinRoot.root f64 := by
  unfold val64
  rw [show (2 : BitVec 64) = BitVec.ofNat 64 2 from rfl, toPoly_two (by decide)]
  rfl

theorem val128_two : val128 2 = AdjoinRoot.root f128 := by
  unfold val128
  rw [show (2 : BitVec 128) = BitVec.ofNat 128 2 from rfl, toPoly_two (by decide)]
  rfl

/-- C59. With xor as addition, 64-bit words and `Gf64Mul` obey the laws of a commutative ring with one. -/
theorem C59_ring64 (x y z : BitVec 64) :
    gf64Mul x y = gf64Mul y x ∧ gf64Mul (gf64Mul x y) z = gf64Mul x (gf64Mul y z) ∧
    gf64Mul x (y ^^^ z) = gf64Mul x y ^^^ gf64Mul x z ∧ gf64Mul 1 x = x ∧ gf64Mul 0 x = 0 := by
  refine ⟨?_, ?_, ?_, ?_, ?_⟩ <;> apply val64_inj <;> simp only [val64_mul, val64_add, val64_one, val64_zero] <;> ring

/-- C59. The same for `Gf128Mul`. -/
theorem C59_ring128 (x y z : BitVec 128) :
    gf128Mul x y = gf128Mul y x ∧ gf128Mul (gf128Mul x y) z = gf128Mul x (gf128Mul y z) ∧
    gf128Mul x (y ^^^ z) = gf128Mul x y ^^^ gf128Mul x z ∧ gf128Mul 1 x = x ∧ gf128Mul 0 x = 0 := by
  refine ⟨?_, ?_, ?_, ?_, ?_⟩ <;> apply val128_inj <;> simp only [val128_mul, val128_add, val128_one, val128_zero] <;> ring

/-! ### Irreducibility and inverses -/

theorem val64_sq (n : Nat) (x : BitVec 64) : val64 (sqN n x) = (fun y => y ^ 2)^[n] (val64 x) := by
  induction n generalizing x with
  | zero => rfl
  | succ n ih => rw [sqN, ih, Function.iterate_succ_apply, val64_mul, sq]

def sqN128 : Nat → BitVec 128 → BitVec 128
  | 0, t => t
  | n + 1, t => sqN128 n (gf128Mul t t)

theorem val128_sq (n : Nat) (x : BitVec 128) : val128 (sqN128 n x) = (fun y => y ^ 2)^[n] (val128 x) := by
  induction n generalizing x with
  | zero => rfl
  | succ n ih => rw [sqN128, ih, Function.iterate_succ_apply, val128_mul, sq]

/-- C59. The documented polynomial of degree 64 is irreducible over GF(2). -/
theorem C59_irreducible64 : Irreducible f64 := by
  have c1 : sqN 64 2 = 2 := by decide +kernel
  have c2 : gf64Mul 0x53cad161bf5a89c7 (sqN 32 2 ^^^ 2) = 1 := by decide +kernel
  refine irreducible_of_rabin f64 64 32 ⟨5, rfl⟩ rfl f64_deg ?_ (val64 0x53cad161bf5a89c7) ?_
  · rw [← val64_two, ← val64_sq, c1]
  · rw [← val64_two, ← val64_sq]
    have e : val64 (sqN 32 2) - val64 2 = val64 (sqN 32 2 ^^^ 2) := by
      have hn : -val64 2 = val64 2 := by
        unfold val64
        rw [← map_neg, neg_eq]
      rw [val64_add, sub_eq_add_neg, hn]
    rw [e, ← val64_mul, c2, val64_one]

/-- C59. The documented polynomial of degree 128 is irreducible over GF(2). -/
theorem C59_irreducible128 : Irreducible f128 := by
  have c1 : sqN128 128 2 = 2 := by decide +kernel
  have c2 : gf128Mul 0x9e4af928ddbc838a41a8cafd2c95b018 (sqN128 64 2 ^^^ 2) = 1 := by decide +kernel
  refine irreducible_of_rabin f128 128 64 ⟨6, rfl⟩ rfl f128_deg ?_ (val128 0x9e4af928ddbc838a41a8cafd2c95b018) ?_
  · rw [← val128_two, ← val128_sq, c1]
  · rw [← val128_two, ← val128_sq]
    have e : val128 (sqN128 64 2) - val128 2 = val128 (sqN128 64 2 ^^^ 2) := by
      have hn : -val128 2 = val128 2 := by
        unfold val128
        rw [← map_neg, neg_eq]
      rw [val128_add, sub_eq_add_neg, hn]
    rw [e, ← val128_mul, c2, val128_one]

/-! Inverse -/

noncomputable instance : Fact (Irreducible f64) := ⟨C59_irreducible64⟩
noncomputable instance : Fact (Irreducible f128) := ⟨C59_irreducible128⟩

instance charP64 : CharP (AdjoinRoot f64) 2 := charP_of_injective_algebraMap (algebraMap (ZMod 2) (AdjoinRoot f64)).injective 2

theorem val64_sq_pow (n : Nat) (x : BitVec 64) : val64 (sqN n x) = val64 x ^ (2 ^ n) := by
  rw [val64_sq, sq_iter]

/-- Fermat in this field: raising to `2^64` is the identity. -/
theorem field_card (a : AdjoinRoot f64) : a ^ (2 ^ 64) = a := by
  have h0 := C59_irreducible64.ne_zero
  haveI : Module.Finite (ZMod 2) (AdjoinRoot f64) := (AdjoinRoot.powerBasis h0).finite
  haveI : Finite (AdjoinRoot f64) := Module.finite_of_finite (ZMod 2)
  haveI : Fintype (AdjoinRoot f64) := Fintype.ofFinite _
  have hc : Fintype.card (AdjoinRoot f64) = 2 ^ 64 := by
    rw [Module.card_eq_pow_finrank (K := ZMod 2), ZMod.card, (AdjoinRoot.powerBasis h0).finrank, AdjoinRoot.powerBasis_dim, f64_deg]
  have hpc := FiniteField.pow_card a
  rwa [hc] at hpc

theorem pow_track_mul {x s t : BitVec 64} {a b : Nat} (hs : val64 s = val64 x ^ a) (ht : val64 t = val64 x ^ b) :
    val64 (gf64Mul s t) = val64 x ^ (a + b) := by
  rw [val64_mul, hs, ht, pow_add]

theorem pow_track_sq {x s : BitVec 64} {a : Nat} (n : Nat) (hs : val64 s = val64 x ^ a) : val64 (sqN n s) = val64 x ^ (a * 2 ^ n) := by
  rw [val64_sq_pow, hs, pow_mul]

theorem gf64Inv_pow (x : BitVec 64) : val64 (gf64Inv x) = val64 x ^ (2 ^ 64 - 2) := by
  have t0 : val64 x = val64 x ^ 1 := (pow_one _).symm
  have a1 := pow_track_mul t0 t0
  have a2 := pow_track_mul a1 t0
  have b0 := pow_track_sq 1 (pow_track_mul a2 a2)
  have b1 := pow_track_mul a1 b0
  have b2 := pow_track_mul a2 b0
  have c0 := pow_track_sq 3 (pow_track_mul b2 b2)
  have c1 := pow_track_mul b1 c0
  have c2 := pow_track_mul b2 c0
  have d0 := pow_track_sq 7 (pow_track_mul c2 c2)
  have d1 := pow_track_mul c1 d0
  have d2 := pow_track_mul c2 d0
  have e0 := pow_track_sq 15 (pow_track_mul d2 d2)
  have e1 := pow_track_mul d1 e0
  have e2 := pow_track_mul e0 d2
  have r := pow_track_mul (pow_track_sq 32 e2) e1
  exact r

/-- C59. `Gf64Inv` returns the multiplicative inverse of every non-zero element (and maps zero to zero): GF(2^64) with xor and
`Gf64Mul` is a field. -/
theorem C59_inverse64 (x : BitVec 64) : (x ≠ 0 → gf64Mul x (gf64Inv x) = 1) ∧ gf64Inv 0 = 0 := by
  constructor
  · intro hx
    apply val64_inj
    rw [val64_mul, gf64Inv_pow, val64_one]
    have hx0 : val64 x ≠ 0 := by
      intro h
      exact hx (val64_inj (h.trans val64_zero.symm))
    apply mul_left_cancel₀ hx0
    rw [mul_one, ← pow_succ', ← pow_succ']
    exact field_card _
  · apply val64_inj
    rw [gf64Inv_pow, val64_zero]
    exact zero_pow (by decide)

/-- C59. No two non-zero elements multiply to zero, in either field. -/
theorem C59_no_zero_divisors (x y : BitVec 64) (u v : BitVec 128) :
    (gf64Mul x y = 0 → x = 0 ∨ y = 0) ∧ (gf128Mul u v = 0 → u = 0 ∨ v = 0) := by
  constructor
  · intro h
    have := congrArg val64 h
    rw [val64_mul, val64_zero] at this
    rcases mul_eq_zero.mp this with h | h
    · exact Or.inl (val64_inj (h.trans val64_zero.symm))
    · exact Or.inr (val64_inj (h.trans val64_zero.symm))
  · intro h
    have := congrArg val128 h
    rw [val128_mul, val128_zero] at this
    rcases mul_eq_zero.mp this with h | h
    · exact Or.inl (val128_inj (h.trans val128_zero.symm))
    · exact Or.inr (val128_inj (h.trans val128_zero.symm))

/-- C59. Packing: the `i`-th element is weighted with `X^i`. -/
theorem C59_pack64 (data : List (BitVec 64)) (h : data.length ≤ 64) :
    ∃ z, gf64Pack data = some z ∧ f64 ∣ ((data.zipIdx).map fun p => toPoly p.1 * X ^ p.2).sum - toPoly z := by
  obtain ⟨z, h1, h2⟩ := C59_inner64 data ((List.range data.length).map fun i => (1 : BitVec 64) <<< i) (by simp)
  refine ⟨z, by rw [gf64Pack, if_pos h, h1], ?_⟩
  have e : (data.zip ((List.range data.length).map fun i => (1 : BitVec 64) <<< i)).map (fun p => toPoly p.1 * toPoly p.2) =
      (data.zipIdx).map fun p => toPoly p.1 * X ^ p.2 := by
    apply List.ext_getElem (by simp)
    intro i h1 h2
    simp only [List.getElem_map, List.getElem_zip, List.getElem_range, List.getElem_zipIdx, Nat.zero_add]
    congr 1
    have hi : i < 64 := by
      simp at h1
      omega
    have := toPoly_shift (1 : BitVec 1) 64 i (by omega)
    have e1 : toPoly (1 : BitVec 1) = 1 := toPoly_one (w := 1) (by decide)
    rw [e1, mul_one] at this
    exact this
  rw [IsInnerProductMod, e] at h2
  exact h2

/-! Non-vacuity and test vectors -/

example : gf64Mul 0x8000000000000000 2 = 0x1b := by decide +kernel
example : gf128Mul 0x80000000000000000000000000000000 4 = 0x10e := by decide +kernel
example : gf64Mul 0x0123456789abcdef (gf64Inv 0x0123456789abcdef) = 1 := by decide +kernel
example : gf64MulSpan [1, 2, 3] [3, 2, 1] = some 4 := by decide +kernel

end Yacl.Gf
