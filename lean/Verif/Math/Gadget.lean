import Mathlib.Data.Nat.Log
/-! Integer helpers: yacl/math/gadget.h. Property C60. -/
namespace Yacl.Gadget

/-! ### Model -/

/-- `absl::countl_zero` on 64 bits: zero bits before the first one bit, from the most significant end. -/
def countlZero (x : BitVec 64) : Nat := ((List.range 64).reverse.takeWhile fun i => !x.getLsbD i).length

/-- gadget.h L23-26 `Log2Floor`; `none` when it throws. -/
def log2Floor (x : BitVec 64) : Option (BitVec 64) :=
  if x = 0 then none else some (BitVec.ofNat 64 (8 * 8) - BitVec.ofNat 64 (countlZero x) - 1)

/-- gadget.h L28-31 `Log2Ceil`; `none` when it throws. -/
def log2Ceil (x : BitVec 64) : Option (BitVec 64) :=
  if x = 0 then none else if x = 1 then some 0 else (log2Floor (x - 1)).map (· + 1)

/-- gadget.h L33-35 `DivCeil`; `none`: division by zero. -/
def divCeil (x y : BitVec 64) : Option (BitVec 64) := if x = 0 then some 0 else if y = 0 then none else some (1 + (x - 1) / y)

/-- gadget.h L37-39 `RoundUpTo`. -/
def roundUpTo (x y : BitVec 64) : Option (BitVec 64) := (divCeil x y).map (· * y)

/-! ### C60 -/

theorem one_toNat : (1 : BitVec 64).toNat = 1 := rfl

/-- Leading zeros of the low `n` bits. -/
theorem clz_aux (x : Nat) (n : Nat) (hx : x < 2 ^ n) (h0 : x ≠ 0) :
    ((List.range n).reverse.takeWhile fun i => !x.testBit i).length + (Nat.log2 x + 1) = n := by
  induction n with
  | zero => simp at hx; omega
  | succ n ih =>
    rw [List.range_succ, List.reverse_append]
    simp only [List.reverse_cons, List.reverse_nil, List.nil_append, List.cons_append, List.takeWhile_cons]
    by_cases hb : x.testBit n = true
    · simp only [hb, Bool.not_true, Bool.false_eq_true, if_false, List.length_nil]
      have h1 : 2 ^ n ≤ x := Nat.ge_two_pow_of_testBit hb
      have := (Nat.log2_eq_iff h0).mpr ⟨h1, hx⟩
      omega
    · simp only [hb, Bool.not_false, if_true, List.length_cons]
      have hlt : x < 2 ^ n := by
        apply Nat.lt_pow_two_of_testBit
        intro i hi
        rcases Nat.eq_or_lt_of_le hi with rfl | hi
        · simpa using hb
        · exact Nat.testBit_lt_two_pow (Nat.lt_of_lt_of_le hx (Nat.pow_le_pow_right (by omega) hi))
      have := ih hlt
      omega

theorem clz_eq (x : BitVec 64) (h : x ≠ 0) : countlZero x + (Nat.log2 x.toNat + 1) = 64 :=
  clz_aux x.toNat 64 x.isLt (fun e => h (BitVec.eq_of_toNat_eq e))

theorem log2Floor_eq (x : BitVec 64) (h : x ≠ 0) : ∃ r, log2Floor x = some r ∧ r.toNat = Nat.log2 x.toNat := by
  refine ⟨_, if_neg h, ?_⟩
  have := clz_eq x h
  have e : (BitVec.ofNat 64 (8 * 8) - BitVec.ofNat 64 (countlZero x) - 1) = BitVec.ofNat 64 (Nat.log2 x.toNat) := by
    apply BitVec.eq_of_toNat_eq
    simp only [BitVec.toNat_sub, BitVec.toNat_ofNat, one_toNat]
    omega
  rw [e, BitVec.toNat_ofNat]
  omega

/-- C60. `Log2Floor(x)` is the `r` with `2^r ≤ x < 2^(r+1)` for every non-zero `x`; zero is refused. -/
theorem C60_log2Floor (x : BitVec 64) :
    (x = 0 → log2Floor x = none) ∧
    (x ≠ 0 → ∃ r, log2Floor x = some r ∧ 2 ^ r.toNat ≤ x.toNat ∧ x.toNat < 2 ^ (r.toNat + 1)) := by
  refine ⟨fun h => if_pos h, fun h => ?_⟩
  obtain ⟨r, h1, h2⟩ := log2Floor_eq x h
  have h0 : x.toNat ≠ 0 := fun e => h (BitVec.eq_of_toNat_eq e)
  exact ⟨r, h1, (Nat.log2_eq_iff h0).mp h2.symm⟩

/-- C60. `Log2Ceil(x)` is the least `r` with `x ≤ 2^r` for every non-zero `x`; zero is refused. -/
theorem C60_log2Ceil (x : BitVec 64) :
    (x = 0 → log2Ceil x = none) ∧
    (x ≠ 0 → ∃ r, log2Ceil x = some r ∧ x.toNat ≤ 2 ^ r.toNat ∧ ∀ k, x.toNat ≤ 2 ^ k → r.toNat ≤ k) := by
  refine ⟨fun h => if_pos h, fun h => ?_⟩
  have h0 : x.toNat ≠ 0 := fun e => h (BitVec.eq_of_toNat_eq e)
  unfold log2Ceil
  rw [if_neg h]
  by_cases h1 : x = 1
  · rw [if_pos h1]
    refine ⟨0, rfl, ?_, fun k _ => Nat.zero_le _⟩
    subst h1
    decide
  · rw [if_neg h1]
    have h1' : x.toNat ≠ 1 := fun e => h1 (BitVec.eq_of_toNat_eq e)
    have hs : (x - 1).toNat = x.toNat - 1 := by
      rw [BitVec.toNat_sub]
      have := x.isLt
      simp only [one_toNat]
      omega
    have hne : x - 1 ≠ 0 := by
      intro e
      rw [e] at hs
      simp at hs
      omega
    obtain ⟨r, r1, r2, r3⟩ := (C60_log2Floor (x - 1)).2 hne
    rw [hs] at r2 r3
    have hr : r.toNat < 64 := by
      have : 2 ^ r.toNat < 2 ^ 64 := Nat.lt_of_le_of_lt r2 (by have := x.isLt; omega)
      exact (Nat.pow_lt_pow_iff_right (by omega)).mp this
    have hp : (r + 1).toNat = r.toNat + 1 := by
      rw [BitVec.toNat_add]
      simp only [one_toNat]
      omega
    refine ⟨r + 1, by rw [r1]; rfl, by rw [hp]; omega, ?_⟩
    intro k hk
    rw [hp]
    have : 2 ^ r.toNat < 2 ^ k := by omega
    exact (Nat.pow_lt_pow_iff_right (by omega)).mp this

/-- C60. `DivCeil(x, y)` is the least `q` with `x ≤ q * y`, for every `x` and every non-zero `y`: nothing overflows on the way. -/
theorem C60_divCeil (x y : BitVec 64) (hy : y ≠ 0) :
    ∃ q, divCeil x y = some q ∧ x.toNat ≤ q.toNat * y.toNat ∧ ∀ k, x.toNat ≤ k * y.toNat → q.toNat ≤ k := by
  have hy0 : 0 < y.toNat := Nat.pos_of_ne_zero fun e => hy (BitVec.eq_of_toNat_eq e)
  unfold divCeil
  by_cases hx : x = 0
  · subst hx
    exact ⟨0, rfl, by simp, fun k _ => Nat.zero_le _⟩
  · rw [if_neg hx, if_neg hy]
    have hx0 : x.toNat ≠ 0 := fun e => hx (BitVec.eq_of_toNat_eq e)
    have hs : (x - 1).toNat = x.toNat - 1 := by
      rw [BitVec.toNat_sub]
      have := x.isLt
      simp only [one_toNat]
      omega
    have hq : (1 + (x - 1) / y).toNat = 1 + (x.toNat - 1) / y.toNat := by
      rw [BitVec.toNat_add, BitVec.toNat_udiv, hs]
      have h1 := Nat.div_le_self (x.toNat - 1) y.toNat
      have := x.isLt
      simp only [one_toNat]
      rw [Nat.mod_eq_of_lt]
      omega
    refine ⟨_, rfl, ?_, ?_⟩
    · rw [hq, Nat.add_mul, Nat.one_mul]
      have := Nat.div_add_mod (x.toNat - 1) y.toNat
      have := Nat.mod_lt (x.toNat - 1) hy0
      rw [Nat.mul_comm ((x.toNat - 1) / y.toNat)]
      omega
    · intro k hk
      rw [hq]
      have hlt : (x.toNat - 1) / y.toNat < k := by
        rw [Nat.div_lt_iff_lt_mul hy0]
        omega
      omega

/-- C60. `RoundUpTo(x, y)` is the least multiple of `y` that is at least `x`, whenever that multiple fits in 64 bits. -/
theorem C60_roundUpTo (x y : BitVec 64) (hy : y ≠ 0) :
    ∃ q, divCeil x y = some q ∧ (q.toNat * y.toNat < 2 ^ 64 →
      ∃ r, roundUpTo x y = some r ∧ y.toNat ∣ r.toNat ∧ x.toNat ≤ r.toNat ∧ ∀ m, y.toNat ∣ m → x.toNat ≤ m → r.toNat ≤ m) := by
  obtain ⟨q, h1, h2, h3⟩ := C60_divCeil x y hy
  refine ⟨q, h1, fun hf => ⟨q * y, by rw [roundUpTo, h1]; rfl, ?_⟩⟩
  have e : (q * y).toNat = q.toNat * y.toNat := by
    rw [BitVec.toNat_mul, Nat.mod_eq_of_lt hf]
  rw [e]
  refine ⟨Nat.dvd_mul_left _ _, h2, ?_⟩
  rintro m ⟨k, rfl⟩ hm
  rw [Nat.mul_comm y.toNat k] at hm ⊢
  exact Nat.mul_le_mul_right _ (h3 k hm)

/-- When the multiple does not fit, the result wraps around. -/
theorem C60_roundUpTo_wraps : roundUpTo 0xffffffffffffffff 16 = some 0 := by decide

/-- Non-vacuity. -/
example : log2Floor 1000 = some 9 ∧ log2Ceil 1000 = some 10 ∧ log2Ceil 1024 = some 10 ∧ divCeil 1000 7 = some 143 ∧
    roundUpTo 1000 7 = some 1001 ∧ divCeil 0xffffffffffffffff 1 = some 0xffffffffffffffff ∧
    log2Ceil 0xffffffffffffffff = some 64 := by decide +kernel

end Yacl.Gadget
