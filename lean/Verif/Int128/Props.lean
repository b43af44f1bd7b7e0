import Verif.Int128.Model
import Mathlib.Tactic.Ring
import Mathlib.Data.Nat.Bitwise
namespace Yacl.Int128

theorem makeUint_toNat (hi lo : BitVec 64) : (makeUint128 hi lo).toNat = hi.toNat * 2 ^ 64 + lo.toNat := by
  have h1 := hi.isLt
  have h2 := lo.isLt
  unfold makeUint128
  rw [BitVec.toNat_or, BitVec.toNat_shiftLeft, BitVec.toNat_setWidth, BitVec.toNat_setWidth,
    Nat.mod_eq_of_lt (show hi.toNat < 2 ^ 128 by omega), Nat.mod_eq_of_lt (show lo.toNat < 2 ^ 128 by omega)]
  rw [Nat.mod_eq_of_lt (show hi.toNat <<< 64 < 2 ^ 128 by rw [Nat.shiftLeft_eq]; omega)]
  rw [← Nat.shiftLeft_add_eq_or_of_lt h2, Nat.shiftLeft_eq]

theorem bitCast_id (v : BitVec 128) : bitCastToSigned v = v := by
  unfold bitCastToSigned; split <;> simp

theorem signExtend_shift (hi : BitVec 64) : (hi.signExtend 128) <<< 64 = (hi.setWidth 128) <<< 64 := by
  apply BitVec.eq_of_getLsbD_eq
  intro i hi'
  simp only [BitVec.getLsbD_shiftLeft, BitVec.getLsbD_signExtend, BitVec.getLsbD_setWidth]
  by_cases h : i < 64
  · simp [h]
  · have : i - 64 < 64 := by omega
    have h' : i - 64 < 128 := by omega
    simp [h, this, h']

theorem makeInt_eq (hi lo : BitVec 64) : makeInt128 hi lo = makeUint128 hi lo := by
  unfold makeInt128 makeUint128; rw [bitCast_id, signExtend_shift]

/-- **C25** `MakeUint128(hi, lo)` is the integer `hi·2^64 + lo`. -/
theorem C25_make_uint128_value (hi lo : BitVec 64) :
    (makeUint128 hi lo).toNat = hi.toNat * 2 ^ 64 + lo.toNat := makeUint_toNat hi lo

/-- **C25** `MakeInt128(hi, lo)` is the signed integer `hi·2^64 + lo`, `hi` read as signed. -/
theorem C25_make_int128_value (hi lo : BitVec 64) :
    (makeInt128 hi lo).toInt = hi.toInt * 2 ^ 64 + lo.toNat := by
  rw [makeInt_eq, BitVec.toInt_eq_toNat_cond, makeUint_toNat, BitVec.toInt_eq_toNat_cond]
  have h1 := hi.isLt
  have h2 := lo.isLt
  split <;> split <;> push_cast <;> omega

theorem decU (v : BitVec 128) : (decomposeUInt128 v).1.toNat = v.toNat / 2 ^ 64 ∧
    (decomposeUInt128 v).2.toNat = v.toNat % 2 ^ 64 := by
  have h := v.isLt
  constructor
  · simp only [decomposeUInt128, BitVec.toNat_setWidth, BitVec.toNat_ushiftRight, Nat.shiftRight_eq_div_pow]
    exact Nat.mod_eq_of_lt (by omega)
  · simp [decomposeUInt128]

theorem decI_eq (v : BitVec 128) : decomposeInt128 v = decomposeUInt128 v := by
  unfold decomposeInt128 decomposeUInt128
  congr 1
  apply BitVec.eq_of_getLsbD_eq
  intro i hi
  have : i < 128 := by omega
  have h3 : 64 + i < 128 := by omega
  simp [BitVec.getLsbD_setWidth, BitVec.getLsbD_sshiftRight, hi, h3]
  omega

/-- **C25** Recombining the unsigned halves gives the integer back, and conversely. -/
theorem C25_uint128_round_trip (v : BitVec 128) (hi lo : BitVec 64) :
    makeUint128 (decomposeUInt128 v).1 (decomposeUInt128 v).2 = v ∧
    decomposeUInt128 (makeUint128 hi lo) = (hi, lo) := by
  have h1 := hi.isLt
  have h2 := lo.isLt
  constructor
  · apply BitVec.eq_of_toNat_eq
    rw [makeUint_toNat, (decU v).1, (decU v).2]
    omega
  · have := decU (makeUint128 hi lo)
    rw [makeUint_toNat] at this
    apply Prod.ext
    · apply BitVec.eq_of_toNat_eq; rw [this.1]; show _ = hi.toNat; omega
    · apply BitVec.eq_of_toNat_eq; rw [this.2]; show _ = lo.toNat; omega

/-- **C25** The same for signed integers. -/
theorem C25_int128_round_trip (v : BitVec 128) (hi lo : BitVec 64) :
    makeInt128 (decomposeInt128 v).1 (decomposeInt128 v).2 = v ∧
    decomposeInt128 (makeInt128 hi lo) = (hi, lo) := by
  rw [makeInt_eq, makeInt_eq, decI_eq, decI_eq]; exact C25_uint128_round_trip v hi lo

theorem clz64 (x : BitVec 64) : countlZero64 x ≤ 64 ∧
    (∀ n : Nat, n < 64 → (64 - countlZero64 x ≤ n ↔ x.toNat < 2 ^ n)) := by
  have hx := x.isLt
  unfold countlZero64
  split
  · rename_i h; subst h; simp
  · rename_i h
    have h0 : x.toNat ≠ 0 := by intro e; apply h; apply BitVec.eq_of_toNat_eq; simpa using e
    have hl : Nat.log2 x.toNat < 64 := (Nat.log2_lt h0).2 hx
    refine ⟨by omega, ?_⟩
    intro n _
    rw [← Nat.log2_lt h0]; omega

/-- **C25** `CountBitWidth(v)` is the least `n` with `v < 2^n`, and `CountLZ` is the rest of the 128 bits. -/
theorem C25_bit_width (v : BitVec 128) :
    ∃ n : Nat, countBitWidth v = n ∧ n + countLZ v = 128 ∧ v.toNat < 2 ^ n ∧ ∀ m : Nat, v.toNat < 2 ^ m → n ≤ m := by
  obtain ⟨e1, e2⟩ := decU v
  have hv := v.isLt
  unfold countBitWidth countLZ
  generalize decomposeUInt128 v = d at *
  obtain ⟨hi, lo⟩ := d
  simp only at *
  have h1 := hi.isLt
  have h2 := lo.isLt
  by_cases hz : hi = 0
  · rw [if_pos hz]
    subst hz
    have e1' : v.toNat / 2 ^ 64 = 0 := by rw [← e1]; rfl
    have hvl : v.toNat = lo.toNat := by omega
    obtain ⟨a, b⟩ := clz64 lo
    refine ⟨64 - countlZero64 lo, by omega, by omega, ?_, ?_⟩
    · rw [hvl]
      by_cases h : 64 - countlZero64 lo < 64
      · exact (b _ h).1 (Nat.le_refl _)
      · have : 64 - countlZero64 lo = 64 := by omega
        rw [this]; exact h2
    · intro m hm
      by_cases h : m < 64
      · exact (b m h).2 (hvl ▸ hm)
      · omega
  · rw [if_neg hz]
    have h0 : hi.toNat ≠ 0 := by intro e; apply hz; apply BitVec.eq_of_toNat_eq; simpa using e
    obtain ⟨a, b⟩ := clz64 hi
    refine ⟨128 - countlZero64 hi, by omega, by omega, ?_, ?_⟩
    · by_cases h : 64 - countlZero64 hi < 64
      · have := (b _ h).1 (Nat.le_refl _)
        have e : 128 - countlZero64 hi = (64 - countlZero64 hi) + 64 := by omega
        rw [e, pow_add]
        generalize 2 ^ (64 - countlZero64 hi) = P at *
        omega
      · have : countlZero64 hi = 0 := by omega
        rw [this]; exact hv
    · intro m hm
      by_cases h : m < 64
      · have : 2 ^ m ≤ 2 ^ 63 := Nat.pow_le_pow_right (by omega) (by omega)
        omega
      · obtain ⟨k, rfl⟩ : ∃ k, m = k + 64 := ⟨m - 64, by omega⟩
        rw [pow_add] at hm
        by_cases hk : k < 64
        · have : hi.toNat < 2 ^ k := by
            generalize 2 ^ k = P at *
            omega
          have := (b k hk).2 this
          omega
        · omega

/-- **C25** The limits are the limits of the types. -/
theorem C25_limits : int128Max.toInt = 2 ^ 127 - 1 ∧ int128Min.toInt = -2 ^ 127 ∧ uint128Max.toNat = 2 ^ 128 - 1 := by
  decide +kernel

/-- **C25** `abs` of a signed value is its absolute value, except that for the minimum, which has none, the call is
undefined. -/
theorem C25_abs (x : BitVec 128) :
    (abs128 x = none ↔ x.toInt = -2 ^ 127) ∧ ∀ y, abs128 x = some y → y.toInt = |x.toInt| := by
  have hm : ∀ y : BitVec 128, y = int128Min ↔ y.toInt = -2 ^ 127 := by
    intro y
    constructor
    · rintro rfl; exact C25_limits.2.1
    · intro h; apply BitVec.eq_of_toInt_eq; rw [h, C25_limits.2.1]
  unfold abs128
  split
  · rename_i h
    refine ⟨by simp; omega, ?_⟩
    rintro y ⟨rfl⟩; rw [abs_of_nonneg h]
  · rename_i h
    split
    · rename_i h2; simp [(hm x).1 h2]
    · rename_i h2
      refine ⟨by simp; exact fun e => h2 ((hm x).2 e), ?_⟩
      rintro y ⟨rfl⟩
      have : x ≠ BitVec.intMin 128 := by
        intro e; apply h2; rw [hm, e]; decide +kernel
      rw [BitVec.toInt_neg_of_ne_intMin this, abs_of_neg (by omega)]

example : decomposeInt128 (BitVec.ofInt 128 (-1)) = (BitVec.ofInt 64 (-1), BitVec.ofNat 64 (2 ^ 64 - 1)) := by decide +kernel
example : countBitWidth (BitVec.ofNat 128 (2 ^ 70)) = 71 := by decide +kernel
example : countBitWidth 0 = 0 := by decide +kernel

end Yacl.Int128
