/-
C110, continued: quotients, remainders, single bits, built-in integers and random
numbers of the OpenSSL and GMP integers.
-/
import Verif.BigInt.BackendsProps
import Mathlib.Tactic.Zify

namespace Yacl.BigInt.Back

open Yacl.MPInt (Endian)

/-! ### quotients and remainders -/

theorem bnDiv_eq (a b : Int) : bnDiv a b = Yacl.MPInt.Arith.divide a b := rfl

/-- C110 (f): GMP's quotient and remainder are those that round towards minus infinity,
    for every pair of signs, and fit together; zero divisors are refused. -/
theorem C110_gmp_division (a b : Int) :
    (b = 0 → gmpDiv a b = none ∧ gmpRem a b = none) ∧
    (b ≠ 0 → ∃ q r, gmpDiv a b = some q ∧ gmpRem a b = some r ∧ q * b + r = a ∧
      (0 < b → 0 ≤ r ∧ r < b) ∧ (b < 0 → b < r ∧ r ≤ 0)) := by
  refine ⟨fun h => by simp [gmpDiv, gmpRem, h], fun hb => ?_⟩
  refine ⟨a.fdiv b, a.fmod b, by simp [gmpDiv, hb], by simp [gmpRem, hb], ?_, ?_, ?_⟩
  · have := Int.mul_fdiv_add_fmod a b
    rw [mul_comm]
    exact this
  · intro hp
    exact ⟨Int.fmod_nonneg_of_pos a hp, Int.fmod_lt_of_pos a hp⟩
  · intro hn
    have hz : ((-a).fmod (-b)) = -(a.fmod b) := Int.neg_fmod_neg a b
    have h1 := Int.fmod_nonneg_of_pos (-a) (show 0 < -b by omega)
    have h2 := Int.fmod_lt_of_pos (-a) (show 0 < -b by omega)
    rw [hz] at h1 h2
    omega

/-- C110 (g): OpenSSL's remainder is GMP's, for every pair of signs. -/
theorem C110_remainder (a b : Int) : bnRem a b = gmpRem a b := by
  unfold bnRem gmpRem nnmod bnMod
  by_cases hb : b < 0
  · rw [if_pos hb, if_neg (by omega : ¬ b = 0), if_neg (by omega : ¬ b = 0), Option.map_some]
    congr 1
    have e1 := Int.mul_tdiv_add_tmod a b
    have e2 := Int.mul_fdiv_add_fmod a b
    have h3 := (C110_gmp_division a b).2 (by omega)
    obtain ⟨q, r, _, hr, _, _, hneg⟩ := h3
    have hr' : a.fmod b = r := by
      simp only [gmpRem, if_neg (show b ≠ 0 by omega)] at hr
      exact Option.some.inj hr
    have ⟨f1, f2⟩ := hneg hb
    rw [← hr'] at f1 f2
    have t1 := Int.natAbs_tmod a b
    have t2 : a.natAbs % b.natAbs < b.natAbs := Nat.mod_lt _ (by omega)
    -- both are congruent to a
    have hd : b ∣ a.tmod b - a.fmod b := ⟨a.fdiv b - a.tdiv b, by linear_combination e1 - e2⟩
    obtain ⟨c, hc⟩ := hd
    have ht : b < a.tmod b ∧ a.tmod b < -b := by omega
    have hcc : c = 0 ∨ c = -1 := by
      have h5 : c < 1 := by
        by_contra hcon
        have : b * c ≤ b * 1 := Int.mul_le_mul_of_nonpos_left hb.le (by omega)
        omega
      have h6 : -2 < c := by
        by_contra hcon
        have : b * -2 ≤ b * c := Int.mul_le_mul_of_nonpos_left hb.le (by omega)
        omega
      omega
    rcases hcc with h | h <;> rw [h] at hc
    · rw [if_neg (by omega)]
      omega
    · by_cases h0 : a.tmod b = 0
      · omega
      · rw [if_pos (by omega)]
        omega
  · rw [if_neg hb]
    by_cases h0 : b = 0
    · rw [if_pos h0, if_pos h0]
    · rw [if_neg h0, if_neg h0, Int.fmod_eq_emod_of_nonneg a (by omega)]

/-- C110 (h): OpenSSL's quotient is GMP's unless the true quotient lies strictly between
    -1 and 0; there OpenSSL's is 0. -/
theorem C110_division_partial (a b : Int) :
    (b = 0 → bnDiv a b = none) ∧
    (b ≠ 0 → (0 ≤ a * b ∨ |b| ≤ |a|) → bnDiv a b = gmpDiv a b) ∧
    (b ≠ 0 → a * b < 0 → |a| < |b| → bnDiv a b = some 0) := by
  obtain ⟨h1, h2, h3⟩ := Yacl.MPInt.Arith.C89_div_partial a b
  refine ⟨h1, fun hb h => ?_, h3⟩
  rw [bnDiv_eq, h2 hb h]
  simp [gmpDiv, hb]

/-- The two libraries disagree on `-1 / 2`; with OpenSSL's (and `MPInt`'s) quotient,
    quotient and remainder do not fit together. -/
theorem C110_division_violated :
    bnDiv (-1) 2 = some 0 ∧ gmpDiv (-1) 2 = some (-1) ∧
    bnDivWord (-1) 2 = some 0 ∧ gmpDivWord (-1) 2 = some (-1) ∧
    (∃ q r, bnDiv (-1) 2 = some q ∧ bnRem (-1) 2 = some r ∧ q * 2 + r ≠ -1) :=
  ⟨by decide, by decide, by decide, by decide, 0, 1, by decide, by decide, by decide⟩

theorem tdiv_natCast (a : Int) (d : Nat) :
    a.tdiv d = setNegative (a.natAbs / d : Nat) (decide (a < 0)) := by
  unfold setNegative
  by_cases h : a < 0
  · simp only [h, decide_true, if_true, Int.natAbs_natCast]
    obtain ⟨n, rfl⟩ : ∃ n : Nat, a = -(n : Int) := ⟨a.natAbs, by omega⟩
    rw [Int.neg_tdiv, Int.natAbs_neg, Int.natAbs_natCast]
    norm_cast
  · simp only [h, decide_false, Int.natAbs_natCast]
    obtain ⟨n, rfl⟩ : ∃ n : Nat, a = (n : Int) := ⟨a.natAbs, by omega⟩
    rw [Int.natAbs_natCast]
    simp

/-- C110 (i): the operators with a 64-bit word on the right are the general ones. -/
theorem C110_words (a : Int) (d : Nat) :
    bnDivWord a d = bnDiv a d ∧ gmpDivWord a d = gmpDiv a d ∧
    bnRemWord a d = gmpRemWord a d ∧
    (gmpRemWord a d).map (fun r : Nat => (r : Int)) = gmpRem a d := by
  have hcast : ((d : Int) = 0) ↔ d = 0 := by omega
  refine ⟨?_, ?_, ?_, ?_⟩
  · unfold bnDivWord bnDiv
    simp only [hcast]
    by_cases h : d = 0
    · rw [if_pos h, if_pos h]
    · rw [if_neg h, if_neg h]
      have hm : (a.natAbs % d ≠ 0) ↔ a.tmod d ≠ 0 := by
        rw [not_iff_not, ← Nat.dvd_iff_mod_eq_zero, ← Int.dvd_iff_tmod_eq_zero]
        exact (Int.natCast_dvd).symm
      simp only [tdiv_natCast, hm]
  · unfold gmpDivWord gmpDiv
    simp only [hcast]
  · unfold bnRemWord gmpRemWord
    by_cases h : d = 0
    · subst h; simp
    · have hd : (0 : Int) < d := by omega
      rw [if_pos (by omega), if_neg h]
      dsimp only
      congr 1
      have h1 := Int.emod_nonneg a hd.ne'
      have h2 := Int.emod_lt_of_pos a hd
      have h3 := Int.emod_add_mul_ediv a d
      have h4 := Nat.mod_add_div a.natAbs d
      have h5 : a.natAbs % d < d := Nat.mod_lt _ (by omega)
      have h6 : ((a.natAbs % d : Nat) : Int) = (a.natAbs : Int) % d := by push_cast; rfl
      by_cases hn : a < 0
      · have h7 : (a.natAbs : Int) = -a := by omega
        have h8 : (a + ((a.natAbs % d : Nat) : Int)) % d = 0 := by
          rw [h6, h7, Int.add_emod, Int.emod_emod_of_dvd _ (dvd_refl _), ← Int.add_emod]
          simp
        by_cases h0 : a.natAbs % d = 0
        · rw [if_neg (by omega), h0]
          rw [h0] at h8
          simp at h8
          omega
        · rw [if_pos ⟨hn, h0⟩]
          have : a % d = d - ((a.natAbs % d : Nat) : Int) := by
            rw [← Int.emod_eq_of_lt (a := (d : Int) - ((a.natAbs % d : Nat) : Int)) (b := d)
              (by omega) (by omega)]
            apply Int.emod_eq_emod_iff_emod_sub_eq_zero.2
            rw [show a - ((d : Int) - ((a.natAbs % d : Nat) : Int))
              = (a + ((a.natAbs % d : Nat) : Int)) - d by ring, Int.sub_emod_right]
            exact h8
          rw [this]
          omega
      · rw [if_neg (by omega)]
        have h7 : (a.natAbs : Int) = a := by omega
        rw [h7] at h6
        omega
  · unfold gmpRemWord gmpRem
    simp only [hcast]
    by_cases h : d = 0
    · rw [if_pos h, if_pos h]; rfl
    · have hd : (0 : Int) < d := by omega
      rw [if_neg h, if_neg h, Option.map_some, Int.fmod_eq_emod_of_nonneg a hd.le,
        Int.toNat_of_nonneg (Int.emod_nonneg a hd.ne')]

/-- C110 (j): sums, differences and products modulo a positive number are the least
    non-negative residues in both libraries. -/
theorem C110_mod_ops (a b m : Int) (hm : 0 < m) :
    bnAddMod a b m = some ((a + b) % m) ∧ gmpAddMod a b m = some ((a + b) % m) ∧
    bnSubMod a b m = some ((a - b) % m) ∧ gmpSubMod a b m = some ((a - b) % m) ∧
    bnMulMod a b m = some ((a * b) % m) ∧ gmpMulMod a b m = some ((a * b) % m) := by
  have h0 : m ≠ 0 := hm.ne'
  refine ⟨?_, ?_, ?_, ?_, ?_, ?_⟩ <;>
  simp [bnAddMod, bnSubMod, bnMulMod, gmpAddMod, gmpSubMod, gmpMulMod, nnmod, gmpRem, h0,
    Int.fmod_eq_emod_of_nonneg _ hm.le]

/-- With a negative modulus the two libraries disagree: `1 + 1` modulo `-3` is 2 with
    OpenSSL and -1 with GMP. -/
theorem C110_negative_modulus_violated :
    bnAddMod 1 1 (-3) = some 2 ∧ gmpAddMod 1 1 (-3) = some (-1) := by decide

/-- C110 (k): the least common multiple agrees, except that OpenSSL's refuses two zeros
    (it divides by their greatest common divisor). -/
theorem C110_lcm_partial (a b : Int) (h : a ≠ 0 ∨ b ≠ 0) :
    bnLcm a b = gmpLcm a b := by
  have hg : (Int.gcd a b : Int) ≠ 0 := by
    intro h0
    have := Int.gcd_eq_zero_iff.1 (by exact_mod_cast h0 : Int.gcd a b = 0)
    rcases h with h | h
    · exact h this.1
    · exact h this.2
  unfold bnLcm gmpLcm bnDiv
  have hdvd : (Int.gcd a b : Int) ∣ a * b := Dvd.dvd.mul_right (Int.gcd_dvd_left ..) b
  have hz : (a * b).tmod (Int.gcd a b) = 0 := Int.dvd_iff_tmod_eq_zero.1 hdvd
  simp only [if_neg hg, hz, ne_eq, not_true_eq_false, and_false, if_false, Option.map_some]
  congr 1
  have h1 : ((a * b).tdiv (Int.gcd a b)).natAbs = Int.lcm a b := by
    rw [Int.natAbs_tdiv, Int.natAbs_mul, Int.natAbs_natCast]
    rfl
  split <;> omega

theorem C110_lcm_violated : bnLcm 0 0 = none ∧ gmpLcm 0 0 = some 0 := by decide

/-! ### single bits -/

theorem add_eq_or (x y : Nat) (h : x &&& y = 0) : x + y = x ||| y := by
  induction x using Nat.strong_induction_on generalizing y with
  | _ x ih =>
    by_cases hx : x = 0
    · subst hx; simp
    · have h1 := ih (x / 2) (by omega) (y / 2) (by rw [← Nat.and_div_two, h])
      rw [← Nat.or_div_two] at h1
      have h2 : (x &&& y) % 2 = 0 := by rw [h]
      have h3 : (x ||| y) % 2 = x % 2 ||| y % 2 := by
        simpa using Nat.or_mod_two_pow (a := x) (b := y) (n := 1)
      have h4 : (x &&& y) % 2 = x % 2 &&& y % 2 := by
        simpa using Nat.and_mod_two_pow (a := x) (b := y) (n := 1)
      rw [h2] at h4
      rcases Nat.mod_two_eq_zero_or_one x with a | a <;>
        rcases Nat.mod_two_eq_zero_or_one y with b | b <;> rw [a, b] at h3 h4 <;>
        simp only [show (0 ||| 0 : Nat) = 0 from rfl, show (0 ||| 1 : Nat) = 1 from rfl,
          show (1 ||| 0 : Nat) = 1 from rfl, show (1 ||| 1 : Nat) = 1 from rfl,
          show (1 &&& 1 : Nat) = 1 from rfl] at h3 h4 <;> omega

theorem clearBit_test (n i j : Nat) :
    (clearBitNat n i).testBit j = (n.testBit j && decide (j ≠ i)) := by
  unfold clearBitNat
  by_cases h : n.testBit i = true
  · rw [if_pos h]
    have hx : n - 2 ^ i = n ^^^ 2 ^ i := by
      have hand : (n ^^^ 2 ^ i) &&& 2 ^ i = 0 := by
        apply Nat.eq_of_testBit_eq
        intro k
        rw [Nat.testBit_and, Nat.testBit_xor, Nat.testBit_two_pow]
        by_cases hk : i = k
        · subst hk; simp [h]
        · simp [hk]
      have hor : (n ^^^ 2 ^ i) ||| 2 ^ i = n := by
        apply Nat.eq_of_testBit_eq
        intro k
        rw [Nat.testBit_or, Nat.testBit_xor, Nat.testBit_two_pow]
        by_cases hk : i = k
        · subst hk; simp [h]
        · simp [hk]
      have hadd : (n ^^^ 2 ^ i) + 2 ^ i = (n ^^^ 2 ^ i) ||| 2 ^ i := by
        exact add_eq_or _ _ hand
      omega
    rw [hx, Nat.testBit_xor, Nat.testBit_two_pow]
    by_cases hk : i = j
    · subst hk; simp [h]
    · simp [hk, Ne.symm hk]
  · rw [if_neg h]
    by_cases hk : j = i
    · subst hk; simp at h; simp [h]
    · simp [hk]

theorem setBit_test (n i j : Nat) :
    (setBitNat n i).testBit j = (n.testBit j || decide (j = i)) := by
  unfold setBitNat
  rw [Nat.testBit_or, Nat.testBit_two_pow]
  by_cases h : i = j
  · subst h; simp
  · simp [h, Ne.symm h]

theorem setNegative_natAbs (n : Nat) (neg : Bool) : (setNegative n neg).natAbs = n := by
  unfold setNegative
  cases neg <;> simp

theorem setNegative_neg (n : Nat) (neg : Bool) :
    setNegative n neg < 0 ↔ neg = true ∧ setNegative n neg ≠ 0 := by
  unfold setNegative
  cases neg <;> simp; omega

theorem bnSetBit_gmp (a : Int) (i bit : Nat) : bnSetBit a i bit = gmpSetBit a i bit := by
  unfold bnSetBit gmpSetBit setNegative
  by_cases hb : bit = 0
  · simp only [hb, if_true]
    by_cases hi : i < numBits a
    · simp only [if_pos hi, Int.natAbs_natCast]
      by_cases ha : a < 0 <;> simp [ha]
    · simp only [if_neg hi]
      have : clearBitNat a.natAbs i = a.natAbs := by
        unfold clearBitNat
        rw [if_neg]
        rw [Nat.testBit_eq_false_of_lt]
        · simp
        · exact Nat.lt_of_lt_of_le (Nat.lt_size_self _)
            (Nat.pow_le_pow_right (by decide) (by unfold numBits at hi; omega))
      rw [this]
      split <;> omega
  · simp only [hb, if_false, Int.natAbs_natCast]
    by_cases ha : a < 0 <;> simp [ha]

/-- C110 (l): `GetBit` and `SetBit` work on the absolute value in both libraries, as in
    `MPInt` (C88): exactly the addressed bit changes and the sign stays. -/
theorem C110_bits (a : Int) (k v : Nat) :
    (∀ i, bnGetBit a i = (if a.natAbs.testBit i then 1 else 0) ∧ gmpGetBit a i = bnGetBit a i) ∧
    bnSetBit a k v = gmpSetBit a k v ∧
    (∀ i, (bnSetBit a k v).natAbs.testBit i = if i = k then decide (v ≠ 0) else a.natAbs.testBit i) ∧
    (bnSetBit a k v < 0 ↔ a < 0 ∧ bnSetBit a k v ≠ 0) := by
  refine ⟨fun i => ⟨rfl, ?_⟩, bnSetBit_gmp a k v, fun i => ?_, ?_⟩
  · unfold gmpGetBit bnGetBit
    by_cases h : a < 0
    · rw [if_pos h, Nat.testBit_eq_decide_div_mod_eq]
      have e1 : a.natAbs / 2 ^ (64 * (i / 64)) % 2 ^ 64 / 2 ^ (i % 64) % 2 = a.natAbs / 2 ^ i % 2 := by
        have hsp : (2 : Nat) ^ 64 = 2 ^ (i % 64) * (2 * 2 ^ (63 - i % 64)) := by
          rw [← pow_succ', ← pow_add]
          congr 1
          omega
        rw [hsp, Nat.mod_mul_right_div_self, Nat.mod_mul_right_mod, Nat.div_div_eq_div_mul, ← pow_add]
        congr 3
        omega
      rw [e1]
      have := Nat.mod_two_eq_zero_or_one (a.natAbs / 2 ^ i)
      rcases this with h | h <;> rw [h] <;> simp
    · rw [if_neg h]
  · rw [bnSetBit_gmp]
    unfold gmpSetBit
    have hx : ∀ m : Nat, (if a < 0 then -(m : Int) else (m : Int)).natAbs = m := by
      intro m; split <;> simp
    rw [hx]
    by_cases hv : v = 0
    · rw [if_pos hv, clearBit_test]
      by_cases hi : i = k <;> simp [hi, hv]
    · rw [if_neg hv, setBit_test]
      by_cases hi : i = k <;> simp [hi, hv]
  · rw [bnSetBit_gmp]
    unfold gmpSetBit
    by_cases h : a < 0
    · simp only [h, if_true, true_and]; omega
    · simp only [h, if_false, false_and, iff_false]; omega

/-- `operator>>` truncates towards zero; it is not the shift of two's complement that
    goes with the bitwise operators. -/
theorem C110_shift_partial (a : Int) (k : Nat) (h : 0 ≤ a) : shiftRight a k = a / 2 ^ k := by
  unfold shiftRight
  exact Int.tdiv_eq_ediv_of_nonneg h

theorem C110_shift_violated : shiftRight (-1) 1 = 0 ∧ (-1 : Int) / 2 ^ 1 = -1 := by decide

/-! ### built-in integers -/

/-- C110 (m): `Get` of an unsigned type returns a number that fits unchanged; `Get` of a
    signed type does so except for the least value of a type of 32 bits or more, where
    the negation overflows. -/
theorem C110_get_partial (w : Nat) (hw : 0 < w) (a : Int) :
    (0 ≤ a → a < 2 ^ w → (getUnsigned w a : Int) = a) ∧
    (-2 ^ (w - 1) < a → a < 2 ^ (w - 1) → getSigned w a = some a) ∧
    (a = -2 ^ (w - 1) → getSigned w a = if w < 32 then some a else none) := by
  have hp : (2 : Nat) ^ w = 2 * 2 ^ (w - 1) := by rw [← pow_succ']; congr 1; omega
  have hpZ : (2 : Int) ^ w = 2 * 2 ^ (w - 1) := by rw [← pow_succ']; congr 1; omega
  have hcast : ((2 ^ (w - 1) : Nat) : Int) = 2 ^ (w - 1) := by push_cast; rfl
  have hpos : 0 < 2 ^ (w - 1) := by positivity
  refine ⟨fun h0 h1 => ?_, fun h0 h1 => ?_, fun h => ?_⟩
  · unfold getUnsigned
    rw [Nat.mod_eq_of_lt]
    · omega
    · zify
      rw [abs_of_nonneg h0]
      exact h1
  · unfold getSigned
    have hn : a.natAbs < 2 ^ (w - 1) := by omega
    rw [Nat.mod_eq_of_lt (by omega)]
    simp only [if_pos hn]
    by_cases ha : a < 0
    · rw [if_pos ha, if_neg (by omega)]
      congr 1
      omega
    · rw [if_neg ha]
      congr 1
      omega
  · unfold getSigned
    have hn : a.natAbs = 2 ^ (w - 1) := by omega
    rw [Nat.mod_eq_of_lt (by omega), hn]
    simp only [lt_irrefl, if_false]
    have ha : a < 0 := by omega
    have e : ((2 ^ (w - 1) : Nat) : Int) - 2 ^ w = -2 ^ (w - 1) := by rw [hcast, hpZ]; ring
    rw [if_pos ha, e, if_pos rfl, h]

example : getSigned 64 (-2 ^ 63) = none ∧ getSigned 8 (-128) = some (-128) ∧
    getSigned 64 (-5) = some (-5) ∧ getUnsigned 8 (-5) = 5 := by decide

/-! ### GMP's random numbers -/

/-- The numbers a thread gets when it makes the requests `rs` from state `s`. -/
def own {S : Type} (g : Gen S) : S → List Request → List Int
  | _, [] => []
  | s, r :: rest => (g.gen s r).2 :: own g (g.gen s r).1 rest

theorem run_own {S : Type} (g : Gen S) (calls : List (Nat × Request)) (st : Nat → S) (t : Nat) :
    ((run g st calls).filter fun x => x.1 == t).map Prod.snd
      = own g (st t) ((calls.filter fun x => x.1 == t).map Prod.snd) := by
  induction calls generalizing st with
  | nil => rfl
  | cons c rest ih =>
    obtain ⟨tid, r⟩ := c
    simp only [run]
    by_cases h : tid = t
    · subst h
      simp [own, ih]
    · have h' : (tid == t) = false := by simpa using h
      rw [List.filter_cons_of_neg (by simp [h']), List.filter_cons_of_neg (by simp [h']), ih]
      simp [Ne.symm h]

/-- C110 (n): the random numbers of the GMP backend are not random: whatever the process
    and the interleaving, two threads (of the same process or of two processes) that make
    the same requests get the same numbers. -/
theorem C110_gmp_random_violated {S : Type} (g : Gen S) (calls calls' : List (Nat × Request))
    (t u : Nat)
    (h : (calls.filter fun x => x.1 == t).map Prod.snd
      = (calls'.filter fun x => x.1 == u).map Prod.snd) :
    ((process g calls).filter fun x => x.1 == t).map Prod.snd
      = ((process g calls').filter fun x => x.1 == u).map Prod.snd := by
  unfold process
  rw [run_own, run_own, h]

example : ((process (⟨7, fun s _ => (s * 5 + 3, (s : Int))⟩ : Gen Nat)
      [(0, .bits 8), (1, .bits 8), (0, .below 9)]).filter fun x => x.1 == 0).map Prod.snd = [7, 38] ∧
    ((process (⟨7, fun s _ => (s * 5 + 3, (s : Int))⟩ : Gen Nat)
      [(4, .bits 8), (4, .below 9)]).filter fun x => x.1 == 4).map Prod.snd = [7, 38] := by decide

end Yacl.BigInt.Back
