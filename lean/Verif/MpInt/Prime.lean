/-
C89: rounding of `MPInt` quotients and remainders; C90: `RandPrimeOver(FastSafe)` and
`RandomLtN`.

/repo/yacl/math/mpint/mp_int.cc, tommath_ext_features.cc.  The operations of
libtommath itself are not in the repository; they appear with their documented
meaning: `mp_div` truncates, `mp_mod` has the sign of the modulus, `mp_div_d` /
`mp_mod_d` return the remainder of the absolute value, `mp_exptmod` is modular
exponentiation.
-/
import Mathlib.Data.Nat.Prime.Basic
import Mathlib.FieldTheory.Finite.Basic
import Mathlib.Data.Nat.Digits.Lemmas
import Mathlib.Tactic.Ring
import Mathlib.Tactic.Linarith
import Mathlib.Tactic.IntervalCases

namespace Yacl.MPInt.Arith

/-! ### quotients and remainders -/

/-- `MPInt::operator/(const MPInt&)`, `operator/=` (mp_int.cc L338-347, L466-474). -/
def divide (a b : Int) : Option Int :=
  if b = 0 then none
  else
    let q := a.tdiv b
    let r := a.tmod b
    some (if q < 0 ∧ r ≠ 0 then q - 1 else q)

/-- `MPInt::operator/(uint64_t)`, `operator/=(uint64_t)` (mp_int.cc L398-411, L509-521);
    `mask` is `MP_MASK`. -/
def divideWord (mask : Nat) (a : Int) (d : Nat) : Option Int :=
  if d ≤ mask then
    if d = 0 then none
    else
      let q := a.tdiv d
      let r := a.natAbs % d
      some (if q < 0 ∧ r ≠ 0 then q - 1 else q)
  else divide a d

/-- `MPInt::operator%(const MPInt&)` (mp_int.cc L361-366). -/
def modulo (a b : Int) : Option Int := if b = 0 then none else some (a.fmod b)

/-- `MPInt::operator%(uint64_t)` (mp_int.cc L413-425); `Get<uint64_t>` is the absolute
    value modulo `2^64`. -/
def moduloWord (mask : Nat) (a : Int) (d : Nat) : Option Nat :=
  if d ≤ mask then
    if d = 0 then none
    else
      let r := a.natAbs % d
      some (if a < 0 ∧ r ≠ 0 then d - r else r)
  else (modulo a d).map fun r => r.natAbs % 2 ^ 64

/-- `MPInt::Mod(mp_digit)` (mp_int.cc L744-752). -/
def modDigit (a : Int) (d : Nat) : Option Nat := if d = 0 then none else some (a.natAbs % d)

theorem tdiv_fdiv {a b : Int} (hb : b ≠ 0) (h : 0 ≤ a * b ∨ |b| ≤ |a|) :
    (if a.tdiv b < 0 ∧ a.tmod b ≠ 0 then a.tdiv b - 1 else a.tdiv b) = a.fdiv b := by
  have e1 := Int.mul_tdiv_add_tmod a b
  have e2 := Int.mul_fdiv_add_fmod a b
  have t1 : (a.tmod b).natAbs < b.natAbs := by
    rw [Int.natAbs_tmod]
    exact Nat.mod_lt _ (Int.natAbs_pos.2 hb)
  generalize a.tdiv b = q at *
  generalize hr : a.tmod b = r at *
  generalize a.fdiv b = q' at *
  generalize hr' : a.fmod b = r' at *
  have hrsign : 0 ≤ a → 0 ≤ r := fun ha => by rw [← hr]; exact Int.tmod_nonneg b ha
  have hrsign' : a ≤ 0 → r ≤ 0 := fun ha => by
    rw [← hr]
    have := Int.tmod_nonneg b (show 0 ≤ -a by omega)
    rw [Int.neg_tmod] at this
    omega
  rcases lt_or_gt_of_ne hb with hbn | hbp
  · -- negative divisor
    have hrb : b < r' ∧ r' ≤ 0 := by
      rw [← hr']
      have hz : ((-a).fmod (-b)) = -(a.fmod b) := Int.neg_fmod_neg a b
      have h1 := Int.fmod_nonneg_of_pos (-a) (show 0 < -b by omega)
      have h2 := Int.fmod_lt_of_pos (-a) (show 0 < -b by omega)
      rw [hz] at h1 h2
      omega
    have hra : b < r ∧ r < -b := by omega
    -- `b * (q - q') = r' - r`
    have hd : b * (q - q') = r' - r := by rw [mul_sub]; omega
    have hqq : q - q' = 0 ∨ q - q' = 1 ∨ q - q' = -1 := by
      have h1 : -2 < q - q' := by
        by_contra hc
        have : b * (q - q') ≥ b * (-2) := mul_le_mul_of_nonpos_left (by omega) (by omega)
        omega
      have h2 : q - q' < 2 := by
        by_contra hc
        have : b * (q - q') ≤ b * 2 := mul_le_mul_of_nonpos_left (by omega) (by omega)
        omega
      omega
    by_cases ha : 0 < a
    · have hr0 := hrsign ha.le
      have habs : |b| ≤ |a| := by
        rcases h with h | h
        · have := mul_neg_of_pos_of_neg ha hbn
          omega
        · exact h
      rw [abs_of_neg hbn, abs_of_pos ha] at habs
      have hqneg : q < 0 := by
        by_contra hc
        have : b * q ≤ 0 := mul_nonpos_of_nonpos_of_nonneg hbn.le (by omega)
        omega
      by_cases hrz : r = 0
      · rw [if_neg (by tauto)]
        rcases hqq with h0 | h0 | h0
        · omega
        · rw [h0] at hd; omega
        · rw [h0] at hd; omega
      · rw [if_pos ⟨hqneg, hrz⟩]
        rcases hqq with h0 | h0 | h0
        · rw [h0] at hd; omega
        · omega
        · rw [h0] at hd; omega
    · have hr0 := hrsign' (by omega)
      have hq : ¬ q < 0 := by
        intro hc
        have : 0 < b * q := mul_pos_of_neg_of_neg hbn hc
        have : b * (-1) ≤ b * q := mul_le_mul_of_nonpos_left (by omega) (by omega)
        omega
      rw [if_neg (by tauto)]
      rcases hqq with h0 | h0 | h0
      · omega
      · rw [h0] at hd; omega
      · rw [h0] at hd; omega
  · have hrb : 0 ≤ r' ∧ r' < b := by
      rw [← hr']
      exact ⟨Int.fmod_nonneg_of_pos a hbp, Int.fmod_lt_of_pos a hbp⟩
    have hra : -b < r ∧ r < b := by omega
    have hd : b * (q - q') = r' - r := by rw [mul_sub]; omega
    have hqq : q - q' = 0 ∨ q - q' = 1 ∨ q - q' = -1 := by
      have h1 : -2 < q - q' := by
        by_contra hc
        have : b * (q - q') ≤ b * (-2) := mul_le_mul_of_nonneg_left (by omega) (by omega)
        omega
      have h2 : q - q' < 2 := by
        by_contra hc
        have : b * 2 ≤ b * (q - q') := mul_le_mul_of_nonneg_left (by omega) (by omega)
        omega
      omega
    by_cases ha : a < 0
    · have hr0 := hrsign' ha.le
      have habs : |b| ≤ |a| := by
        rcases h with h | h
        · have := mul_neg_of_neg_of_pos ha hbp
          omega
        · exact h
      rw [abs_of_pos hbp, abs_of_neg ha] at habs
      have hqneg : q < 0 := by
        by_contra hc
        have : 0 ≤ b * q := mul_nonneg hbp.le (by omega)
        omega
      by_cases hrz : r = 0
      · rw [if_neg (by tauto)]
        rcases hqq with h0 | h0 | h0
        · omega
        · rw [h0] at hd; omega
        · rw [h0] at hd; omega
      · rw [if_pos ⟨hqneg, hrz⟩]
        rcases hqq with h0 | h0 | h0
        · rw [h0] at hd; omega
        · omega
        · rw [h0] at hd; omega
    · have hr0 := hrsign (by omega)
      have hq : ¬ q < 0 := by
        intro hc
        have : b * q ≤ b * (-1) := mul_le_mul_of_nonneg_left (by omega) (by omega)
        omega
      rw [if_neg (by tauto)]
      rcases hqq with h0 | h0 | h0
      · omega
      · rw [h0] at hd; omega
      · rw [h0] at hd; omega

/-- C89: `operator/` rounds towards minus infinity, and division by zero throws --
    except when the true quotient lies strictly between -1 and 0 (see
    `C89_div_violated`), where the result is 0. -/
theorem C89_div_partial (a b : Int) :
    (b = 0 → divide a b = none) ∧
    (b ≠ 0 → (0 ≤ a * b ∨ |b| ≤ |a|) → divide a b = some (a.fdiv b)) ∧
    (b ≠ 0 → a * b < 0 → |a| < |b| → divide a b = some 0) := by
  refine ⟨fun h => by simp [divide, h], fun hb h => ?_, fun hb hs hlt => ?_⟩
  · unfold divide
    rw [if_neg hb]
    exact congrArg some (tdiv_fdiv hb h)
  · unfold divide
    rw [if_neg hb]
    have : a.tdiv b = 0 := by
      have h1 : (a.tdiv b).natAbs = 0 := by
        rw [Int.natAbs_tdiv]
        exact Nat.div_eq_of_lt (by rw [Int.abs_eq_natAbs, Int.abs_eq_natAbs] at hlt; exact_mod_cast hlt)
      exact Int.natAbs_eq_zero.1 h1
    simp [this]

/-- The quotient is not rounded down: `(-1) / 2` is `0`, not `-1`, and the identity
    between quotient and remainder fails. -/
theorem C89_div_violated :
    divide (-1) 2 = some 0 ∧ Int.fdiv (-1) 2 = -1 ∧
    (∃ q r, divide (-1) 2 = some q ∧ modulo (-1) 2 = some r ∧ q * 2 + r ≠ -1) := by
  refine ⟨by decide, by decide, 0, 1, by decide, by decide, by decide⟩

/-- Quotient and remainder fit together, with the same exception. -/
theorem C89_div_mod_partial (a b : Int) (hb : b ≠ 0) (h : 0 ≤ a * b ∨ |b| ≤ |a|) :
    ∃ q r, divide a b = some q ∧ modulo a b = some r ∧ q * b + r = a ∧
      (0 < b → 0 ≤ r ∧ r < b) ∧ (b < 0 → b < r ∧ r ≤ 0) := by
  refine ⟨a.fdiv b, a.fmod b, (C89_div_partial a b).2.1 hb h, by simp [modulo, hb], ?_, ?_, ?_⟩
  · have := Int.mul_fdiv_add_fmod a b
    rw [mul_comm]
    exact this
  · intro hp
    exact ⟨Int.fmod_nonneg_of_pos a hp, Int.fmod_lt_of_pos a hp⟩
  · intro hn
    have hz : ((-a).fmod (-b)) = -(a.fmod b) := Int.neg_fmod_neg a b
    have h1 := Int.fmod_nonneg_of_pos (-a) (show 0 < -b by omega)
    have h2 := Int.fmod_lt_of_pos (-a) (show 0 < -b by omega)
    rw [hz] at h1 h2
    omega

/-- The word versions agree with the general ones. -/
theorem C89_div_word (mask : Nat) (a : Int) (d : Nat) : divideWord mask a d = divide a d := by
  unfold divideWord divide
  by_cases hm : d ≤ mask
  · rw [if_pos hm]
    by_cases hd : d = 0
    · simp [hd]
    · rw [if_neg hd, if_neg (by exact_mod_cast hd)]
      have : (a.natAbs % d ≠ 0) ↔ a.tmod d ≠ 0 := by
        rw [not_iff_not, ← Nat.dvd_iff_mod_eq_zero, ← Int.dvd_iff_tmod_eq_zero]
        exact (Int.natCast_dvd).symm
      simp only [this]
  · rw [if_neg hm]

/-- `operator%(uint64_t)` is the least non-negative residue, for every sign and every
    word. -/
theorem C89_mod_word (mask : Nat) (a : Int) (d : Nat) (hd : d < 2 ^ 64) :
    (d = 0 → moduloWord mask a d = none) ∧
    (d ≠ 0 → ∃ r, moduloWord mask a d = some r ∧ r < d ∧ (r : Int) = a % d) := by
  constructor
  · rintro rfl
    simp [moduloWord]
  · intro h0
    have hdp : (0 : Int) < d := by exact_mod_cast Nat.pos_of_ne_zero h0
    have hlt := Int.emod_lt_of_pos a hdp
    have hnn := Int.emod_nonneg a (show (d : Int) ≠ 0 by omega)
    unfold moduloWord
    by_cases hm : d ≤ mask
    · rw [if_pos hm, if_neg h0]
      refine ⟨_, rfl, ?_⟩
      have hml := Nat.mod_lt a.natAbs (Nat.pos_of_ne_zero h0)
      have key : ((if a < 0 ∧ a.natAbs % d ≠ 0 then d - a.natAbs % d else a.natAbs % d : Nat) : Int)
          = a % d := by
        have hc : ((a.natAbs % d : Nat) : Int) = |a| % d := by
          rw [Int.natCast_emod, Int.natCast_natAbs]
        rcases lt_or_ge a 0 with ha | ha
        · rw [abs_of_neg ha] at hc
          have hdm := Int.mul_ediv_add_emod (-a) d
          rw [← hc] at hdm
          by_cases hz : a.natAbs % d = 0
          · rw [if_neg (by tauto), hz]
            rw [hz] at hdm
            have : a = (d : Int) * (-(-a / d)) := by
              have : (d : Int) * (-(-a / d)) = -((d : Int) * (-a / d)) := by ring
              omega
            rw [this, Int.mul_emod_right]
            rfl
          · rw [if_pos ⟨ha, hz⟩]
            have : a = ((d : Int) - (a.natAbs % d : Nat)) + (d : Int) * (-(-a / d) - 1) := by
              have : (d : Int) * (-(-a / d) - 1) = -((d : Int) * (-a / d)) - d := by ring
              omega
            conv_rhs => rw [this]
            rw [Int.add_mul_emod_self_left, Int.emod_eq_of_lt (by omega) (by omega)]
            omega
        · rw [if_neg (by omega), hc, abs_of_nonneg ha]
      refine ⟨?_, key⟩
      rw [← key] at hlt
      exact_mod_cast hlt
    · rw [if_neg hm]
      unfold modulo
      rw [if_neg (by omega)]
      refine ⟨_, rfl, ?_⟩
      have hf : a.fmod d = a % d := Int.fmod_eq_emod_of_nonneg a hdp.le
      rw [hf]
      simp only
      rw [Nat.mod_eq_of_lt (by omega)]
      omega

/-- `Mod(mp_digit)` promises `0 <= c < b` with `c = a mod b`; that holds for
    non-negative numbers ... -/
theorem C89_mod_digit_partial (a : Int) (d : Nat) (hd : d ≠ 0) (ha : 0 ≤ a) :
    ∃ r, modDigit a d = some r ∧ r < d ∧ (r : Int) = a % d := by
  refine ⟨a.natAbs % d, by simp [modDigit, hd], Nat.mod_lt _ (Nat.pos_of_ne_zero hd), ?_⟩
  rw [Int.natCast_emod, Int.natCast_natAbs, abs_of_nonneg ha]

/-- ... and not for negative ones: `MPInt(-1).Mod(5)` is 1. -/
theorem C89_mod_digit_violated :
    modDigit (-1) 5 = some 1 ∧ (-1 : Int) % 5 = 4 ∧ modulo (-1) 5 = some 4 := by decide

example : divide (-7) 2 = some (-4) ∧ modulo (-7) 2 = some 1 ∧ divide 7 (-2) = some (-4) ∧
    divide (-7) (-2) = some 3 ∧ moduloWord 10 (-7) 5 = some 3 ∧ moduloWord 3 (-7) 5 = some 3 := by
  decide

/-! ### random numbers below a bound -/

/-- `MPInt::RandomLtN` (mp_int.cc L777-781): draw until below `n`.  `draws` are the values of
    the successive calls of `RandomExactBits(n.BitCount())`; `none`: still drawing. -/
def randomLtN (n : Int) : List Int → Option Int
  | [] => none
  | r :: rest => if r < 0 ∨ n ≤ r then randomLtN n rest else some r

/-- A result of `RandomLtN(n)` lies in `[0, n)`, and it is the first draw that does. -/
theorem C90_random_lt (n : Int) (draws : List Int) :
    (∀ r, randomLtN n draws = some r → 0 ≤ r ∧ r < n ∧
      ∃ pre post, draws = pre ++ r :: post ∧ ∀ x ∈ pre, ¬ (0 ≤ x ∧ x < n)) ∧
    ((∃ r ∈ draws, 0 ≤ r ∧ r < n) → (randomLtN n draws).isSome) ∧
    (n ≤ 0 → randomLtN n draws = none) := by
  induction draws with
  | nil => simp [randomLtN]
  | cons x xs ih =>
    obtain ⟨i1, i2, i3⟩ := ih
    unfold randomLtN
    by_cases h : x < 0 ∨ n ≤ x
    · rw [if_pos h]
      refine ⟨fun r hr => ?_, fun ⟨r, hr, hr2⟩ => ?_, i3⟩
      · obtain ⟨a, b, pre, post, e, hp⟩ := i1 r hr
        refine ⟨a, b, x :: pre, post, by rw [e]; rfl, ?_⟩
        intro y hy
        rcases List.mem_cons.1 hy with rfl | hy
        · omega
        · exact hp y hy
      · rcases List.mem_cons.1 hr with rfl | hr
        · omega
        · exact i2 ⟨r, hr, hr2⟩
    · rw [if_neg h]
      refine ⟨fun r hr => ?_, fun _ => rfl, fun hn => by omega⟩
      cases hr
      exact ⟨by omega, by omega, [], xs, rfl, by simp⟩

example : randomLtN 10 [12, 15, 7, 3] = some 7 := by decide

/-! ### safe primes -/

/-- `small_primes` (tommath_ext_features.cc L39-40). -/
def smallPrimes : List Nat := [3, 5, 7, 11, 13, 17, 19, 23, 29, 31, 37, 41, 43, 47, 53]

/-- `small_prime_prod` (tommath_ext_features.cc L43-53). -/
def smallPrimeProd : Nat := smallPrimes.foldr (· * ·) 1

/-- It fits the `uint64_t` it is computed in. -/
theorem smallPrimeProd_fits : smallPrimeProd < 2 ^ 64 := by decide

/-- `is_co_prime` (tommath_ext_features.cc L57-64). -/
def isCoPrime (num : Nat) : Bool := smallPrimes.all fun r => !(num ≠ r && num % r == 0)

/-- `is_prime_candidate` (tommath_ext_features.cc L66-72). -/
def isPrimeCandidate (p : Nat) : Bool := isCoPrime (p % smallPrimeProd)

/-- `is_pocklington_criterion_satisfied` (tommath_ext_features.cc L86-102). -/
def pocklington (p : Nat) : Bool := 2 ^ (p - 1) % p == 1

/-- The search over `delta` (tommath_ext_features.cc L187-212): the final `q` and `p`. -/
def search (m0 : Nat) : Nat → Nat → Nat → Nat → Nat → Nat × Nat
  | 0, _, _, q, p => (q, p)
  | fuel + 1, delta, last, q, p =>
      let m := m0 + delta
      if m % 3 = 1 then search m0 fuel (delta + 2) last q p
      else if !isCoPrime m then search m0 fuel (delta + 2) last q p
      else
        let q := if 0 < delta - last then q + (delta - last) else q
        let p := 2 * q + 1
        if isPrimeCandidate p then (q, p)
        else search m0 fuel (delta + 2) delta q p

/-- The first candidate of an attempt from the random bytes, big-endian
    (tommath_ext_features.cc L144-182). -/
def startBytes (qsize : Nat) (tmp : List Nat) : List Nat :=
  let bsize := (qsize + 7) >>> 3
  let maskAND := if qsize &&& 7 = 0 then 0xFF else 0xFF >>> (8 - (qsize &&& 7))
  let offset := if qsize &&& 7 = 1 then 1 else 0
  let maskOR := 0x80 >>> (((9 : Int) - qsize) % 8).toNat
  let tmp := tmp.set 0 (tmp.getD 0 0 &&& maskAND)
  let tmp := tmp.set 0 (tmp.getD 0 0 ||| 1 <<< ((qsize - 1) &&& 7))
  let tmp := tmp.set offset (tmp.getD offset 0 ||| maskOR)
  tmp.set (bsize - 1) (tmp.getD (bsize - 1) 0 ||| 3)

/-- Big-endian value (`mpx_from_mag_bytes`, see `C88_from_mag`). -/
def beValue (bs : List Nat) : Nat := Nat.ofDigits 256 bs.reverse

/-- `mpx_safe_prime_rand` (tommath_ext_features.cc L134-225).  `isPrime` is the answer of
    `mp_prime_is_prime`; the argument list holds the random bytes of each attempt,
    `p` the value left in `*p` so far; `none`: still searching. -/
def safePrimeRand (isPrime : Nat → Bool) (psize : Nat) : List (List Nat) → Nat → Option (Nat × Nat)
  | [], _ => none
  | tmp :: rest, p =>
      let q := beValue (startBytes (psize - 1) tmp)
      let r := search (q % smallPrimeProd) (2 ^ 19) 0 0 q p
      if !pocklington r.2 then safePrimeRand isPrime psize rest r.2
      else if isPrime r.1 then some (r.1, r.2)
      else safePrimeRand isPrime psize rest r.2

/-- Pocklington's criterion as the code uses it. -/
theorem pocklington_prime {q : Nat} (hq : q.Prime) (h3 : (2 * q + 1) % 3 ≠ 0)
    (h : pocklington (2 * q + 1) = true) : (2 * q + 1).Prime := by
  have hq2 := hq.two_le
  unfold pocklington at h
  rw [beq_iff_eq, Nat.add_sub_cancel] at h
  by_contra hnp
  have hne : 2 * q + 1 ≠ 1 := by omega
  have hr := Nat.minFac_prime hne
  have hdvd := Nat.minFac_dvd (2 * q + 1)
  have hsq : (2 * q + 1).minFac ^ 2 ≤ 2 * q + 1 := Nat.minFac_sq_le_self (by omega) hnp
  generalize (2 * q + 1).minFac = r at *
  haveI : Fact r.Prime := ⟨hr⟩
  have hpow : (2 : ZMod r) ^ (2 * q) = 1 := by
    have h1 : (2 ^ (2 * q) : Nat) ≡ 1 [MOD (2 * q + 1)] := by
      unfold Nat.ModEq
      rw [h, Nat.mod_eq_of_lt (by omega)]
    have h2 := h1.of_dvd hdvd
    have h3 := (ZMod.natCast_eq_natCast_iff _ _ _).2 h2
    push_cast at h3
    exact h3
  have hr2 : r ≠ 2 := by
    rintro rfl
    have : (2 * q + 1) % 2 = 0 := Nat.mod_eq_zero_of_dvd hdvd
    omega
  have hr3 : r ≠ 3 := by
    rintro rfl
    exact h3 (Nat.mod_eq_zero_of_dvd hdvd)
  have h20 : (2 : ZMod r) ≠ 0 := by
    intro h0
    have : ((2 : Nat) : ZMod r) = 0 := by exact_mod_cast h0
    rw [ZMod.natCast_eq_zero_iff] at this
    have := Nat.le_of_dvd (by norm_num) this
    have := hr.two_le
    omega
  have hord : orderOf (2 : ZMod r) ∣ 2 * q := orderOf_dvd_of_pow_eq_one hpow
  have hordr : orderOf (2 : ZMod r) ∣ r - 1 := orderOf_dvd_of_pow_eq_one (ZMod.pow_card_sub_one_eq_one h20)
  have hqo : q ∣ orderOf (2 : ZMod r) := by
    by_contra hno
    have hcop : Nat.Coprime (orderOf (2 : ZMod r)) q :=
      ((Nat.Prime.coprime_iff_not_dvd hq).2 hno).symm
    have h2 : orderOf (2 : ZMod r) ∣ 2 := hcop.dvd_of_dvd_mul_right hord
    have h4 : (2 : ZMod r) ^ 2 = 1 := orderOf_dvd_iff_pow_eq_one.1 h2
    have h3' : ((3 : Nat) : ZMod r) = 0 := by
      have : (3 : ZMod r) = 2 ^ 2 - 1 := by ring
      push_cast
      rw [this, h4, sub_self]
    rw [ZMod.natCast_eq_zero_iff] at h3'
    have := (Nat.prime_dvd_prime_iff_eq hr Nat.prime_three).1 h3'
    exact hr3 this
  have hle : q ≤ r - 1 := Nat.le_of_dvd (by have := hr.two_le; omega) (hqo.trans hordr)
  have h1 : q + 1 ≤ r := by have := hr.two_le; omega
  have h2 : (q + 1) ^ 2 ≤ r ^ 2 := Nat.pow_le_pow_left h1 2
  have h5 : (q + 1) ^ 2 = q * q + (2 * q + 1) := by ring
  have h6 : 0 < q * q := Nat.mul_pos (by omega) (by omega)
  omega

/-! #### some `delta` always passes the filter -/

theorem residues_ok : ∀ x, x < 1155 → ∃ k, k < 40 ∧ (x + 2 * k) % 3 = 2 ∧ (x + 2 * k) % 5 ≠ 0 ∧
    (x + 2 * k) % 7 ≠ 0 ∧ (x + 2 * k) % 11 ≠ 0 := by
  have : ∀ x, x < 1155 → ((List.range 40).any fun k => (x + 2 * k) % 3 == 2 && (x + 2 * k) % 5 != 0
      && (x + 2 * k) % 7 != 0 && (x + 2 * k) % 11 != 0) = true := by decide +kernel
  intro x hx
  obtain ⟨k, hk, h⟩ := List.any_eq_true.1 (this x hx)
  simp only [Bool.and_eq_true, beq_iff_eq, bne_iff_ne] at h
  exact ⟨k, List.mem_range.1 hk, h.1.1.1, h.1.1.2, h.1.2, h.2⟩

theorem count_bad (x r N : Nat) (hr : Nat.Coprime 2310 r) (hr0 : 0 < r) :
    ((Finset.range N).filter fun j => (x + 2310 * j) % r = 0).card ≤ N / r + 1 := by
  by_cases hne : ((Finset.range N).filter fun j => (x + 2310 * j) % r = 0) = ∅
  · rw [hne]; simp
  · obtain ⟨j0, hj0⟩ := Finset.nonempty_iff_ne_empty.2 hne
    rw [Finset.mem_filter] at hj0
    have hsub : ((Finset.range N).filter fun j => (x + 2310 * j) % r = 0)
        ⊆ (Finset.range (N / r + 1)).image fun i => j0 % r + r * i := by
      intro j hj
      rw [Finset.mem_filter, Finset.mem_range] at hj
      rw [Finset.mem_image]
      refine ⟨j / r, ?_, ?_⟩
      · rw [Finset.mem_range]
        exact Nat.lt_succ_of_le (Nat.div_le_div_right hj.1.le)
      · have hmod : j ≡ j0 [MOD r] := by
          have h1 : x + 2310 * j ≡ x + 2310 * j0 [MOD r] := by
            unfold Nat.ModEq; rw [hj.2, hj0.2]
          have h2 := Nat.ModEq.add_left_cancel' x h1
          exact Nat.ModEq.cancel_left_of_coprime hr.symm h2
        have := Nat.mod_add_div j r
        rw [← hmod]
        exact this
    exact Nat.le_trans (Finset.card_le_card hsub) (Nat.le_trans Finset.card_image_le (by simp))

/-- The primes above 11 among the small ones. -/
def upper : List Nat := [13, 17, 19, 23, 29, 31, 37, 41, 43, 47, 53]

theorem upper_coprime : ∀ r ∈ upper, Nat.Coprime 2310 r := by decide
theorem upper_pos : ∀ r ∈ upper, 0 < r := by decide
theorem upper_sum : ∑ r ∈ upper.toFinset, (450 / r + 1) = 191 := by decide +kernel
theorem small_split : ∀ r ∈ smallPrimes, r ∈ upper ∨ r = 3 ∨ r = 5 ∨ r = 7 ∨ r = 11 := by decide

theorem exists_upper (x : Nat) : ∃ j, j < 450 ∧ ∀ r ∈ upper, (x + 2310 * j) % r ≠ 0 := by
  by_contra hno
  push Not at hno
  have hcover : Finset.range 450 ⊆ upper.toFinset.biUnion fun r =>
      (Finset.range 450).filter fun j => (x + 2310 * j) % r = 0 := by
    intro j hj
    obtain ⟨r, hr, h0⟩ := hno j (Finset.mem_range.1 hj)
    rw [Finset.mem_biUnion]
    exact ⟨r, List.mem_toFinset.2 hr, Finset.mem_filter.2 ⟨hj, h0⟩⟩
  have h1 := Finset.card_le_card hcover
  have h2 : (upper.toFinset.biUnion fun r =>
      (Finset.range 450).filter fun j => (x + 2310 * j) % r = 0).card
      ≤ ∑ r ∈ upper.toFinset, (450 / r + 1) := by
    refine Nat.le_trans Finset.card_biUnion_le (Finset.sum_le_sum fun r hr => ?_)
    have hmem := List.mem_toFinset.1 hr
    exact count_bad _ r 450 (upper_coprime r hmem) (upper_pos r hmem)
  rw [upper_sum] at h2
  rw [Finset.card_range] at h1
  omega

/-- Among the deltas tried there is one whose candidate passes both filters. -/
theorem exists_delta (m0 : Nat) : ∃ k, k < 2 ^ 19 ∧ (m0 + 2 * k) % 3 ≠ 1 ∧
    isCoPrime (m0 + 2 * k) = true := by
  obtain ⟨k0, hk0, h3, h5, h7, h11⟩ := residues_ok (m0 % 1155) (Nat.mod_lt _ (by decide))
  obtain ⟨j, hj, hgood⟩ := exists_upper (m0 + 2 * k0)
  have hlow : (m0 + 2 * (k0 + 1155 * j)) % 3 = 2 ∧ (m0 + 2 * (k0 + 1155 * j)) % 5 ≠ 0 ∧
      (m0 + 2 * (k0 + 1155 * j)) % 7 ≠ 0 ∧ (m0 + 2 * (k0 + 1155 * j)) % 11 ≠ 0 := by
    clear hgood
    refine ⟨by omega, by omega, by omega, by omega⟩
  have hshape : m0 + 2 * (k0 + 1155 * j) = m0 + 2 * k0 + 2310 * j := by ring
  refine ⟨k0 + 1155 * j, by norm_num; omega, by rw [hlow.1]; decide, ?_⟩
  unfold isCoPrime
  rw [List.all_eq_true]
  intro r hr
  have hnz : (m0 + 2 * (k0 + 1155 * j)) % r ≠ 0 := by
    rcases small_split r hr with h | h | h | h | h
    · rw [hshape]; exact hgood r h
    · rw [h, hlow.1]; decide
    · rw [h]; exact hlow.2.1
    · rw [h]; exact hlow.2.2.1
    · rw [h]; exact hlow.2.2.2
  simp [hnz]

/-- What the search over `delta` delivers. -/
theorem search_spec (m0 : Nat) :
    ∀ (fuel delta last q p q0 : Nat), last ≤ delta → q = q0 + last →
      q0 % 3 = m0 % 3 →
      (p = 2 * q + 1 ∧ p % 3 ≠ 0 ∨
        ∃ k, k < fuel ∧ (m0 + (delta + 2 * k)) % 3 ≠ 1 ∧ isCoPrime (m0 + (delta + 2 * k)) = true) →
      (search m0 fuel delta last q p).2 = 2 * (search m0 fuel delta last q p).1 + 1 ∧
      (search m0 fuel delta last q p).2 % 3 ≠ 0 ∧
      q0 ≤ (search m0 fuel delta last q p).1 ∧
      (search m0 fuel delta last q p).1 ≤ max q (q0 + delta + 2 * fuel) := by
  intro fuel
  induction fuel with
  | zero =>
    intro delta last q p q0 hl hq hm hex
    rcases hex with ⟨h1, h2⟩ | ⟨k, hk, _⟩
    · exact ⟨h1, h2, by simp [search]; omega, by simp [search]⟩
    · omega
  | succ fuel ih =>
    intro delta last q p q0 hl hq hm hex
    have hskip : ((m0 + delta) % 3 = 1 ∨ isCoPrime (m0 + delta) = false) →
        (p = 2 * q + 1 ∧ p % 3 ≠ 0 ∨ ∃ k, k < fuel ∧ (m0 + (delta + 2 + 2 * k)) % 3 ≠ 1 ∧
          isCoPrime (m0 + (delta + 2 + 2 * k)) = true) := by
      intro hbad
      rcases hex with h | ⟨k, hk, h1, h2⟩
      · exact Or.inl h
      · right
        rcases k with _ | k
        · simp only [Nat.mul_zero, Nat.add_zero] at h1 h2
          rcases hbad with h | h
          · exact absurd h h1
          · rw [h] at h2; cases h2
        · refine ⟨k, by omega, ?_, ?_⟩
          · rw [show delta + 2 + 2 * k = delta + 2 * (k + 1) by ring]; exact h1
          · rw [show delta + 2 + 2 * k = delta + 2 * (k + 1) by ring]; exact h2
    unfold search
    simp only
    by_cases h3 : (m0 + delta) % 3 = 1
    · rw [if_pos h3]
      have := ih (delta + 2) last q p q0 (by omega) hq hm (hskip (Or.inl h3))
      exact ⟨this.1, this.2.1, this.2.2.1, by omega⟩
    · rw [if_neg h3]
      cases hc : isCoPrime (m0 + delta)
      · rw [if_pos (by rfl)]
        have := ih (delta + 2) last q p q0 (by omega) hq hm (hskip (Or.inr hc))
        exact ⟨this.1, this.2.1, this.2.2.1, by omega⟩
      · rw [if_neg (by simp)]
        have hqn : (if 0 < delta - last then q + (delta - last) else q) = q0 + delta := by
          split <;> omega
        rw [hqn]
        have hp3 : (2 * (q0 + delta) + 1) % 3 ≠ 0 := by omega
        by_cases hcand : isPrimeCandidate (2 * (q0 + delta) + 1) = true
        · rw [if_pos hcand]
          exact ⟨rfl, hp3, by simp, by simp only; omega⟩
        · rw [if_neg hcand]
          have := ih (delta + 2) delta (q0 + delta) (2 * (q0 + delta) + 1) q0 (by omega) rfl hm
            (Or.inl ⟨rfl, hp3⟩)
          exact ⟨this.1, this.2.1, this.2.2.1, by omega⟩

/-! #### the first candidate -/

theorem ofDigits_getLast_bounds (l : List Nat) (x : Nat) :
    Nat.ofDigits 256 (l ++ [x]) = Nat.ofDigits 256 l + 256 ^ l.length * x := by
  rw [Nat.ofDigits_append, Nat.ofDigits_singleton]

theorem beValue_cons (x : Nat) (l : List Nat) : beValue (x :: l) = x * 256 ^ l.length + beValue l := by
  unfold beValue
  rw [List.reverse_cons, Nat.ofDigits_append, Nat.ofDigits_singleton, List.length_reverse]
  ring

theorem beValue_concat (l : List Nat) (z : Nat) : beValue (l ++ [z]) = 2 ^ 8 * beValue l + z := by
  unfold beValue
  rw [List.reverse_append, List.reverse_singleton, List.singleton_append, Nat.ofDigits_cons]
  norm_num
  ring

theorem beValue_lt (l : List Nat) (h : ∀ b ∈ l, b < 256) : beValue l < 256 ^ l.length := by
  unfold beValue
  rw [← List.length_reverse]
  exact Nat.ofDigits_lt_base_pow_length (by norm_num) (fun x hx => h x (List.mem_reverse.1 hx))

/-- Setting the two low bits of the last byte. -/
theorem beValue_last (l : List Nat) (hne : l ≠ []) (h : ∀ b ∈ l, b < 256) :
    beValue (l.set (l.length - 1) (l.getD (l.length - 1) 0 ||| 3)) = beValue l ||| 3 := by
  obtain ⟨i, z, rfl⟩ : ∃ i z, l = i ++ [z] := ⟨l.dropLast, l.getLast hne, (List.dropLast_append_getLast hne).symm⟩
  have hz : z < 2 ^ 8 := h z (by simp)
  have hl : (i ++ [z]).length - 1 = i.length := by simp
  rw [hl]
  have h1 : (i ++ [z]).getD i.length 0 = z := by simp
  have h2 : (i ++ [z]).set i.length (z ||| 3) = i ++ [z ||| 3] := by simp
  rw [h1, h2, beValue_concat, beValue_concat, Nat.two_pow_add_eq_or_of_lt hz,
    Nat.two_pow_add_eq_or_of_lt (Nat.or_lt_two_pow hz (by norm_num)), Nat.or_assoc]

/-- The top byte: exactly `w` bits, the two highest ones set. -/
def topByte (w b : Nat) : Nat :=
  ((b &&& (if w % 8 = 0 then 0xFF else 0xFF >>> (8 - w % 8))) ||| 1 <<< ((w - 1) % 8)) |||
    (if w % 8 = 1 then 0 else 0x80 >>> ((9 - w) % 8))

theorem topByte_spec : ∀ w, w < 9 → 2 ≤ w → ∀ b, b < 256 →
    3 * 2 ^ (w - 2) ≤ topByte w b ∧ topByte w b < 2 ^ w := by decide +kernel

theorem topByte_one : ∀ b, b < 256 → topByte 1 b = 1 := by decide +kernel

theorem or_128 : ∀ b, b < 256 → 128 ≤ b ||| 128 ∧ b ||| 128 < 256 := by decide +kernel

/-- The first candidate has exactly `qsize` bits, the two highest ones set, and is
    3 modulo 4. -/
theorem start_spec (qsize : Nat) (h2 : 2 ≤ qsize) (tmp : List Nat)
    (hlen : tmp.length = (qsize + 7) >>> 3) (hb : ∀ b ∈ tmp, b < 256) :
    3 * 2 ^ (qsize - 2) ≤ beValue (startBytes qsize tmp) ∧
    beValue (startBytes qsize tmp) < 2 ^ qsize ∧ beValue (startBytes qsize tmp) % 4 = 3 := by
  rw [Nat.shiftRight_eq_div_pow] at hlen
  obtain ⟨k, w, hw1, hw8, hq⟩ : ∃ k w, 1 ≤ w ∧ w ≤ 8 ∧ qsize = 8 * k + w :=
    ⟨(qsize - 1) / 8, (qsize - 1) % 8 + 1, by omega, by omega, by omega⟩
  have hlen' : tmp.length = k + 1 := by rw [hlen]; norm_num; omega
  -- the list before the last byte is adjusted
  have hpre : ∃ l : List Nat, l.length = k + 1 ∧ (∀ b ∈ l, b < 256) ∧
      startBytes qsize tmp = l.set (l.length - 1) (l.getD (l.length - 1) 0 ||| 3) ∧
      3 * 2 ^ (qsize - 2) ≤ beValue l ∧ beValue l < 2 ^ qsize := by
    obtain ⟨b0, rest, rfl⟩ : ∃ b0 rest, tmp = b0 :: rest := by
      cases tmp with
      | nil => simp at hlen'
      | cons x xs => exact ⟨x, xs, rfl⟩
    have hrl : rest.length = k := by simpa using hlen'
    have hb0 : b0 < 256 := hb b0 (by simp)
    have hrest : ∀ b ∈ rest, b < 256 := fun b h => hb b (by simp [h])
    have hand : qsize &&& 7 = w % 8 := by
      rw [show (7 : Nat) = 2 ^ 3 - 1 by norm_num, Nat.and_two_pow_sub_one_eq_mod]
      norm_num; omega
    have hand1 : (qsize - 1) &&& 7 = (w - 1) % 8 := by
      rw [show (7 : Nat) = 2 ^ 3 - 1 by norm_num, Nat.and_two_pow_sub_one_eq_mod]
      norm_num; omega
    have hor : (((9 : Int) - qsize) % 8).toNat = (9 - w) % 8 := by omega
    have hbs : (qsize + 7) >>> 3 = k + 1 := by rw [Nat.shiftRight_eq_div_pow]; norm_num; omega
    have hv := beValue_lt rest hrest
    rw [hrl] at hv
    have hpk : (256 : Nat) ^ k = 2 ^ (8 * k) := by rw [pow_mul]; norm_num
    by_cases hw : w = 1
    · subst hw
      obtain ⟨b1, r2, rfl⟩ : ∃ b1 r2, rest = b1 :: r2 := by
        cases rest with
        | nil => simp at hrl; omega
        | cons x xs => exact ⟨x, xs, rfl⟩
      have hb1 : b1 < 256 := hrest b1 (by simp)
      have h128 := or_128 b1 hb1
      have ht : (b0 &&& 255 >>> 7) ||| 1 <<< 0 = 1 := by
        have := topByte_one b0 hb0
        simpa [topByte] using this
      refine ⟨1 :: (b1 ||| 128) :: r2, by simpa using hrl, ?_, ?_, ?_⟩
      · intro b hbm
        rcases List.mem_cons.1 hbm with rfl | hbm
        · norm_num
        · rcases List.mem_cons.1 hbm with rfl | hbm
          · exact h128.2
          · exact hrest b (by simp [hbm])
      · unfold startBytes
        simp only [hand, hand1, hor, hbs]
        have hk : r2.length + 1 = k := by simpa using hrl
        have e2 : (r2.length + 1 + 1 - 1) = k := by omega
        have e3 : k + 1 - 1 = k := rfl
        subst hk
        norm_num
        exact ht
      · have hk : r2.length + 1 = k := by simpa using hrl
        have hv2 := beValue_lt r2 (fun b h => hrest b (by simp [h]))
        rw [beValue_cons, beValue_cons, List.length_cons]
        have e1 : qsize - 2 = 8 * r2.length + 7 := by omega
        have e2 : qsize = 8 * r2.length + 9 := by omega
        have e3 : 2 ^ (8 * r2.length + 7) = 256 ^ r2.length * 128 := by
          rw [pow_add, pow_mul]; norm_num
        have e4 : 2 ^ (8 * r2.length + 9) = 256 ^ r2.length * 512 := by
          rw [pow_add, pow_mul]; norm_num
        have e5 : 256 ^ (r2.length + 1) = 256 ^ r2.length * 256 := pow_succ _ _
        rw [e1, e2, e3, e4, e5]
        clear hpk hv
        generalize 256 ^ r2.length = P at *
        have h3 : 128 * P ≤ (b1 ||| 128) * P := Nat.mul_le_mul_right _ h128.1
        have h4 : (b1 ||| 128) * P ≤ 255 * P := Nat.mul_le_mul_right _ (by omega)
        omega
    · have hts := topByte_spec w (by omega) (by omega) b0 hb0
      have hw8' : ¬ w % 8 = 1 := by omega
      have htop : ((b0 &&& (if w % 8 = 0 then 0xFF else 0xFF >>> (8 - w % 8)))
          ||| 1 <<< ((w - 1) % 8)) ||| 0x80 >>> ((9 - w) % 8) = topByte w b0 := by
        unfold topByte
        rw [if_neg hw8']
      have hlt256 : topByte w b0 < 256 :=
        Nat.lt_of_lt_of_le hts.2 (Nat.pow_le_pow_right (by norm_num) hw8 : 2 ^ w ≤ 2 ^ 8)
      refine ⟨topByte w b0 :: rest, by simpa using hrl, ?_, ?_, ?_⟩
      · intro b hbm
        rcases List.mem_cons.1 hbm with rfl | hbm
        · exact hlt256
        · exact hrest b hbm
      · unfold startBytes
        simp only [hand, hand1, hor, hbs, if_neg hw8']
        rw [← htop]
        simp [hrl]
      · rw [beValue_cons, hrl]
        have e1 : qsize - 2 = (w - 2) + 8 * k := by omega
        have e2 : qsize = w + 8 * k := by omega
        rw [e1, e2, pow_add, pow_add, ← hpk]
        constructor
        · calc 3 * (2 ^ (w - 2) * 256 ^ k) = (3 * 2 ^ (w - 2)) * 256 ^ k := by ring
            _ ≤ topByte w b0 * 256 ^ k := Nat.mul_le_mul_right _ hts.1
            _ ≤ _ := Nat.le_add_right _ _
        · calc topByte w b0 * 256 ^ k + beValue rest < topByte w b0 * 256 ^ k + 256 ^ k := by omega
            _ = (topByte w b0 + 1) * 256 ^ k := by ring
            _ ≤ 2 ^ w * 256 ^ k := Nat.mul_le_mul_right _ hts.2
  obtain ⟨l, hl1, hl2, hl3, hl4, hl5⟩ := hpre
  have hne : l ≠ [] := by rintro rfl; simp at hl1
  rw [hl3, beValue_last l hne hl2]
  refine ⟨Nat.le_trans hl4 Nat.left_le_or, Nat.or_lt_two_pow hl5 ?_, ?_⟩
  · calc 3 < 2 ^ 2 := by norm_num
      _ ≤ 2 ^ qsize := Nat.pow_le_pow_right (by norm_num) h2
  · have := Nat.or_mod_two_pow (a := beValue l) (b := 3) (n := 2)
    norm_num at this
    rw [this]
    have h4 : beValue l % 4 < 4 := Nat.mod_lt _ (by norm_num)
    generalize beValue l % 4 = y at *
    interval_cases y <;> rfl

/-! #### the result -/

/-- C90: whenever `RandPrimeOver(FastSafe)` returns `p`, and the primality test answered
    truthfully for `(p - 1) / 2`, then `p` and `(p - 1) / 2` are both prime, and `p` has at
    least the requested number of bits.  For every sequence of random bytes. -/
theorem C90_safe_prime (isPrime : Nat → Bool) (htest : ∀ n, isPrime n = true → n.Prime)
    (psize : Nat) (hsize : 3 ≤ psize) (attempts : List (List Nat))
    (hatt : ∀ t ∈ attempts, t.length = (psize - 1 + 7) >>> 3 ∧ ∀ b ∈ t, b < 256)
    (p0 q p : Nat) (h : safePrimeRand isPrime psize attempts p0 = some (q, p)) :
    p.Prime ∧ q.Prime ∧ p = 2 * q + 1 ∧ 3 * 2 ^ (psize - 2) < p ∧ p < 2 ^ psize + 2 ^ 21 := by
  induction attempts generalizing p0 with
  | nil => simp [safePrimeRand] at h
  | cons t rest ih =>
    obtain ⟨ht1, ht2⟩ := hatt t (by simp)
    have hs := start_spec (psize - 1) (by omega) t ht1 ht2
    unfold safePrimeRand at h
    simp only at h
    generalize beValue (startBytes (psize - 1) t) = v at *
    have hmod : v % 3 = v % smallPrimeProd % 3 :=
      (Nat.mod_mod_of_dvd v (by decide : 3 ∣ smallPrimeProd)).symm
    obtain ⟨k, hk, hk1, hk2⟩ := exists_delta (v % smallPrimeProd)
    have hsp := search_spec (v % smallPrimeProd) (2 ^ 19) 0 0 v p0 v (Nat.le_refl 0) rfl hmod
      (Or.inr ⟨k, hk, by rw [Nat.zero_add]; exact hk1, by rw [Nat.zero_add]; exact hk2⟩)
    generalize search (v % smallPrimeProd) (2 ^ 19) 0 0 v p0 = r at *
    obtain ⟨hp, h3, hlo, hhi⟩ := hsp
    cases hpk : pocklington r.2
    · rw [hpk, if_pos (by rfl)] at h
      exact ih (fun t ht => hatt t (by simp [ht])) r.2 h
    · rw [hpk, if_neg (by simp)] at h
      cases hip : isPrime r.1
      · rw [hip, if_neg (by simp)] at h
        exact ih (fun t ht => hatt t (by simp [ht])) r.2 h
      · rw [hip, if_pos rfl] at h
        cases h
        have hq := htest _ hip
        rw [hp] at hpk h3
        refine ⟨by rw [hp]; exact pocklington_prime hq h3 hpk, hq, hp, ?_, ?_⟩
        · have e : psize - 2 = psize - 1 - 2 + 1 := by omega
          rw [e, pow_succ]
          generalize 2 ^ (psize - 1 - 2) = P at *
          omega
        · have e : 2 ^ psize = 2 * 2 ^ (psize - 1) := by rw [← pow_succ']; congr 1; omega
          rw [e]
          have hs2 := hs.2.1
          generalize 2 ^ (psize - 1) = P at *
          norm_num at *
          omega

/-- No wrap-around in the `uint64_t` arithmetic of the search. -/
theorem C90_no_wrap (q delta : Nat) (h : delta < 2 ^ 20) : q % smallPrimeProd + delta < 2 ^ 64 := by
  have h1 : q % smallPrimeProd < smallPrimeProd := Nat.mod_lt _ (by decide)
  have h2 : smallPrimeProd + 2 ^ 20 < 2 ^ 64 := by decide
  omega

end Yacl.MPInt.Arith
