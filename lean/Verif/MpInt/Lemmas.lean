/-
Helper lemmas for `Verif.MpInt.Props`.
-/
import Verif.MpInt.Model
import Mathlib.Data.Nat.Digits.Lemmas
import Mathlib.Data.Nat.Size
import Mathlib.Data.List.GetD
import Mathlib.Tactic.Ring
import Mathlib.Tactic.Linarith

namespace Yacl.MPInt

/-! ### counting bits -/

theorem testBit_spread (w v m : Nat)
    (h : ∀ i, w.testBit i = true ↔ ∃ j < m, v.testBit (i + j) = true) :
    ∀ i, (w ||| w >>> m).testBit i = true ↔ ∃ j < m + m, v.testBit (i + j) = true := by
  intro i
  rw [Nat.testBit_or, Bool.or_eq_true, Nat.testBit_shiftRight, h, h]
  constructor
  · rintro (⟨j, hj, hb⟩ | ⟨j, hj, hb⟩)
    · exact ⟨j, by omega, hb⟩
    · exact ⟨m + j, by omega, by rw [show i + (m + j) = m + i + j by omega]; exact hb⟩
  · rintro ⟨j, hj, hb⟩
    by_cases hm : j < m
    · exact Or.inl ⟨j, hm, hb⟩
    · exact Or.inr ⟨j - m, by omega, by rw [show m + i + (j - m) = i + j by omega]; exact hb⟩

theorem testBit_smear (v i : Nat) :
    (smear v).testBit i = true ↔ ∃ j < 64, v.testBit (i + j) = true := by
  have h0 : ∀ i, (v).testBit i = true ↔ ∃ j < 1, v.testBit (i + j) = true := by
    intro i
    constructor
    · intro h
      exact ⟨0, by omega, h⟩
    · rintro ⟨j, hj, hb⟩
      obtain rfl : j = 0 := by omega
      exact hb
  have h1 := testBit_spread _ v 1 h0
  have h2 := testBit_spread _ v 2 h1
  have h3 := testBit_spread _ v 4 h2
  have h4 := testBit_spread _ v 8 h3
  have h5 := testBit_spread _ v 16 h4
  have h6 := testBit_spread _ v 32 h5
  exact h6 i

theorem smear_eq (v : Nat) (hv : v < 2 ^ 64) : smear v = 2 ^ v.size - 1 := by
  apply Nat.eq_of_testBit_eq
  intro i
  rw [Nat.testBit_two_pow_sub_one]
  rw [Bool.eq_iff_iff, testBit_smear, decide_eq_true_iff, Nat.lt_size]
  constructor
  · rintro ⟨j, _, hb⟩
    have h1 := Nat.ge_two_pow_of_testBit hb
    exact Nat.le_trans (Nat.pow_le_pow_right (by decide) (by omega)) h1
  · intro h
    have hne : v ≠ 0 := by
      have := Nat.two_pow_pos i
      omega
    have h1 : v.testBit (v.log2) = true := Nat.testBit_log2 hne
    have h2 : i ≤ v.log2 := (Nat.le_log2 hne).2 h
    have h3 : v.log2 < 64 := (Nat.log2_lt hne).2 hv
    exact ⟨v.log2 - i, by omega, by rw [show i + (v.log2 - i) = v.log2 by omega]; exact h1⟩

theorem table_ok : ∀ k, k < 65 →
    bitPatternToLog2.getD (((2 ^ k - 1) * 0x6c04f118e9966f6b % 2 ^ 64) >>> 57) 0 = (k : Int) := by
  decide +kernel

theorem countBitsWord_eq (v : Nat) (hv : v < 2 ^ 64) : countBitsWord v = (v.size : Int) := by
  unfold countBitsWord
  rw [smear_eq v hv]
  exact table_ok v.size (by have := Nat.size_le.2 hv; omega)

/-! ### well-formed numbers and their value -/

/-- What libtommath maintains for every number: digits in range, no leading zero
    digit, zeros above `used`, zero is not negative. -/
structure Ok (D : Nat) (a : Mp) : Prop where
  used_le : a.used ≤ a.dp.length
  lt : ∀ d ∈ a.dp, d < 2 ^ D
  tail : ∀ i, a.used ≤ i → a.dp.getD i 0 = 0
  top : 0 < a.used → a.dp.getD (a.used - 1) 0 ≠ 0
  sign : a.neg = true → 0 < a.used

/-- The digit width libtommath is built with: 60 bits for 64-bit words.  The code
    itself only requires a multiple of four. -/
structure Digit (D : Nat) : Prop where
  mul4 : D % 4 = 0
  lo : 8 ≤ D
  hi : D ≤ 60

def mag (D : Nat) (a : Mp) : Nat := Nat.ofDigits (2 ^ D) (a.dp.take a.used)

/-- The integer an `mp_int` stands for. -/
def toInt (D : Nat) (a : Mp) : Int := if a.neg then -(mag D a : Int) else mag D a

theorem one_lt_base {D : Nat} (hD : Digit D) : 1 < 2 ^ D :=
  Nat.one_lt_two_pow (by have := hD.lo; omega)

theorem getD_lt {D : Nat} {l : List Nat} (h : ∀ d ∈ l, d < 2 ^ D) (i : Nat) : l.getD i 0 < 2 ^ D := by
  by_cases hi : i < l.length
  · rw [List.getD_eq_getElem _ _ hi]
    exact h _ (List.getElem_mem hi)
  · rw [List.getD_eq_default _ _ (by omega)]
    exact Nat.two_pow_pos D

theorem ofDigits_take_all (b : Nat) (l : List Nat) (u : Nat)
    (h : ∀ i, u ≤ i → l.getD i 0 = 0) :
    Nat.ofDigits b (l.take u) = Nat.ofDigits b l := by
  induction l generalizing u with
  | nil => simp
  | cons d l ih =>
    cases u with
    | zero =>
      have hd : d = 0 := by simpa using h 0 (by omega)
      have := ih 0 (fun i hi => by simpa using h (i + 1) (by omega))
      simp only [List.take_zero, Nat.ofDigits_nil] at this ⊢
      rw [Nat.ofDigits_cons, hd, ← this]
      simp
    | succ u =>
      rw [List.take_succ_cons, Nat.ofDigits_cons, Nat.ofDigits_cons,
        ih u (fun i hi => by simpa using h (i + 1) (by omega))]

theorem mag_eq_all {D : Nat} {a : Mp} (h : Ok D a) : mag D a = Nat.ofDigits (2 ^ D) a.dp :=
  ofDigits_take_all _ _ _ h.tail

/-- The digits of a list of digits, even with leading zeros. -/
theorem getD_ofDigits {b : Nat} (hb : 1 < b) (l : List Nat) (h : ∀ d ∈ l, d < b) (i : Nat) :
    l.getD i 0 = Nat.ofDigits b l / b ^ i % b := by
  induction l generalizing i with
  | nil => simp
  | cons d l ih =>
    have hd : d < b := h d (by simp)
    cases i with
    | zero =>
      rw [Nat.ofDigits_cons]
      simp only [List.getD_cons_zero, pow_zero, Nat.div_one]
      rw [Nat.add_mul_mod_self_left, Nat.mod_eq_of_lt hd]
    | succ i =>
      rw [Nat.ofDigits_cons, List.getD_cons_succ, ih (fun x hx => h x (by simp [hx])) i]
      congr 1
      rw [pow_succ, Nat.mul_comm (b ^ i) b, ← Nat.div_div_eq_div_mul, Nat.add_mul_div_left _ _ (by omega),
        Nat.div_eq_of_lt hd, Nat.zero_add]

theorem dp_getD {D : Nat} (hD : Digit D) {a : Mp} (h : Ok D a) (i : Nat) :
    a.dp.getD i 0 = mag D a / (2 ^ D) ^ i % 2 ^ D := by
  rw [mag_eq_all h]
  exact getD_ofDigits (one_lt_base hD) _ h.lt i

theorem getLast_take {D : Nat} {a : Mp} (h : Ok D a) (hne : a.dp.take a.used ≠ []) :
    (a.dp.take a.used).getLast hne = a.dp.getD (a.used - 1) 0 := by
  have h1 := h.used_le
  have hu : 0 < a.used := by
    rcases Nat.eq_zero_or_pos a.used with h0 | h0
    · simp [h0] at hne
    · exact h0
  rw [List.getLast_eq_getElem, List.getD_eq_getElem _ _ (by omega)]
  simp only [List.length_take, List.getElem_take]
  congr 1
  omega

theorem digits_eq {D : Nat} (hD : Digit D) {a : Mp} (h : Ok D a) :
    a.dp.take a.used = Nat.digits (2 ^ D) (mag D a) := by
  refine (Nat.digits_ofDigits _ (one_lt_base hD) _ ?_ ?_).symm
  · intro d hd
    exact h.lt d (List.mem_of_mem_take hd)
  · intro hne
    rw [getLast_take h hne]
    apply h.top
    rcases Nat.eq_zero_or_pos a.used with h0 | h0
    · simp [h0] at hne
    · exact h0

theorem used_eq {D : Nat} (hD : Digit D) {a : Mp} (h : Ok D a) :
    a.used = (Nat.digits (2 ^ D) (mag D a)).length := by
  rw [← digits_eq hD h, List.length_take, Nat.min_eq_left h.used_le]

theorem used_zero_iff {D : Nat} (hD : Digit D) {a : Mp} (h : Ok D a) :
    a.used = 0 ↔ mag D a = 0 := by
  rw [used_eq hD h, List.length_eq_zero_iff, Nat.digits_eq_nil_iff_eq_zero]

theorem mag_lt {D : Nat} (hD : Digit D) {a : Mp} (h : Ok D a) : mag D a < 2 ^ (D * a.used) := by
  rw [pow_mul, used_eq hD h]
  exact Nat.lt_base_pow_length_digits (one_lt_base hD)

theorem mag_ge {D : Nat} (hD : Digit D) {a : Mp} (h : Ok D a) (hu : 0 < a.used) :
    2 ^ (D * (a.used - 1)) ≤ mag D a := by
  have h1 : ¬ (Nat.digits (2 ^ D) (mag D a)).length ≤ a.used - 1 := by
    rw [← used_eq hD h]; omega
  rw [Nat.digits_length_le_iff (one_lt_base hD)] at h1
  rw [pow_mul]
  omega

/-- The number of bits of the magnitude. -/
theorem countBits_eq {D : Nat} (hD : Digit D) {a : Mp} (h : Ok D a) :
    countBits D a = ((mag D a).size : Int) := by
  unfold countBits
  by_cases hu : a.used = 0
  · rw [if_pos hu, (used_zero_iff hD h).1 hu]
    rfl
  · rw [if_neg hu]
    have hup : 0 < a.used := by omega
    have hd := dp_getD hD h (a.used - 1)
    have hlt := getD_lt h.lt (a.used - 1)
    have htop := h.top hup
    generalize a.dp.getD (a.used - 1) 0 = d at *
    have hM := mag_lt hD h
    have hD1 := hD.hi
    rw [countBitsWord_eq d (Nat.lt_of_lt_of_le hlt (Nat.pow_le_pow_right (by decide) (by omega)))]
    have hdiv : d = mag D a / 2 ^ (D * (a.used - 1)) := by
      rw [hd, ← pow_mul]
      apply Nat.mod_eq_of_lt
      rw [Nat.div_lt_iff_lt_mul (Nat.two_pow_pos _), ← pow_add]
      have : D + D * (a.used - 1) = D * a.used := by
        obtain ⟨u, hu'⟩ : ∃ u, a.used = u + 1 := ⟨a.used - 1, by omega⟩
        rw [hu']; simp; ring
      rw [this]
      exact hM
    generalize mag D a = M at *
    have key : M.size = (a.used - 1) * D + d.size := by
      apply le_antisymm
      · rw [Nat.size_le, pow_add, Nat.mul_comm (a.used - 1) D, Nat.mul_comm]
        rw [← Nat.div_lt_iff_lt_mul (Nat.two_pow_pos _), ← hdiv]
        exact Nat.lt_size_self d
      · have h1 : 0 < d.size := Nat.size_pos.2 (by omega)
        have h2 : (a.used - 1) * D + (d.size - 1) < M.size := by
          rw [Nat.lt_size, pow_add, Nat.mul_comm (a.used - 1) D, Nat.mul_comm]
          rw [← Nat.le_div_iff_mul_le (Nat.two_pow_pos _), ← hdiv]
          rw [← Nat.lt_size]
          omega
        omega
    rw [key]
    push_cast
    rfl

/-! ### arithmetic of the caches -/

theorem Int.emod_mul_split (Z a b : Int) (ha : 0 < a) (hb : 0 < b) :
    Z % (a * b) = Z % a + a * (Z / a % b) := by
  have h1 := Int.mul_ediv_add_emod Z a
  have h2 := Int.mul_ediv_add_emod (Z / a) b
  have e1 : Z = (Z % a + a * (Z / a % b)) + (a * b) * (Z / a / b) := by
    calc Z = a * (Z / a) + Z % a := h1.symm
      _ = a * (b * (Z / a / b) + Z / a % b) + Z % a := by rw [h2]
      _ = _ := by ring
  conv_lhs => rw [e1]
  rw [Int.add_mul_emod_self_left]
  apply Int.emod_eq_of_lt
  · have := Int.emod_nonneg Z (show a ≠ 0 by omega)
    have h3 := Int.emod_nonneg (Z / a) (show b ≠ 0 by omega)
    have := mul_nonneg ha.le h3
    omega
  · have h3 := Int.emod_lt_of_pos Z ha
    have h4 := Int.emod_lt_of_pos (Z / a) hb
    have : a * (Z / a % b) ≤ a * (b - 1) := mul_le_mul_of_nonneg_left (by omega) ha.le
    have e : a * (b - 1) = a * b - a := by ring
    omega

theorem pow2_pos (n : Nat) : (0 : Int) < 2 ^ n := by positivity

theorem or_shl {c x r D : Nat} (hc : c < 2 ^ r) (hx : x < 2 ^ D) (hrD : r + D ≤ 64) :
    c ||| shl64 x r = c + x * 2 ^ r := by
  have h1 : x <<< r < 2 ^ 64 := by
    rw [Nat.shiftLeft_eq]
    calc x * 2 ^ r < 2 ^ D * 2 ^ r := Nat.mul_lt_mul_of_pos_right hx (Nat.two_pow_pos r)
      _ = 2 ^ (D + r) := by rw [pow_add]
      _ ≤ 2 ^ 64 := Nat.pow_le_pow_right (by decide) (by omega)
  unfold shl64
  rw [Nat.mod_eq_of_lt h1, Nat.or_comm, ← Nat.shiftLeft_add_eq_or_of_lt hc, Nat.shiftLeft_eq]
  omega

/-- Appending a digit to the cache. -/
theorem cache_add {Z : Int} {c x r D : Nat} (hc : (c : Int) = Z % 2 ^ r)
    (hx : (x : Int) = Z / 2 ^ r % 2 ^ D) (hrD : r + D ≤ 64) :
    ((c ||| shl64 x r : Nat) : Int) = Z % 2 ^ (r + D) := by
  have h1 : c < 2 ^ r := by
    have := Int.emod_lt_of_pos Z (pow2_pos r)
    rw [← hc] at this
    exact_mod_cast this
  have h2 : x < 2 ^ D := by
    have := Int.emod_lt_of_pos (Z / 2 ^ r) (pow2_pos D)
    rw [← hx] at this
    exact_mod_cast this
  rw [or_shl h1 h2 hrD, pow_add, Int.emod_mul_split _ _ _ (pow2_pos r) (pow2_pos D), ← hc, ← hx]
  push_cast
  ring

/-- Taking the low byte off the cache. -/
theorem cache_byte {Z : Int} {c r : Nat} (hc : (c : Int) = Z % 2 ^ r) (hr : 8 ≤ r) :
    ((c &&& 255 : Nat) : Int) = Z % 256 ∧ ((c >>> 8 : Nat) : Int) = Z / 256 % 2 ^ (r - 8) := by
  have e : (2 : Int) ^ r = 256 * 2 ^ (r - 8) := by
    rw [show (256 : Int) = 2 ^ 8 by norm_num, ← pow_add]
    congr 1
    omega
  rw [e, Int.emod_mul_split _ _ _ (by norm_num) (pow2_pos _)] at hc
  have h1 : c &&& 255 = c % 256 := Nat.and_two_pow_sub_one_eq_mod c 8
  have h2 : c >>> 8 = c / 256 := by rw [Nat.shiftRight_eq_div_pow]
  rw [h1, h2]
  have h3 := Int.emod_nonneg Z (show (256 : Int) ≠ 0 by norm_num)
  have h4 := Int.emod_lt_of_pos Z (show (0 : Int) < 256 by norm_num)
  push_cast
  constructor <;> omega

/-! ### writing bytes -/

theorem getD_set (l : List Nat) (i j v : Nat) :
    (l.set i v).getD j 0 = if i = j ∧ i < l.length then v else l.getD j 0 := by
  simp only [List.getD_eq_getElem?_getD, List.getElem?_set]
  by_cases h : i = j
  · subst h
    by_cases hl : i < l.length
    · simp [hl]
    · simp [hl]
  · simp [h]

theorem place_lt {e : Endian} {n p : Nat} (h : p < n) : place e n p < n := by
  cases e <;> simp [place] <;> omega

theorem place_inj {e : Endian} {n p q : Nat} (hp : p < n) (hq : q < n)
    (h : place e n p = place e n q) : p = q := by
  cases e <;> simp [place] at h <;> omega

/-- The first `pos` bytes of `Y` are in place and nothing at or above `n` changed. -/
structure Written (e : Endian) (n : Nat) (Y : Int) (buf0 buf : List Nat) (pos : Nat) : Prop where
  len : buf.length = buf0.length
  bytes : ∀ p, p < pos → ((buf.getD (place e n p) 0 : Nat) : Int) = Y / 256 ^ p % 256
  rest : ∀ i, n ≤ i → buf.getD i 0 = buf0.getD i 0

theorem Written.write {e : Endian} {n : Nat} {Y : Int} {buf0 buf : List Nat} {pos v : Nat}
    (h : Written e n Y buf0 buf pos) (hpos : pos < n) (hn : n ≤ buf0.length)
    (hv : (v : Int) = Y / 256 ^ pos % 256) :
    Written e n Y buf0 (buf.set (place e n pos) v) (pos + 1) := by
  have hl := place_lt (e := e) hpos
  refine ⟨by rw [List.length_set, h.len], fun p hp => ?_, fun i hi => ?_⟩
  · rw [getD_set]
    by_cases hpp : p = pos
    · subst hpp
      rw [if_pos ⟨rfl, by rw [h.len]; omega⟩, hv]
    · rw [if_neg, h.bytes p (by omega)]
      rintro ⟨he, _⟩
      exact hpp (place_inj (by omega) hpos he.symm)
  · rw [getD_set, if_neg (by omega)]
    exact h.rest i hi

/-- A write above the completed bytes does no harm. -/
theorem Written.overwrite {e : Endian} {n : Nat} {Y : Int} {buf0 buf : List Nat} {pos v : Nat}
    (h : Written e n Y buf0 buf pos) (hpos : pos < n) :
    Written e n Y buf0 (buf.set (place e n pos) v) pos := by
  have hl := place_lt (e := e) hpos
  refine ⟨by rw [List.length_set, h.len], fun p hp => ?_, fun i hi => ?_⟩
  · rw [getD_set, if_neg, h.bytes p hp]
    rintro ⟨he, _⟩
    have := place_inj hpos (by omega) he
    omega
  · rw [getD_set, if_neg (by omega)]
    exact h.rest i hi

theorem ediv_step (Y : Int) (pos : Nat) : Y / 256 ^ pos / 256 = Y / 256 ^ (pos + 1) := by
  rw [pow_succ, Int.ediv_ediv_of_nonneg (by positivity)]

/-- The inner loop of the magnitude format. -/
theorem drain_spec (e : Endian) (n : Nat) (Y : Int) (buf0 : List Nat) (hn : n ≤ buf0.length) :
    ∀ (rem : Nat) (buf : List Nat) (pos cache : Nat),
      Written e n Y buf0 buf pos → (cache : Int) = Y / 256 ^ pos % 2 ^ rem →
      pos + rem / 8 ≤ n →
      let r := drain e n buf pos cache rem
      Written e n Y buf0 r.1 r.2.1 ∧ (r.2.2.1 : Int) = Y / 256 ^ r.2.1 % 2 ^ r.2.2.2 ∧
      r.2.1 = pos + rem / 8 ∧ r.2.2.2 = rem % 8 := by
  intro rem
  induction rem using Nat.strongRecOn with
  | _ rem ih =>
    intro buf pos cache hw hc hb
    unfold drain
    by_cases h : 8 ≤ rem
    · rw [if_pos h]
      have h2 := cache_byte hc h
      have := ih (rem - 8) (by omega) (buf.set (place e n pos) (cache &&& 255)) (pos + 1)
        (cache >>> 8) (hw.write (by omega) hn h2.1) (by rw [h2.2, ediv_step]) (by omega)
      obtain ⟨h3, h4, h5, h6⟩ := this
      exact ⟨h3, h4, by omega, by omega⟩
    · rw [if_neg h]
      exact ⟨hw, hc, by simp; omega, by simp; omega⟩

theorem magDigits_spec {D : Nat} (hD : Digit D) (e : Endian) (n : Nat) (M : Nat)
    (buf0 : List Nat) (hn : n ≤ buf0.length) :
    ∀ (ds : List Nat) (idx : Nat) (buf : List Nat) (pos cache rem : Nat),
      (∀ i, i < ds.length → ds.getD i 0 = M / (2 ^ D) ^ (idx + i) % 2 ^ D) →
      Written e n M buf0 buf pos → (cache : Int) = (M : Int) / 256 ^ pos % 2 ^ rem →
      8 * pos + rem = D * idx → rem < 8 → D * (idx + ds.length) ≤ 8 * n + 7 →
      let r := magDigits D e n ds buf pos cache rem
      Written e n M buf0 r.1 r.2.1 ∧ (r.2.2.1 : Int) = (M : Int) / 256 ^ r.2.1 % 2 ^ r.2.2.2 ∧
      8 * r.2.1 + r.2.2.2 = D * (idx + ds.length) ∧ r.2.2.2 < 8 := by
  intro ds
  induction ds with
  | nil =>
    intro idx buf pos cache rem _ hw hc he hr _
    exact ⟨hw, hc, by simpa [magDigits] using he, hr⟩
  | cons d ds ih =>
    intro idx buf pos cache rem hds hw hc he hr hb
    have hD4 := hD.mul4
    have hDhi := hD.hi
    simp only [List.length_cons] at hb
    have hmul : D * (idx + (ds.length + 1)) = D * idx + D + D * ds.length := by ring
    have hr4 : rem ≤ 4 := by
      have h4 : 4 ∣ D * idx := Dvd.dvd.mul_right (by omega) _
      omega
    have hd0 : d = M / (2 ^ D) ^ idx % 2 ^ D := by
      have := hds 0 (by simp)
      simpa using this
    have hx : (d : Int) = (M : Int) / 256 ^ pos / 2 ^ rem % 2 ^ D := by
      rw [hd0]
      push_cast
      congr 1
      rw [Int.ediv_ediv_of_nonneg (by positivity)]
      congr 1
      rw [show (256 : Int) = 2 ^ 8 by norm_num, ← pow_mul, ← pow_mul, ← pow_add, he]
    have hca := cache_add hc hx (by omega)
    have hpos : 8 * (pos + (rem + D) / 8) ≤ 8 * n + 7 := by
      have h8 : 8 * ((rem + D) / 8) ≤ rem + D := Nat.mul_div_le _ _
      have := Nat.zero_le (D * ds.length)
      omega
    have hs := drain_spec e n (M : Int) buf0 hn (rem + D) buf pos (cache ||| shl64 d rem) hw hca
      (by omega)
    obtain ⟨h1, h2, h3, h4⟩ := hs
    have := ih (idx + 1) _ _ _ _ (fun i hi => by
      have := hds (i + 1) (by simp; omega)
      rw [List.getD_cons_succ] at this
      rw [this]
      congr 3
      omega) h1 h2 (by
        rw [h3, h4]
        have h8 := Nat.div_add_mod (rem + D) 8
        have : D * (idx + 1) = D * idx + D := by ring
        omega) (by rw [h4]; omega) (by
          have : D * (idx + 1 + ds.length) = D * idx + D + D * ds.length := by ring
          omega)
    obtain ⟨g1, g2, g3, g4⟩ := this
    refine ⟨g1, g2, ?_, g4⟩
    refine Eq.trans g3 ?_
    simp only [List.length_cons]
    ring

theorem magLast_spec (e : Endian) (n : Nat) (M : Nat) (buf0 : List Nat) (hn : n ≤ buf0.length)
    (hlen : n = (Nat.digits 256 M).length) :
    ∀ (cache : Nat) (buf : List Nat) (pos : Nat),
      Written e n M buf0 buf pos → cache = M / 256 ^ pos → pos ≤ n →
      Written e n M buf0 (magLast e n buf pos cache).1 n ∧
      (magLast e n buf pos cache).2 = n := by
  intro cache
  induction cache using Nat.strongRecOn with
  | _ cache ih =>
    intro buf pos hw hc hp
    unfold magLast
    by_cases h : 0 < cache
    · rw [dif_pos h]
      have hpn : pos < n := by
        by_contra hge
        have hle : (Nat.digits 256 M).length ≤ pos := by omega
        rw [Nat.digits_length_le_iff (by norm_num)] at hle
        rw [Nat.div_eq_of_lt hle] at hc
        omega
      have h1 : cache &&& 255 = cache % 256 := Nat.and_two_pow_sub_one_eq_mod cache 8
      have h2 : cache >>> 8 = cache / 256 := by rw [Nat.shiftRight_eq_div_pow]
      apply ih (cache >>> 8) (by rw [h2]; exact Nat.div_lt_self h (by norm_num))
      · apply hw.write hpn hn
        rw [h1, hc]
        push_cast
        rfl
      · rw [h2, hc, Nat.div_div_eq_div_mul, pow_succ]
      · omega
    · rw [dif_neg h]
      have h0 : M / 256 ^ pos = 0 := by omega
      have hlt : M < 256 ^ pos := by
        rcases (Nat.div_eq_zero_iff).1 h0 with h' | h'
        · exact absurd h' (by positivity)
        · exact h'
      rw [← Nat.digits_length_le_iff (by norm_num)] at hlt
      have : pos = n := by omega
      subst this
      exact ⟨hw, rfl⟩

theorem length_digits256 (M : Nat) : (Nat.digits 256 M).length = (M.size + 7) / 8 := by
  apply le_antisymm
  · rw [Nat.digits_length_le_iff (by norm_num), show (256 : Nat) = 2 ^ 8 by norm_num, ← pow_mul]
    exact Nat.lt_of_lt_of_le (Nat.lt_size_self M) (Nat.pow_le_pow_right (by decide) (by omega))
  · have h : M < 256 ^ (Nat.digits 256 M).length := Nat.lt_base_pow_length_digits (by norm_num)
    rw [show (256 : Nat) ^ (Nat.digits 256 M).length = 2 ^ (8 * (Nat.digits 256 M).length) by
      rw [pow_mul]; norm_num] at h
    have := Nat.size_le.2 h
    omega

theorem magBytesSize_eq {D : Nat} (hD : Digit D) {a : Mp} (h : Ok D a) :
    magBytesSize D a = (Nat.digits 256 (mag D a)).length := by
  unfold magBytesSize
  rw [countBits_eq hD h, length_digits256]
  simp

/-- The magnitude bytes, wherever there is room for them. -/
theorem toMagBytes_written {D : Nat} (hD : Digit D) {a : Mp} (h : Ok D a) (buf : List Nat)
    (e : Endian) (hb : (Nat.digits 256 (mag D a)).length ≤ buf.length) :
    ∃ buf', toMagBytes D a buf e = some (buf', (Nat.digits 256 (mag D a)).length) ∧
      Written e (Nat.digits 256 (mag D a)).length (mag D a) buf buf'
        (Nat.digits 256 (mag D a)).length := by
  unfold toMagBytes
  by_cases hu : a.used = 0
  · rw [if_pos hu, (used_zero_iff hD h).1 hu]
    exact ⟨buf, by simp, ⟨rfl, by simp, fun _ _ => rfl⟩⟩
  · rw [if_neg hu]
    simp only [magBytesSize_eq hD h]
    rw [if_neg (by omega)]
    have hM := mag_ge hD h (by omega)
    have hMlt := mag_lt hD h
    have hcount : D * (a.used - 1) < 8 * (Nat.digits 256 (mag D a)).length := by
      have h1 : mag D a < 256 ^ (Nat.digits 256 (mag D a)).length :=
        Nat.lt_base_pow_length_digits (by norm_num)
      rw [show (256 : Nat) ^ (Nat.digits 256 (mag D a)).length
        = 2 ^ (8 * (Nat.digits 256 (mag D a)).length) by rw [pow_mul]; norm_num] at h1
      exact (Nat.pow_lt_pow_iff_right (by norm_num)).1 (Nat.lt_of_le_of_lt hM h1)
    have hule := h.used_le
    have htl : (a.dp.take (a.used - 1)).length = a.used - 1 := by
      rw [List.length_take]; omega
    have hs := magDigits_spec hD e (Nat.digits 256 (mag D a)).length (mag D a) buf hb
      (a.dp.take (a.used - 1)) 0 buf 0 0 0 (fun i hi => by
        rw [htl] at hi
        rw [Nat.zero_add, ← dp_getD hD h i]
        rw [List.getD_eq_getElem _ _ (by rw [htl]; exact hi), List.getElem_take,
          List.getD_eq_getElem]) ⟨rfl, by simp, fun _ _ => rfl⟩ (by
            rw [pow_zero, pow_zero, Int.emod_one]; rfl) (by simp) (by omega) (by
          rw [htl, Nat.zero_add]; omega)
    obtain ⟨h1, h2, h3, h4⟩ := hs
    rw [htl, Nat.zero_add] at h3
    generalize magDigits D e (Nat.digits 256 (mag D a)).length (a.dp.take (a.used - 1)) buf 0 0 0
      = r at *
    have hD4 := hD.mul4
    have hDhi := hD.hi
    have hr4 : r.2.2.2 ≤ 4 := by
      have h4 : 4 ∣ D * (a.used - 1) := Dvd.dvd.mul_right (by omega) _
      omega
    have hx : ((a.dp.getD (a.used - 1) 0 : Nat) : Int)
        = (mag D a : Int) / 256 ^ r.2.1 / 2 ^ r.2.2.2 % 2 ^ D := by
      rw [dp_getD hD h]
      push_cast
      congr 1
      rw [Int.ediv_ediv_of_nonneg (by positivity)]
      congr 1
      rw [show (256 : Int) = 2 ^ 8 by norm_num, ← pow_mul, ← pow_mul, ← pow_add, h3]
    have hca := cache_add h2 hx (by omega)
    have hcache : r.2.2.1 ||| shl64 (a.dp.getD (a.used - 1) 0) r.2.2.2 = mag D a / 256 ^ r.2.1 := by
      zify
      rw [hca]
      apply Int.emod_eq_of_lt
      · positivity
      · have : mag D a / 256 ^ r.2.1 < 2 ^ (r.2.2.2 + D) := by
          rw [Nat.div_lt_iff_lt_mul (by positivity), show (256 : Nat) = 2 ^ 8 by norm_num,
            ← pow_mul, ← pow_add]
          have : r.2.2.2 + D + 8 * r.2.1 = D * a.used := by
            have : D * a.used = D * (a.used - 1) + D := by
              obtain ⟨u, hu'⟩ : ∃ u, a.used = u + 1 := ⟨a.used - 1, by omega⟩
              rw [hu']; simp; ring
            omega
          rw [this]
          exact hMlt
        exact_mod_cast this
    rw [hcache]
    have hl := magLast_spec e _ (mag D a) buf hb rfl (mag D a / 256 ^ r.2.1) r.1 r.2.1 h1 rfl
      (by omega)
    exact ⟨_, congrArg some (Prod.ext rfl hl.2), hl.1⟩

theorem Written.take_little {n M : Nat} {buf buf' : List Nat}
    (hn : n = (Nat.digits 256 M).length) (hb : n ≤ buf.length)
    (h : Written .little n M buf buf' n) : buf'.take n = Nat.digits 256 M := by
  apply List.ext_getElem
  · rw [List.length_take, h.len]; omega
  · intro i h1 h2
    have hi : i < n := by omega
    have := h.bytes i hi
    simp only [place] at this
    rw [List.getD_eq_getElem _ _ (by rw [h.len]; omega)] at this
    rw [List.getElem_take]
    have h3 := Nat.getD_digits M i (b := 256) (by norm_num)
    rw [List.getD_eq_getElem _ _ h2] at h3
    rw [h3]
    exact_mod_cast this

theorem Written.take_big {n M : Nat} {buf buf' : List Nat}
    (hn : n = (Nat.digits 256 M).length) (hb : n ≤ buf.length)
    (h : Written .big n M buf buf' n) : buf'.take n = (Nat.digits 256 M).reverse := by
  apply List.ext_getElem
  · rw [List.length_take, h.len, List.length_reverse]; omega
  · intro i h1 h2
    rw [List.length_reverse] at h2
    have := h.bytes (n - 1 - i) (by omega)
    simp only [place] at this
    rw [show n - 1 - (n - 1 - i) = i by omega,
      List.getD_eq_getElem _ _ (by rw [h.len]; omega)] at this
    rw [List.getElem_take, List.getElem_reverse]
    have h3 := Nat.getD_digits M ((Nat.digits 256 M).length - 1 - i) (b := 256) (by norm_num)
    rw [List.getD_eq_getElem _ _ (by omega)] at h3
    rw [h3, ← hn]
    exact_mod_cast this

theorem Written.drop {e : Endian} {n : Nat} {Y : Int} {buf buf' : List Nat} {k : Nat}
    (h : Written e n Y buf buf' k) : buf'.drop n = buf.drop n := by
  apply List.ext_getElem
  · rw [List.length_drop, List.length_drop, h.len]
  · intro i h1 h2
    rw [List.length_drop] at h1 h2
    have := h.rest (n + i) (by omega)
    rw [List.getD_eq_getElem _ _ (by omega), List.getD_eq_getElem _ _ (by omega)] at this
    rw [List.getElem_drop, List.getElem_drop]
    exact this

end Yacl.MPInt
