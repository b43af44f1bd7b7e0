import Verif.BigInt.PowTable
import Mathlib.Data.ZMod.Basic
import Mathlib.Data.Int.ModEq
import Mathlib.Data.Int.GCD
import Mathlib.Tactic.LinearCombination
import Mathlib.Tactic.Linarith

/-! The Montgomery space of the GMP backend, limb by limb: yacl/math/bigint/gmp/gmp_int.cc, yacl/math/bigint/gmp/mont_space.cc. Property C109. -/
namespace Yacl.BigInt.Gmp

/-- The base of the limbs, `2^GMP_NUMB_BITS`. -/
def B : Nat := 2 ^ 64

/-- `mpz_size`: number of limbs. -/
def size (x : Nat) : Nat := (Nat.digits B x).length

/-- Unsigned 64-bit wrap-around. -/
def wrap (x : Int) : Nat := (x % (B : Int)).toNat

/-- gmp_int.cc L311-323 `MontgomerySetup`, `none` is the exception. `a` is the lowest limb of the modulus. Arithmetic modulo `2^64`, reduced at every assignment. -/
def setup (n : Nat) : Option Nat :=
  let a := n % B
  if a % 2 = 0 then none
  else
    let x0 := wrap ((((a + 2) &&& 4) * 2 + a : Nat) : Int)
    let x1 := wrap (x0 * (2 - a * x0))
    let x2 := wrap (x1 * (2 - a * x1))
    let x3 := wrap (x2 * (2 - a * x2))
    let x4 := wrap (x3 * (2 - a * x3))
    some (wrap ((B : Int) - x4))

/-- gmp_int.cc L337-342: one doubling. -/
def normStep (n r : Nat) : Nat := if n < 2 * r then 2 * r - n else 2 * r

/-- `k` doublings. -/
def normLoop (n : Nat) : Nat → Nat → Nat
  | 0, r => r
  | k + 1, r => normLoop n k (normStep n r)

/-- gmp_int.cc L325-345 `MontgomeryCalcNormalization`. The loop runs from `bits - 1` to 63. -/
def normalization (n : Nat) : Nat :=
  let s := size n
  let bits := n.size % 64
  if 1 < s then normLoop n (64 - bits + 1) (2 ^ ((s - 1) * 64 + bits - 1))
  else normLoop n 64 1

/-- gmp_int.cc L370-373, one multiply-and-add in 128-bit arithmetic: `x[ix+iy]` and the carry. The state is the limbs and the carry. -/
def mulAdd (ns : List Nat) (mu ix : Nat) (iy : Nat) (s : List Nat × Nat) : List Nat × Nat :=
  let r := (mu * ns.getD iy 0 + s.2 + s.1.getD (ix + iy) 0) % (B * B)
  (s.1.set (ix + iy) (r % B), r / B)

/-- gmp_int.cc L369-385: four limbs at a time. Returns the index reached. -/
def loop4 (ns : List Nat) (mu ix iy : Nat) (s : List Nat × Nat) : Nat × List Nat × Nat :=
  if iy + 3 < ns.length then
    let s1 := mulAdd ns mu ix iy s
    let s2 := mulAdd ns mu ix (iy + 1) s1
    let s3 := mulAdd ns mu ix (iy + 2) s2
    let s4 := mulAdd ns mu ix (iy + 3) s3
    loop4 ns mu ix (iy + 4) s4
  else (iy, s)
termination_by ns.length - iy

/-- gmp_int.cc L387-391: the remaining limbs. -/
def loop1 (ns : List Nat) (mu ix iy : Nat) (s : List Nat × Nat) : Nat × List Nat × Nat :=
  if iy < ns.length then loop1 ns mu ix (iy + 1) (mulAdd ns mu ix iy s) else (iy, s)
termination_by ns.length - iy

/-- gmp_int.cc L394-400: the carry goes up. -/
def carryLoop (limbs idx : Nat) (s : List Nat × Nat) : List Nat :=
  if s.2 ≠ 0 ∧ idx < limbs then
    let r := s.1.getD idx 0 + s.2
    carryLoop limbs (idx + 1) (s.1.set idx (r % B), r / B)
  else s.1
termination_by limbs - idx

/-- gmp_int.cc L365-401: one round of the main loop. -/
def round (ns : List Nat) (rho limbs ix : Nat) (x : List Nat) : List Nat :=
  let mu := (x.getD ix 0 * rho) % B
  let a := loop4 ns mu ix 0 (x, 0)
  let b := loop1 ns mu ix a.1 a.2
  carryLoop limbs (ix + b.1) b.2

/-- gmp_int.cc L347-413 `MontgomeryReduce`. `mpz_limbs_modify` and the `memset` give the `2 n_size + 1` lowest limbs of the magnitude; `mpz_limbs_finish` and the trimming of
leading zeros give back the number with these limbs. -/
def reduce (n rho : Nat) (x : Int) : Int :=
  let ns := Nat.digits B n
  let limbs := ns.length * 2 + 1
  let x0 := (List.range limbs).map fun i => x.natAbs / B ^ i % B
  let xs := (List.range ns.length).foldl (fun y ix => round ns rho limbs ix y) x0
  let z := Nat.ofDigits B xs / 2 ^ (ns.length * 64)
  let z := if n ≤ z then z - n else z
  if x < 0 then -(z : Int) else z

/-- mont_space.cc L33-38 (GMP): the fields `n_`, `rho_`, `r_`, `rr_`. -/
structure Ctx where
  n : Nat
  rho : Nat
  r : Nat
  rr : Nat

/-- mont_space.cc L35-38 (base), gmp/mont_space.cc L33-38: the constructor. -/
def mkCtx (n : Int) : Option Ctx :=
  if n < 0 ∨ n % 2 = 0 then none
  else (setup n.natAbs).map fun rho => ⟨n.natAbs, rho, normalization n.natAbs, normalization n.natAbs * normalization n.natAbs % n.natAbs⟩

/-- gmp/mont_space.cc L40-47 `MapIntoMSpace`; `%=` rounds the quotient down. -/
def into (c : Ctx) (a : Int) : Int :=
  let z := if a < 0 ∨ (c.n : Int) ≤ a then a % c.n else a
  reduce c.n c.rho (z * c.rr)

/-- gmp/mont_space.cc L49-51 `MapBackToZSpace`. -/
def back (c : Ctx) (a : Int) : Int := reduce c.n c.rho a

/-- gmp/mont_space.cc L53-57 `MulMod`. -/
def mul (c : Ctx) (a b : Int) : Int := reduce c.n c.rho (a * b)

/-- The space, for the table. `Identity` is `r_` (gmp/mont_space.h L34). -/
def space (c : Ctx) : Space Int := ⟨c.r, into c, mul c, fun a => a < 0⟩

/-! ### Lemmas: the inverse of the lowest limb -/

theorem B_pos : 0 < B := by unfold B; exact Nat.two_pow_pos _

theorem wrap_modEq (x : Int) : (wrap x : Int) ≡ x [ZMOD B] := by
  unfold wrap
  have hB : (0 : Int) < B := by exact_mod_cast B_pos
  rw [Int.toNat_of_nonneg (Int.emod_nonneg _ hB.ne')]
  exact Int.mod_modEq _ _

theorem wrap_lt (x : Int) : wrap x < B := by
  unfold wrap
  have hB : (0 : Int) < B := by exact_mod_cast B_pos
  have h1 := Int.emod_lt_of_pos x hB
  have h2 := Int.emod_nonneg x hB.ne'
  omega

theorem newton (a x : Int) (k : Nat) (hk : 2 * k ≤ 64) (h : a * x ≡ 1 [ZMOD (2 ^ k : Nat)]) : a * (wrap (x * (2 - a * x)) : Int) ≡ 1 [ZMOD (2 ^ (2 * k) : Nat)] := by
  have hd : ((2 ^ (2 * k) : Nat) : Int) ∣ (B : Int) := by
    unfold B
    exact_mod_cast Nat.pow_dvd_pow 2 hk
  have h1 : a * (wrap (x * (2 - a * x)) : Int) ≡ a * (x * (2 - a * x)) [ZMOD (2 ^ (2 * k) : Nat)] := ((wrap_modEq _).of_dvd hd).mul_left a
  refine h1.trans ?_
  obtain ⟨t, ht⟩ := h.symm.dvd
  rw [Int.modEq_iff_dvd]
  refine ⟨t * t, ?_⟩
  have h2 : a * x = 1 + (2 ^ k : Nat) * t := by linarith
  have h3 : ((2 ^ (2 * k) : Nat) : Int) = ((2 ^ k : Nat) : Int) * ((2 ^ k : Nat) : Int) := by
    push_cast; ring
  rw [h3]
  linear_combination (a * x - 1 + ((2 ^ k : Nat) : Int) * t) * h2

theorem setup_start (a : Nat) (h : a % 2 = 1) : (a : Int) * (((a + 2) &&& 4) * 2 + a : Nat) ≡ 1 [ZMOD (2 ^ 4 : Nat)] := by
  have h4 : ∀ m : Nat, m &&& 4 = (m % 8) &&& 4 := by
    intro m
    apply Nat.eq_of_testBit_eq
    intro i
    rw [Nat.testBit_and, Nat.testBit_and, show (8 : Nat) = 2 ^ 3 from rfl, Nat.testBit_mod_two_pow]
    by_cases hi : i < 3
    · simp [hi]
    · have : Nat.testBit 4 i = false := by
        apply Nat.testBit_lt_two_pow
        calc 4 < 2 ^ 3 := by decide
          _ ≤ 2 ^ i := Nat.pow_le_pow_right (by omega) (by omega)
      simp [this]
  have key : ∀ r, r < 16 → r % 2 = 1 → (r * (((r + 2) % 8 &&& 4) * 2 + r)) % 16 = 1 := by decide
  have hr := key (a % 16) (Nat.mod_lt _ (by omega)) (by omega)
  have e1 : (a % 16 + 2) % 8 = (a + 2) % 8 := by omega
  rw [e1, ← h4] at hr
  have e2 : (a * (((a + 2) &&& 4) * 2 + a)) % 16 = 1 := by
    rw [Nat.mul_mod, Nat.add_mod _ a 16]
    rw [Nat.mul_mod, Nat.add_mod _ (a % 16) 16] at hr
    simpa using hr
  have : ((a * (((a + 2) &&& 4) * 2 + a) : Nat) : Int) ≡ ((1 : Nat) : Int) [ZMOD ((16 : Nat) : Int)] := by
    rw [Int.natCast_modEq_iff]
    exact e2
  simpa using this

/-- `rho` is minus the inverse of the modulus. -/
theorem setup_spec (n : Nat) (hn : n % 2 = 1) : ∃ rho, setup n = some rho ∧ rho < B ∧ (rho * n + 1) % B = 0 := by
  have hB2 : B % 2 = 0 := by decide
  have ha : n % B % 2 = 1 := by
    rw [Nat.mod_mod_of_dvd _ (Nat.dvd_of_mod_eq_zero hB2)]; exact hn
  unfold setup
  rw [if_neg (by omega)]
  refine ⟨_, rfl, wrap_lt _, ?_⟩
  set a := n % B with hadef
  set x0 := wrap ((((a + 2) &&& 4) * 2 + a : Nat) : Int) with hx0
  set x1 := wrap (x0 * (2 - a * x0)) with hx1
  set x2 := wrap (x1 * (2 - a * x1)) with hx2
  set x3 := wrap (x2 * (2 - a * x2)) with hx3
  set x4 := wrap (x3 * (2 - a * x3)) with hx4
  have s0 : (a : Int) * x0 ≡ 1 [ZMOD (2 ^ 4 : Nat)] := by
    refine (((wrap_modEq _).of_dvd ?_).mul_left _).trans (setup_start a ha)
    unfold B; exact_mod_cast Nat.pow_dvd_pow 2 (by omega)
  have s1 : (a : Int) * x1 ≡ 1 [ZMOD (2 ^ 8 : Nat)] := newton a x0 4 (by omega) s0
  have s2 : (a : Int) * x2 ≡ 1 [ZMOD (2 ^ 16 : Nat)] := newton a x1 8 (by omega) s1
  have s3 : (a : Int) * x3 ≡ 1 [ZMOD (2 ^ 32 : Nat)] := newton a x2 16 (by omega) s2
  have s4 : (a : Int) * x4 ≡ 1 [ZMOD (2 ^ 64 : Nat)] := newton a x3 32 (by omega) s3
  clear_value x4
  have hBB : ((2 ^ 64 : Nat) : Int) = (B : Int) := rfl
  rw [hBB] at s4
  have h5 : (wrap ((B : Int) - x4) : Int) * n + 1 ≡ 0 [ZMOD B] := by
    have e1 : (n : Int) ≡ a [ZMOD B] := by
      rw [hadef]
      push_cast
      exact (Int.mod_modEq _ _).symm
    have e2 : (wrap ((B : Int) - x4) : Int) ≡ -x4 [ZMOD B] := by
      refine (wrap_modEq _).trans ?_
      rw [Int.modEq_iff_dvd]
      exact ⟨-1, by ring⟩
    have e3 := ((e2.mul e1).add_right 1)
    refine e3.trans ?_
    have e4 := (s4.neg).add_right 1
    have e5 : -(x4 : Int) * a + 1 = -(a * x4) + 1 := by ring
    rw [e5]
    simpa using e4
  have h6 : (B : Int) ∣ ((wrap ((B : Int) - x4) * n + 1 : Nat) : Int) := by
    push_cast
    exact Int.modEq_zero_iff_dvd.mp h5
  exact Nat.mod_eq_zero_of_dvd (Int.natCast_dvd_natCast.mp h6)

/-! ### Lemmas: the normalisation -/

theorem normLoop_spec (n : Nat) (hn : 0 < n) (k r : Nat) (hr : r ≤ n) : normLoop n k r ≤ n ∧ normLoop n k r ≡ 2 ^ k * r [MOD n] := by
  induction k generalizing r with
  | zero => exact ⟨hr, by simp [normLoop, Nat.ModEq]⟩
  | succ k ih =>
    have h1 : normStep n r ≤ n := by unfold normStep; split_ifs <;> omega
    have h2 : normStep n r ≡ 2 * r [MOD n] := by
      unfold normStep
      split_ifs with h
      · have : 2 * r = (2 * r - n) + n := by omega
        conv_rhs => rw [this]
        exact (Nat.add_mod_right _ _).symm
      · rfl
    obtain ⟨h3, h4⟩ := ih _ h1
    refine ⟨h3, ?_⟩
    simp only [normLoop]
    refine h4.trans ?_
    have := h2.mul_left (2 ^ k)
    refine this.trans ?_
    rw [pow_succ]
    have : 2 ^ k * (2 * r) = 2 ^ k * 2 * r := by ring
    rw [this]

theorem size_bits (n : Nat) (hn : 0 < n) : B ^ (size n - 1) ≤ n ∧ n < B ^ size n := by
  constructor
  · have := Nat.base_pow_length_digits_le B n (by decide) hn.ne'
    unfold size
    have hl : 0 < (Nat.digits B n).length := by
      rw [List.length_pos_iff]
      exact Nat.digits_ne_nil_iff_ne_zero.mpr hn.ne'
    obtain ⟨k, hk⟩ : ∃ k, (Nat.digits B n).length = k + 1 := ⟨_, (Nat.sub_add_cancel hl).symm⟩
    rw [hk, pow_succ, Nat.mul_comm] at this
    rw [hk, Nat.add_sub_cancel]
    exact Nat.le_of_mul_le_mul_left this B_pos
  · exact Nat.lt_base_pow_length_digits (by decide)

theorem normalization_spec (n : Nat) (hn : n % 2 = 1) : normalization n ≤ n ∧ normalization n ≡ B ^ size n [MOD n] := by
  have hpos : 0 < n := by omega
  obtain ⟨hlo, hhi⟩ := size_bits n hpos
  have hs1 : 0 < size n := by
    unfold size
    rw [List.length_pos_iff]
    exact Nat.digits_ne_nil_iff_ne_zero.mpr hpos.ne'
  have hBp : ∀ k, B ^ k = 2 ^ (64 * k) := fun k => by unfold B; rw [← pow_mul]
  unfold normalization
  simp only
  split_ifs with hs
  · -- bits of the top limb
    have h1 : 64 * (size n - 1) < n.size := by
      rw [Nat.lt_size, ← hBp]; exact hlo
    have h2 : n.size ≤ 64 * size n := by
      rw [Nat.size_le, ← hBp]; exact hhi
    have hmod := Nat.div_add_mod n.size 64
    have hml := Nat.mod_lt n.size (show 64 > 0 by omega)
    have hstart : 2 ^ ((size n - 1) * 64 + n.size % 64 - 1) ≤ n := by
      rcases Nat.eq_zero_or_pos (n.size % 64) with h0 | h0
      · refine le_trans ?_ hlo
        rw [hBp]
        exact Nat.pow_le_pow_right (by omega) (by omega)
      · have e : (size n - 1) * 64 + n.size % 64 - 1 = n.size - 1 := by
          have : n.size / 64 = size n - 1 := by omega
          omega
        rw [e]
        have : n.size - 1 < n.size := by omega
        exact Nat.lt_size.mp this
    obtain ⟨g1, g2⟩ := normLoop_spec n hpos (64 - n.size % 64 + 1) _ hstart
    refine ⟨g1, g2.trans ?_⟩
    rw [← pow_add, hBp]
    have e : 64 - n.size % 64 + 1 + ((size n - 1) * 64 + n.size % 64 - 1) = 64 * size n := by omega
    rw [e]
  · have e : size n = 1 := by omega
    obtain ⟨g1, g2⟩ := normLoop_spec n hpos 64 1 (by omega)
    refine ⟨g1, g2.trans ?_⟩
    rw [e, hBp, Nat.mul_one]

/-! ### Lemmas: the reduction -/

theorem getD_lt (x : List Nat) (h : ∀ d ∈ x, d < B) (i : Nat) : x.getD i 0 < B := by
  rw [List.getD_eq_getElem?_getD]
  cases hx : x[i]? with
  | none => exact B_pos
  | some v => exact h v (List.mem_of_getElem? hx)

theorem ofDigits_set (x : List Nat) (i v : Nat) (h : i < x.length) :
    Nat.ofDigits B (x.set i v) + x.getD i 0 * B ^ i = Nat.ofDigits B x + v * B ^ i := by
  induction x generalizing i with
  | nil => simp at h
  | cons a x ih =>
    cases i with
    | zero => simp [Nat.ofDigits_cons]; omega
    | succ i =>
      have := ih i (by simpa using h)
      simp only [List.set_cons_succ, Nat.ofDigits_cons, List.getD_cons_succ, pow_succ']
      linear_combination B * this

theorem mem_set_lt (x : List Nat) (h : ∀ d ∈ x, d < B) (i v : Nat) (hv : v < B) : ∀ d ∈ x.set i v, d < B := by
  intro d hd
  rcases List.mem_or_eq_of_mem_set hd with h1 | h1
  · exact h d h1
  · omega

theorem digit_getD (x : List Nat) (h : ∀ d ∈ x, d < B) (k : Nat) : Nat.ofDigits B x / B ^ k % B = x.getD k 0 := by
  induction x generalizing k with
  | nil => simp
  | cons a x ih =>
    have ha := h a List.mem_cons_self
    have ih' := ih (fun d hd => h d (List.mem_cons_of_mem _ hd))
    cases k with
    | zero =>
      rw [pow_zero, Nat.div_one, Nat.ofDigits_cons, Nat.add_mul_mod_self_left, Nat.mod_eq_of_lt ha]; rfl
    | succ k =>
      rw [pow_succ', ← Nat.div_div_eq_div_mul, Nat.ofDigits_cons, Nat.add_mul_div_left _ _ B_pos, Nat.div_eq_of_lt ha, Nat.zero_add, ih' k]; rfl

/-- The state inside one round: the limbs `x0` at its beginning, `iy` limbs of the modulus added. -/
structure Inv (ns : List Nat) (mu ix limbs : Nat) (x0 : List Nat) (iy : Nat) (s : List Nat × Nat) : Prop where
  len : s.1.length = limbs
  lt : ∀ d ∈ s.1, d < B
  c_lt : s.2 < B
  val : Nat.ofDigits B s.1 + s.2 * B ^ (ix + iy) = Nat.ofDigits B x0 + mu * Nat.ofDigits B (ns.take iy) * B ^ ix

theorem ofDigits_take_succ (ns : List Nat) (iy : Nat) (h : iy < ns.length) : Nat.ofDigits B (ns.take (iy + 1)) = Nat.ofDigits B (ns.take iy) + ns.getD iy 0 * B ^ iy := by
  rw [List.take_succ, List.getElem?_eq_getElem h, Nat.ofDigits_append]
  simp only [Option.toList_some, Nat.ofDigits_singleton, List.length_take]
  rw [Nat.min_eq_left (by omega), List.getD_eq_getElem?_getD, List.getElem?_eq_getElem h]
  simp [Nat.mul_comm]

theorem mulAdd_inv {ns : List Nat} {mu ix limbs : Nat} {x0 : List Nat} {iy : Nat} {s : List Nat × Nat} (hns : ∀ d ∈ ns, d < B) (hmu : mu < B) (hiy : iy < ns.length) (hl : ix + iy < limbs)
    (h : Inv ns mu ix limbs x0 iy s) : Inv ns mu ix limbs x0 (iy + 1) (mulAdd ns mu ix iy s) := by
  have hn := getD_lt ns hns iy
  have hx := getD_lt s.1 h.lt (ix + iy)
  have hc := h.c_lt
  have hlt : mu * ns.getD iy 0 + s.2 + s.1.getD (ix + iy) 0 < B * B := by
    have h1 : mu * ns.getD iy 0 ≤ (B - 1) * (B - 1) := Nat.mul_le_mul (by omega) (by omega)
    have h2 : (B - 1) * (B - 1) + (B - 1) + (B - 1) < B * B := by
      obtain ⟨b, hb⟩ : ∃ b, B = b + 1 := ⟨B - 1, by have := B_pos; omega⟩
      rw [hb, Nat.add_sub_cancel]
      nlinarith
    omega
  have hset := ofDigits_set s.1 (ix + iy) ((mu * ns.getD iy 0 + s.2 + s.1.getD (ix + iy) 0) % B) (by rw [h.len]; exact hl)
  have hdm := Nat.mod_add_div (mu * ns.getD iy 0 + s.2 + s.1.getD (ix + iy) 0) B
  have hdiv : (mu * ns.getD iy 0 + s.2 + s.1.getD (ix + iy) 0) / B < B := Nat.div_lt_of_lt_mul hlt
  have hval := h.val
  refine ⟨?_, ?_, ?_, ?_⟩ <;> unfold mulAdd <;> simp only [Nat.mod_eq_of_lt hlt]
  · rw [List.length_set]; exact h.len
  · exact mem_set_lt _ h.lt _ _ (Nat.mod_lt _ B_pos)
  · exact hdiv
  · rw [ofDigits_take_succ _ _ hiy]
    generalize (mu * ns.getD iy 0 + s.2 + s.1.getD (ix + iy) 0) / B = q at hdm ⊢
    generalize (mu * ns.getD iy 0 + s.2 + s.1.getD (ix + iy) 0) % B = m at hdm hset ⊢
    have e1 : B ^ (ix + (iy + 1)) = B ^ (ix + iy) * B := by rw [← Nat.add_assoc, pow_succ]
    have e2 : B ^ (ix + iy) = B ^ ix * B ^ iy := pow_add _ _ _
    rw [e1]
    zify at hset hdm hval ⊢
    have e2' : (B : Int) ^ (ix + iy) = (B : Int) ^ ix * (B : Int) ^ iy := pow_add _ _ _
    linear_combination hset + hval + (B : Int) ^ (ix + iy) * hdm + (mu : Int) * (ns.getD iy 0 : Int) * e2'

theorem loop4_inv {ns : List Nat} {mu ix limbs : Nat} {x0 : List Nat} (hns : ∀ d ∈ ns, d < B) (hmu : mu < B) (hl : ix + ns.length ≤ limbs) (iy : Nat) (s : List Nat × Nat) (hiy : iy ≤ ns.length)
    (h : Inv ns mu ix limbs x0 iy s) : (loop4 ns mu ix iy s).1 ≤ ns.length ∧ Inv ns mu ix limbs x0 (loop4 ns mu ix iy s).1 (loop4 ns mu ix iy s).2 := by
  induction hk : ns.length - iy using Nat.strong_induction_on generalizing iy s with
  | _ k ih =>
    rw [loop4]
    split_ifs with hc
    · refine ih (ns.length - (iy + 4)) (by omega) _ _ (by omega) ?_ rfl
      have h1 := mulAdd_inv hns hmu (by omega) (by omega) h
      have h2 := mulAdd_inv hns hmu (by omega) (by omega) h1
      have h3 := mulAdd_inv hns hmu (by omega) (by omega) h2
      exact mulAdd_inv hns hmu (by omega) (by omega) h3
    · exact ⟨hiy, h⟩

theorem loop1_inv {ns : List Nat} {mu ix limbs : Nat} {x0 : List Nat} (hns : ∀ d ∈ ns, d < B) (hmu : mu < B) (hl : ix + ns.length ≤ limbs) (iy : Nat) (s : List Nat × Nat) (hiy : iy ≤ ns.length)
    (h : Inv ns mu ix limbs x0 iy s) : (loop1 ns mu ix iy s).1 = ns.length ∧ Inv ns mu ix limbs x0 ns.length (loop1 ns mu ix iy s).2 := by
  induction hk : ns.length - iy using Nat.strong_induction_on generalizing iy s with
  | _ k ih =>
    rw [loop1]
    split_ifs with hc
    · exact ih (ns.length - (iy + 1)) (by omega) _ _ (by omega) (mulAdd_inv hns hmu hc (by omega) h) rfl
    · have : iy = ns.length := by omega
      subst this
      exact ⟨rfl, h⟩

theorem carryLoop_spec (limbs idx : Nat) (s : List Nat × Nat) (hlen : s.1.length = limbs) (hlt : ∀ d ∈ s.1, d < B) (hidx : idx ≤ limbs)
    (hb : Nat.ofDigits B s.1 + s.2 * B ^ idx < B ^ limbs) :
    (carryLoop limbs idx s).length = limbs ∧ (∀ d ∈ carryLoop limbs idx s, d < B) ∧ Nat.ofDigits B (carryLoop limbs idx s) = Nat.ofDigits B s.1 + s.2 * B ^ idx := by
  induction hk : limbs - idx using Nat.strong_induction_on generalizing idx s with
  | _ k ih =>
    rw [carryLoop]
    split_ifs with hc
    · have hset := ofDigits_set s.1 idx ((s.1.getD idx 0 + s.2) % B) (by omega)
      have hdm := Nat.mod_add_div (s.1.getD idx 0 + s.2) B
      have hv : Nat.ofDigits B (s.1.set idx ((s.1.getD idx 0 + s.2) % B)) + (s.1.getD idx 0 + s.2) / B * B ^ (idx + 1) = Nat.ofDigits B s.1 + s.2 * B ^ idx := by
        generalize (s.1.getD idx 0 + s.2) / B = q at hdm ⊢
        generalize (s.1.getD idx 0 + s.2) % B = m at hdm hset ⊢
        rw [pow_succ]
        zify at hset hdm ⊢
        linear_combination hset + (B : Int) ^ idx * hdm
      have := ih (limbs - (idx + 1)) (by omega) (idx + 1) (s.1.set idx ((s.1.getD idx 0 + s.2) % B), (s.1.getD idx 0 + s.2) / B)
        (by simpa using hlen) (mem_set_lt _ hlt _ _ (Nat.mod_lt _ B_pos)) (by omega) (by simp only; rw [hv]; exact hb) rfl
      simp only at this ⊢
      rw [hv] at this
      exact this
    · refine ⟨hlen, hlt, ?_⟩
      by_cases h0 : s.2 = 0
      · rw [h0]; simp
      · exfalso
        have h1 : idx = limbs := by
          by_contra hne
          exact hc ⟨h0, by omega⟩
        rw [h1] at hb
        have : B ^ limbs ≤ s.2 * B ^ limbs := Nat.le_mul_of_pos_left _ (by omega)
        omega

theorem round_spec (ns : List Nat) (rho limbs ix : Nat) (x : List Nat) (hns : ∀ d ∈ ns, d < B) (hlen : x.length = limbs) (hlt : ∀ d ∈ x, d < B) (hl : ix + ns.length ≤ limbs)
    (hb : Nat.ofDigits B x + (x.getD ix 0 * rho) % B * Nat.ofDigits B ns * B ^ ix < B ^ limbs) :
    (round ns rho limbs ix x).length = limbs ∧ (∀ d ∈ round ns rho limbs ix x, d < B) ∧
    Nat.ofDigits B (round ns rho limbs ix x) = Nat.ofDigits B x + (x.getD ix 0 * rho) % B * Nat.ofDigits B ns * B ^ ix := by
  have hmu : (x.getD ix 0 * rho) % B < B := Nat.mod_lt _ B_pos
  have i0 : Inv ns ((x.getD ix 0 * rho) % B) ix limbs x 0 (x, 0) := ⟨hlen, hlt, B_pos, by simp⟩
  obtain ⟨g1, g2⟩ := loop4_inv hns hmu hl 0 (x, 0) (by omega) i0
  obtain ⟨k1, k2⟩ := loop1_inv hns hmu hl _ _ g1 g2
  have hval := k2.val
  rw [List.take_length] at hval
  unfold round
  simp only
  rw [k1]
  have := carryLoop_spec limbs (ix + ns.length) _ k2.len k2.lt hl (by rw [hval]; exact hb)
  rw [hval] at this
  exact this

/-- The main loop: after `k` rounds the number is the old one plus a multiple of the modulus, and divisible by `B^k`. -/
theorem rounds_spec (n rho : Nat) (hrho : (rho * n + 1) % B = 0) (hn : 0 < n) (X : Nat) (hX : X < n * B ^ size n) (k : Nat) (hk : k ≤ size n) :
    let ns := Nat.digits B n
    let limbs := ns.length * 2 + 1
    let y := (List.range k).foldl (fun y ix => round ns rho limbs ix y) ((List.range limbs).map fun i => X / B ^ i % B)
    y.length = limbs ∧ (∀ d ∈ y, d < B) ∧ B ^ k ∣ Nat.ofDigits B y ∧ ∃ q, q < B ^ k ∧ Nat.ofDigits B y = X + q * n := by
  intro ns limbs
  have hns : ∀ d ∈ ns, d < B := fun d hd => Nat.digits_lt_base (by decide) hd
  have hnv : Nat.ofDigits B ns = n := Nat.ofDigits_digits _ _
  have hsz : ns.length = size n := rfl
  have hhi := (size_bits n hn).2
  have hXB : X < B ^ limbs := by
    calc X < n * B ^ size n := hX
      _ ≤ B ^ size n * B ^ size n := Nat.mul_le_mul_right _ hhi.le
      _ = B ^ (size n * 2) := by rw [← pow_add]; congr 1; omega
      _ ≤ B ^ limbs := Nat.pow_le_pow_right B_pos (by omega)
  induction k with
  | zero =>
    simp only [List.range_zero, List.foldl_nil]
    refine ⟨by simp, ?_, by simp, 0, by simp, ?_⟩
    · intro d hd
      obtain ⟨i, -, rfl⟩ := List.mem_map.mp hd
      exact Nat.mod_lt _ B_pos
    · rw [ofDigits_range _ _ _ B_pos, Nat.mod_eq_of_lt hXB]; simp
  | succ k ih =>
    obtain ⟨h1, h2, h3, q, h4, h5⟩ := ih (by omega)
    simp only [List.range_succ, List.foldl_append, List.foldl_cons, List.foldl_nil]
    set y := (List.range k).foldl (fun y ix => round ns rho limbs ix y) ((List.range limbs).map fun i => X / B ^ i % B) with hy
    clear_value y
    set mu := (y.getD k 0 * rho) % B with hmu
    have hmulte : mu < B := Nat.mod_lt _ B_pos
    have hq' : q + mu * B ^ k < B ^ (k + 1) := by
      rw [pow_succ]
      have : mu * B ^ k ≤ (B - 1) * B ^ k := Nat.mul_le_mul_right _ (by omega)
      have h6 : (B - 1) * B ^ k + B ^ k = B ^ k * B := by
        obtain ⟨b, hb⟩ : ∃ b, B = b + 1 := ⟨B - 1, by have := B_pos; omega⟩
        rw [hb, Nat.add_sub_cancel]; ring
      omega
    have hbound : Nat.ofDigits B y + mu * Nat.ofDigits B ns * B ^ k < B ^ limbs := by
      rw [hnv, h5]
      have e : X + q * n + mu * n * B ^ k = X + (q + mu * B ^ k) * n := by ring
      rw [e]
      have a1 : (q + mu * B ^ k) * n ≤ B ^ size n * n := Nat.mul_le_mul_right _ (le_trans hq'.le (Nat.pow_le_pow_right B_pos hk))
      have a2 : n * B ^ size n ≤ B ^ (size n * 2) := by
        rw [show size n * 2 = size n + size n by omega, pow_add]
        exact Nat.mul_le_mul_right _ hhi.le
      have a3 : B ^ (size n * 2) + B ^ (size n * 2) ≤ B ^ limbs := by
        show _ ≤ B ^ (ns.length * 2 + 1)
        rw [hsz, pow_succ]
        have : 2 ≤ B := by decide
        calc B ^ (size n * 2) + B ^ (size n * 2) = B ^ (size n * 2) * 2 := by ring
          _ ≤ B ^ (size n * 2) * B := Nat.mul_le_mul_left _ this
      rw [Nat.mul_comm (B ^ size n) n] at a1
      omega
    obtain ⟨g1, g2, g3⟩ := round_spec ns rho limbs k y hns h1 h2 (by omega) hbound
    refine ⟨g1, g2, ?_, q + mu * B ^ k, hq', ?_⟩
    · rw [g3, hnv]
      obtain ⟨t, ht⟩ := h3
      have hd : y.getD k 0 = t % B := by
        rw [← digit_getD y h2 k, ht, Nat.mul_div_cancel_left _ (Nat.pow_pos B_pos)]
      have e : Nat.ofDigits B y + (y.getD k 0 * rho) % B * n * B ^ k = B ^ k * (t + mu * n) := by rw [ht]; ring
      rw [e, pow_succ]
      apply Nat.mul_dvd_mul_left
      apply Nat.dvd_of_mod_eq_zero
      have c1 : mu ≡ t * rho [MOD B] := by
        rw [hmu, hd]
        refine (Nat.mod_modEq _ _).trans ?_
        exact (Nat.mod_modEq t B).mul_right rho
      have c2 : t + mu * n ≡ t + t * rho * n [MOD B] := (c1.mul_right n).add_left t
      have c3 : t + t * rho * n = t * (rho * n + 1) := by ring
      rw [c3] at c2
      have c4 : t * (rho * n + 1) ≡ t * 0 [MOD B] := Nat.ModEq.mul_left t hrho
      exact c2.trans c4
    · rw [g3, hnv, h5]; ring

theorem reduce_spec (n rho : Nat) (hrho : (rho * n + 1) % B = 0) (hn : 0 < n) (x : Int) (hx : x.natAbs < n * B ^ size n) :
    ∃ z, z < n ∧ z * B ^ size n ≡ x.natAbs [MOD n] ∧ reduce n rho x = if x < 0 then -(z : Int) else z := by
  obtain ⟨-, -, h3, q, h4, h5⟩ := rounds_spec n rho hrho hn x.natAbs hx (size n) le_rfl
  unfold reduce
  simp only at h3 h5 ⊢
  have hsz : (Nat.digits B n).length = size n := rfl
  rw [hsz] at h3 h5 ⊢
  generalize List.foldl (fun y ix => round (Nat.digits B n) rho (size n * 2 + 1) ix y) (List.map (fun i => x.natAbs / B ^ i % B) (List.range (size n * 2 + 1))) (List.range (size n)) = y at h3 h5 ⊢
  have hB : 2 ^ (size n * 64) = B ^ size n := by unfold B; rw [← pow_mul]; congr 1; omega
  rw [hB]
  obtain ⟨t, ht⟩ := h3
  have hpos : 0 < B ^ size n := Nat.pow_pos B_pos
  rw [ht, Nat.mul_div_cancel_left _ hpos]
  have hlt : t < 2 * n := by
    by_contra hc
    have h6 : 2 * n * B ^ size n ≤ B ^ size n * t := by
      rw [Nat.mul_comm (B ^ size n)]; exact Nat.mul_le_mul_right _ (by omega)
    have h7 : q * n ≤ B ^ size n * n := Nat.mul_le_mul_right _ h4.le
    have h8 : B ^ size n * n = n * B ^ size n := Nat.mul_comm _ _
    have h9 : 2 * n * B ^ size n = n * B ^ size n + n * B ^ size n := by ring
    omega
  have hcong : t * B ^ size n ≡ x.natAbs [MOD n] := by
    have : t * B ^ size n = x.natAbs + q * n := by rw [Nat.mul_comm, ← ht, h5]
    rw [this]
    exact Nat.add_mul_mod_self_right _ _ _
  refine ⟨if n ≤ t then t - n else t, ?_, ?_, ?_⟩
  · split_ifs <;> omega
  · split_ifs with hc
    · refine Nat.ModEq.trans ?_ hcong
      have : t * B ^ size n = (t - n) * B ^ size n + n * B ^ size n := by rw [← Nat.add_mul]; congr 1; omega
      rw [this]
      exact (Nat.add_mul_mod_self_left _ _ _).symm
    · exact hcong
  · rfl

/-! ### The space -/

/-- What the constructor establishes. -/
structure Good (c : Ctx) : Prop where
  odd : c.n % 2 = 1
  rho : (c.rho * c.n + 1) % B = 0
  r_le : c.r ≤ c.n
  r_val : c.r ≡ B ^ size c.n [MOD c.n]
  rr_val : c.rr ≡ B ^ size c.n * B ^ size c.n [MOD c.n]
  rr_lt : c.rr < c.n

theorem mkCtx_spec (n : Int) : (¬(0 ≤ n ∧ n % 2 = 1) → mkCtx n = none) ∧ (0 ≤ n ∧ n % 2 = 1 → ∃ c, mkCtx n = some c ∧ (c.n : Int) = n ∧ Good c) := by
  constructor
  · intro h
    unfold mkCtx
    rw [if_pos (by omega)]
  · rintro ⟨h0, h1⟩
    have hodd : n.natAbs % 2 = 1 := by omega
    obtain ⟨rho, g1, g2, g3⟩ := setup_spec n.natAbs hodd
    obtain ⟨k1, k2⟩ := normalization_spec n.natAbs hodd
    unfold mkCtx
    rw [if_neg (by omega), g1]
    refine ⟨_, rfl, by simp only; omega, hodd, g3, k1, k2, ?_, ?_⟩
    · exact (Nat.mod_modEq _ _).trans (k2.mul k2)
    · exact Nat.mod_lt _ (by omega)

theorem coprime_pow (c : Ctx) (h : Good c) : Nat.Coprime (B ^ size c.n) c.n := by
  apply Nat.Coprime.pow_left
  unfold B
  apply Nat.Coprime.pow_left
  rw [Nat.coprime_two_left]
  exact Nat.odd_iff.mpr h.odd

theorem n_lt (c : Ctx) (h : Good c) : c.n < B ^ size c.n := (size_bits c.n (by have := h.odd; omega)).2

/-- Multiplication of reduced numbers. -/
theorem red_mul (c : Ctx) (h : Good c) (a b : Nat) (ha : a ≤ c.n) (hb : b ≤ c.n) :
    ∃ z : Nat, reduce c.n c.rho ((a : Int) * b) = z ∧ z < c.n ∧ z * B ^ size c.n ≡ a * b [MOD c.n] := by
  have hpos : 0 < c.n := by have := h.odd; omega
  have hlt : ((a : Int) * b).natAbs < c.n * B ^ size c.n := by
    have e : ((a : Int) * b).natAbs = a * b := by rw [← Int.natCast_mul]; rfl
    rw [e]
    calc a * b ≤ c.n * c.n := Nat.mul_le_mul ha hb
      _ < c.n * B ^ size c.n := Nat.mul_lt_mul_of_pos_left (n_lt c h) hpos
  obtain ⟨z, h1, h2, h3⟩ := reduce_spec c.n c.rho h.rho hpos _ hlt
  have e : ((a : Int) * b).natAbs = a * b := by rw [← Int.natCast_mul]; rfl
  rw [e] at h2
  refine ⟨z, ?_, h1, h2⟩
  rw [h3, if_neg]
  rw [← Int.natCast_mul]; omega

theorem into_spec (c : Ctx) (h : Good c) (a : Int) : ∃ z : Nat, into c a = z ∧ z < c.n ∧ (z : Int) ≡ a * (B ^ size c.n : Nat) [ZMOD c.n] := by
  have hpos : 0 < c.n := by have := h.odd; omega
  have hz : ∃ w : Nat, (if a < 0 ∨ (c.n : Int) ≤ a then a % c.n else a) = w ∧ w < c.n ∧ (w : Int) ≡ a [ZMOD c.n] := by
    split_ifs with hc
    · have h1 := Int.emod_nonneg a (show (c.n : Int) ≠ 0 by omega)
      have h2 := Int.emod_lt_of_pos a (show (0 : Int) < c.n by omega)
      refine ⟨(a % c.n).toNat, by omega, by omega, ?_⟩
      rw [Int.toNat_of_nonneg h1]
      exact Int.mod_modEq _ _
    · exact ⟨a.toNat, by omega, by omega, by rw [Int.toNat_of_nonneg (by omega)]⟩
  obtain ⟨w, e1, hw, hwc⟩ := hz
  obtain ⟨z, g1, g2, g3⟩ := red_mul c h w c.rr hw.le h.rr_lt.le
  refine ⟨z, ?_, g2, ?_⟩
  · unfold into
    simp only
    rw [e1, g1]
  · have g4 : z * B ^ size c.n ≡ (w * B ^ size c.n) * B ^ size c.n [MOD c.n] := by
      refine g3.trans ?_
      rw [Nat.mul_assoc]
      exact h.rr_val.mul_left w
    have g5 : z ≡ w * B ^ size c.n [MOD c.n] := Nat.ModEq.cancel_right_of_coprime (by rw [Nat.gcd_comm]; exact coprime_pow c h) g4
    have g6 : (z : Int) ≡ ((w * B ^ size c.n : Nat) : Int) [ZMOD c.n] := Int.natCast_modEq_iff.mpr g5
    refine g6.trans ?_
    rw [Nat.cast_mul]
    exact hwc.mul_right _

/-- C109 (GMP). The constructor accepts exactly the positive odd numbers. -/
theorem C109_gmp_new (n : Int) : (∃ c, mkCtx n = some c) ↔ 0 < n ∧ n % 2 = 1 := by
  constructor
  · rintro ⟨c, hc⟩
    by_contra h
    rw [(mkCtx_spec n).1 (by omega)] at hc
    cases hc
  · intro h
    obtain ⟨c, hc, -⟩ := (mkCtx_spec n).2 (by omega)
    exact ⟨c, hc⟩

theorem good_of_mk {n : Int} {c : Ctx} (h : mkCtx n = some c) : (c.n : Int) = n ∧ Good c := by
  have hn := (C109_gmp_new n).1 ⟨c, h⟩
  obtain ⟨c', h', h1, h2⟩ := (mkCtx_spec n).2 (by omega)
  rw [h] at h'
  cases h'
  exact ⟨h1, h2⟩

theorem back_eq (c : Ctx) (h : Good c) (z : Nat) (hz : z ≤ c.n) (a : Int) (hza : (z : Int) ≡ a * (B ^ size c.n : Nat) [ZMOD c.n]) : back c z = a % c.n := by
  have hpos : 0 < c.n := by have := h.odd; omega
  obtain ⟨y, g1, g2, g3⟩ := red_mul c h z 1 hz (by omega)
  unfold back
  have e : (z : Int) * ((1 : Nat) : Int) = z := by push_cast; ring
  rw [e] at g1
  rw [g1]
  have g4 : (y : Int) * (B ^ size c.n : Nat) ≡ a * (B ^ size c.n : Nat) [ZMOD c.n] := by
    rw [← Int.natCast_mul]
    refine (Int.natCast_modEq_iff.mpr g3).trans ?_
    rw [Nat.mul_one]
    exact hza
  have g5 : (y : Int) ≡ a [ZMOD c.n] := by
    refine Int.ModEq.cancel_right_div_gcd (by omega) g4 |> fun h' => ?_
    have hg : Int.gcd c.n ((B ^ size c.n : Nat) : Int) = 1 := by
      rw [Int.gcd_natCast_natCast, Nat.gcd_comm]
      exact coprime_pow c h
    rw [hg] at h'
    simpa using h'
  rw [← g5, Int.emod_eq_of_lt (by omega) (by omega)]

/-- C109 (GMP). Mapping a number into the space and back gives its residue. -/
theorem C109_gmp_roundtrip (n : Int) (c : Ctx) (hc : mkCtx n = some c) (a : Int) : back c (into c a) = a % n := by
  obtain ⟨e, h⟩ := good_of_mk hc
  obtain ⟨z, h1, h2, h3⟩ := into_spec c h a
  rw [h1, back_eq c h z h2.le a h3, e]

/-- The number that a number in Montgomery form stands for, in `ZMod n`. -/
noncomputable def val (c : Ctx) (a : Int) : ZMod c.n := (a : ZMod c.n) * ((B ^ size c.n : Nat) : ZMod c.n)⁻¹

theorem unit_mul_inv (c : Ctx) (h : Good c) : ((B ^ size c.n : Nat) : ZMod c.n) * ((B ^ size c.n : Nat) : ZMod c.n)⁻¹ = 1 :=
  ZMod.coe_mul_inv_eq_one _ (coprime_pow c h)

theorem law (c : Ctx) (h : Good c) : (space c).Law (fun a => 0 ≤ a ∧ a ≤ c.n) (val c) := by
  have hu := unit_mul_inv c h
  refine ⟨⟨by simp [space], by simpa [space] using h.r_le⟩, ?_, ?_, ?_⟩
  · show val c (c.r : Int) = 1
    unfold val
    have : ((c.r : Int) : ZMod c.n) = ((B ^ size c.n : Nat) : ZMod c.n) := by
      rw [Int.cast_natCast]
      exact (ZMod.natCast_eq_natCast_iff _ _ _).mpr h.r_val
    rw [this, hu]
  · rintro a b ⟨ha0, ha⟩ ⟨hb0, hb⟩
    obtain ⟨z, g1, g2, -⟩ := red_mul c h a.toNat b.toNat (by omega) (by omega)
    rw [Int.toNat_of_nonneg ha0, Int.toNat_of_nonneg hb0] at g1
    show 0 ≤ mul c a b ∧ mul c a b ≤ c.n
    unfold mul
    rw [g1]; omega
  · rintro a b ⟨ha0, ha⟩ ⟨hb0, hb⟩
    obtain ⟨z, g1, g2, g3⟩ := red_mul c h a.toNat b.toNat (by omega) (by omega)
    rw [Int.toNat_of_nonneg ha0, Int.toNat_of_nonneg hb0] at g1
    show val c (mul c a b) = _
    unfold mul val
    rw [g1]
    have g4 : (z : ZMod c.n) * ((B ^ size c.n : Nat) : ZMod c.n) = (a : ZMod c.n) * (b : ZMod c.n) := by
      have := (ZMod.natCast_eq_natCast_iff _ _ _).mpr g3
      rw [Nat.cast_mul, Nat.cast_mul] at this
      have ea : ((a.toNat : Nat) : ZMod c.n) = (a : ZMod c.n) := by
        rw [← Int.cast_natCast, Int.toNat_of_nonneg ha0]
      have eb : ((b.toNat : Nat) : ZMod c.n) = (b : ZMod c.n) := by
        rw [← Int.cast_natCast, Int.toNat_of_nonneg hb0]
      rw [ea, eb] at this
      exact this
    rw [Int.cast_natCast]
    set u := ((B ^ size c.n : Nat) : ZMod c.n)
    calc (z : ZMod c.n) * u⁻¹ = (z * u) * u⁻¹ * u⁻¹ := by rw [mul_assoc (z : ZMod c.n), hu, mul_one]
      _ = _ := by rw [g4]; ring

theorem val_into (c : Ctx) (h : Good c) (a : Int) : val c (into c a) = (a : ZMod c.n) := by
  obtain ⟨z, h1, h2, h3⟩ := into_spec c h a
  unfold val
  rw [h1]
  have : ((z : Int) : ZMod c.n) = ((a * (B ^ size c.n : Nat) : Int) : ZMod c.n) := (ZMod.intCast_eq_intCast_iff _ _ _).mpr h3
  rw [this, Int.cast_mul, Int.cast_natCast, mul_assoc, unit_mul_inv c h, mul_one]

theorem back_of_val (c : Ctx) (h : Good c) (r : Int) (hr : 0 ≤ r ∧ r ≤ c.n) (a : Int) (hv : val c r = (a : ZMod c.n)) : back c r = a % c.n := by
  have e : (r.toNat : Int) = r := Int.toNat_of_nonneg hr.1
  rw [← e]
  apply back_eq c h _ (by omega)
  rw [e]
  have : ((r : Int) : ZMod c.n) = ((a * (B ^ size c.n : Nat) : Int) : ZMod c.n) := by
    rw [Int.cast_mul, Int.cast_natCast, ← hv]
    unfold val
    rw [mul_assoc, mul_comm _⁻¹, unit_mul_inv c h, mul_one]
  exact (ZMod.intCast_eq_intCast_iff _ _ _).mp this

/-- C109 (GMP). Multiplying in the space multiplies the numbers. -/
theorem C109_gmp_mul (n : Int) (c : Ctx) (hc : mkCtx n = some c) (a b : Int) : back c (mul c (into c a) (into c b)) = a * b % n := by
  obtain ⟨e, h⟩ := good_of_mk hc
  obtain ⟨z, h1, h2, -⟩ := into_spec c h a
  obtain ⟨w, g1, g2, -⟩ := into_spec c h b
  have ha : 0 ≤ into c a ∧ into c a ≤ c.n := by rw [h1]; omega
  have hb : 0 ≤ into c b ∧ into c b ≤ c.n := by rw [g1]; omega
  rw [← e]
  apply back_of_val c h _ ((law c h).mul_ok _ _ ha hb)
  have := (law c h).mul_val _ _ ha hb
  rw [val_into c h, val_into c h] at this
  rw [Int.cast_mul]
  exact this

/-- C109 (GMP). Exponentiation with a table: for every positive odd modulus, every base that is not negative, every unit below 32 bits and every exponent within the size the table
was made for, the result is `base^e mod n`; other exponents are refused. -/
theorem C109_gmp_pow (n : Int) (c : Ctx) (hc : mkCtx n = some c) (base : Int) (hbase : 0 ≤ base) (unit max : Nat) (hu0 : 0 < unit) (hu : unit < 32) :
    ∃ T, makeTable (space c) base unit max = .ok T ∧ max ≤ T.maxBits ∧
      (∀ e : Nat, e.size ≤ T.maxBits → ∃ r, powMod (space c) 64 T e (getWords 64 e) = .ok r ∧ back c r = base ^ e % n) ∧
      (∀ e : Int, e < 0 ∨ T.maxBits < e.natAbs.size → powMod (space c) 64 T e (getWords 64 e.natAbs) = .throws) := by
  obtain ⟨en, h⟩ := good_of_mk hc
  obtain ⟨T, hT, hmax⟩ := (C109_table (space c) base unit max).2 (by simpa [space] using hbase) hu0 hu
  have hb : 0 ≤ (space c).into base ∧ (space c).into base ≤ c.n := by
    obtain ⟨z, h1, h2, -⟩ := into_spec c h base
    show 0 ≤ into c base ∧ _
    rw [show (space c).into base = into c base from rfl, h1]; omega
  refine ⟨T, hT, hmax, ?_, ?_⟩
  · intro e he
    obtain ⟨w1, w2⟩ := getWords_ok 64 e (by omega)
    obtain ⟨r, h1, h2, h3⟩ := (C109_pow (law c h) base hb unit max T hT 64 (by omega) le_rfl e _ w1 (by simpa using w2)).1 ⟨by omega, by simpa using he⟩
    refine ⟨r, h1, ?_⟩
    rw [← en]
    apply back_of_val c h r h2
    rw [h3]
    show val c (into c base) ^ _ = _
    rw [val_into c h, Int.cast_pow]
    rfl
  · intro e he
    obtain ⟨w1, w2⟩ := getWords_ok 64 e.natAbs (by omega)
    exact (C109_pow (law c h) base hb unit max T hT 64 (by omega) le_rfl e _ w1 w2).2 (by omega)

end Yacl.BigInt.Gmp
