import Verif.Ecc.CudaScalar
import Mathlib.FieldTheory.Finite.Basic
import Mathlib.NumberTheory.LegendreSymbol.Basic

/-! Model of the field inversion, the square root and the way back to affine coordinates of the GPU code for SM2
(yacl/crypto/ecc/cuda/kernels/sm2_kernels.cu). -/

namespace Yacl.Cuda

/-- sm2_kernels.cu L762-783 `sm2PMinus2Bit`: the limbs of the exponent of the inversion. -/
def expInv : Fe := ⟨0xFFFFFFFFFFFFFFFD, 0xFFFFFFFF00000000, 0xFFFFFFFFFFFFFFFF, 0xFFFFFFFEFFFFFFFF⟩
/-- sm2_kernels.cu L837-859 `sm2PPlus1Over4Bit`: the limbs of the exponent of the square root. -/
def expSqrt : Fe := ⟨0x4000000000000000, 0xFFFFFFFFC0000000, 0xFFFFFFFFFFFFFFFF, 0x3FFFFFFFBFFFFFFF⟩

/-- The bit of an exponent: limb `bit >> 6`, offset `bit & 63`. -/
def bit (e : Fe) (i : ℕ) : ℕ := e.limb (i / 64) / 2 ^ (i % 64) % 2

/-- The search for the last set bit of the window (L813-815): `d` positions are left up to the leading bit of the window, which is set. -/
def lastOne (e : Fe) : ℕ → ℕ → ℕ
  | 0, j => j
  | d + 1, j => if bit e j = 0 then lastOne e d (j + 1) else j

/-- The squarings of a window (L818-821): `n` bits from `j + n - 1` down to `j`. -/
def squareWin (e : Fe) (j : ℕ) : ℕ → Fe → ℕ → Fe × ℕ
  | 0, r, w => (r, w)
  | n + 1, r, w => squareWin e j n (fpSqr r) (2 * w + bit e (j + n))

/-- The loop of `fpInv` and `fpSqrt` (L803-826, L885-908): `n` is `i + 1`. -/
def powLoop (e : Fe) (table : List Fe) : ℕ → ℕ → Fe → Fe
  | 0, _, r => r
  | _, 0, r => r
  | fuel + 1, i + 1, r =>
    if bit e i = 0 then powLoop e table fuel i (fpSqr r)
    else
      let j := lastOne e (i - (i - 2)) (i - 2)
      let s := squareWin e j (i + 1 - j) r 0
      powLoop e table fuel j (fpMul s.1 (table.getD ((s.2 - 1) / 2) fpZero))

/-- The table of odd powers (L791-800, L874-882). -/
def powTable (a : Fe) : List Fe :=
  let a2 := fpSqr a
  let t1 := fpMul a a2
  let t2 := fpMul t1 a2
  [a, t1, t2, fpMul t2 a2]

/-- sm2_kernels.cu L787-834 `fpInv`. -/
def fpInv (a : Fe) : Fe := powLoop expInv (powTable a) 256 256 fpOne

/-- sm2_kernels.cu L863-921 `fpSqrt`: `none` when it returns false. -/
def fpSqrt (a : Fe) : Option Fe :=
  if fpIsZero a then some fpZero else
    let result := powLoop expSqrt (powTable a) 254 254 fpOne
    if !fpEqual (fpSqr result) a then none else some result

/-- sm2_kernels.cu L943-966 `jacobianToAffine`. -/
def jacobianToAffine (j : Jac) : Aff :=
  if jIsInf j then ⟨fpZero, fpZero⟩ else
    let zInv := fpInv j.Z
    let zInv2 := fpSqr zInv
    let zInv3 := fpMul zInv2 zInv
    ⟨fpMul j.X zInv2, fpMul j.Y zInv3⟩

/-! ### Proof -/

theorem limb64 (k : Fe) (hk : k.Wf) (q : ℕ) (hq : q < 4) : k.limb q = k.val / 2 ^ (64 * q) % 2 ^ 64 := by
  obtain ⟨h0, h1, h2, h3⟩ := hk
  match q, hq with
  | 0, _ => simp only [Fe.limb, Fe.val]; norm_num; omega
  | 1, _ => simp only [Fe.limb, Fe.val]; norm_num; omega
  | 2, _ => simp only [Fe.limb, Fe.val]; norm_num; omega
  | 3, _ => simp only [Fe.limb, Fe.val]; norm_num; omega

theorem bit_eq (e : Fe) (he : e.Wf) (i : ℕ) (hi : i < 256) : bit e i = e.val / 2 ^ i % 2 := by
  simp only [bit]
  rw [limb64 e he (i / 64) (by omega)]
  have hr : i % 64 < 64 := Nat.mod_lt _ (by norm_num)
  have e2 : (2 : ℕ) ^ 64 = 2 ^ (i % 64) * 2 ^ (63 - i % 64 + 1) := by rw [← pow_add]; congr 1; omega
  rw [e2, Nat.mod_mul_right_div_self, Nat.div_div_eq_div_mul, ← pow_add, show 64 * (i / 64) + i % 64 = i by omega]
  exact Nat.mod_mod_of_dvd _ (dvd_pow_self 2 (by omega))

theorem lastOne_spec (e : Fe) (d : ℕ) : ∀ j, bit e (j + d) ≠ 0 → bit e (lastOne e d j) ≠ 0 ∧ j ≤ lastOne e d j ∧ lastOne e d j ≤ j + d := by
  induction d with
  | zero => intro j h; exact ⟨h, le_refl _, le_refl _⟩
  | succ d ih =>
    intro j h
    simp only [lastOne]
    split
    · obtain ⟨a, b, c⟩ := ih (j + 1) (by rwa [show j + 1 + d = j + (d + 1) by omega])
      exact ⟨a, by omega, by omega⟩
    · next h0 => exact ⟨h0, le_refl _, by omega⟩

theorem squareWin_spec (e : Fe) (he : e.Wf) (j : ℕ) (a : ZMod Pm) (n : ℕ) : ∀ (r : Fe) (w x : ℕ), j + n ≤ 256 → r.Red → r.dec = a ^ x →
    (squareWin e j n r w).1.Red ∧ (squareWin e j n r w).1.dec = a ^ (2 ^ n * x) ∧
    (squareWin e j n r w).2 = 2 ^ n * w + e.val / 2 ^ j % 2 ^ n := by
  induction n with
  | zero => intro r w x _ hr hx; exact ⟨hr, by simpa [squareWin] using hx, by simp [squareWin, Nat.mod_one]⟩
  | succ n ih =>
    intro r w x hj hr hx
    simp only [squareWin]
    obtain ⟨h1, h2, h3⟩ := ih (fpSqr r) (2 * w + bit e (j + n)) (2 * x) (by omega) (r_sqr hr) (by rw [d_sqr hr, hx, ← pow_mul, mul_comm])
    refine ⟨h1, by rw [h2]; congr 1; ring, ?_⟩
    rw [h3, bit_eq e he (j + n) (by omega), Nat.mod_pow_succ, pow_add, ← Nat.div_div_eq_div_mul]
    ring

theorem powTable_spec {a : Fe} (ha : a.Red) (i : ℕ) (hi : i < 4) :
    ((powTable a).getD i fpZero).Red ∧ ((powTable a).getD i fpZero).dec = a.dec ^ (2 * i + 1) := by
  have h2 := r_sqr ha
  have t1 := r_mul ha h2
  have t2 := r_mul t1 h2
  have t3 := r_mul t2 h2
  match i, hi with
  | 0, _ => exact ⟨ha, by simp [powTable]⟩
  | 1, _ =>
    simp only [powTable, List.getD_cons_succ, List.getD_cons_zero]
    refine ⟨t1, ?_⟩
    rw [d_mul ha h2, d_sqr ha, ← pow_succ']
  | 2, _ =>
    simp only [powTable, List.getD_cons_succ, List.getD_cons_zero]
    refine ⟨t2, ?_⟩
    rw [d_mul t1 h2, d_mul ha h2, d_sqr ha, ← pow_succ', ← pow_add]
  | 3, _ =>
    simp only [powTable, List.getD_cons_succ, List.getD_cons_zero]
    refine ⟨t3, ?_⟩
    rw [d_mul t2 h2, d_mul t1 h2, d_mul ha h2, d_sqr ha, ← pow_succ', ← pow_add, ← pow_add]

theorem powLoop_spec (e : Fe) (he : e.Wf) {a : Fe} (ha : a.Red) (fuel : ℕ) : ∀ (n : ℕ) (r : Fe), n ≤ fuel → n ≤ 256 → r.Red →
    r.dec = a.dec ^ (e.val / 2 ^ n) →
    (powLoop e (powTable a) fuel n r).Red ∧ (powLoop e (powTable a) fuel n r).dec = a.dec ^ e.val := by
  induction fuel with
  | zero =>
    intro n r hn _ hr hx
    obtain rfl : n = 0 := by omega
    exact ⟨hr, by simpa [powLoop] using hx⟩
  | succ fuel ih =>
    intro n r hn hn2 hr hx
    cases n with
    | zero => exact ⟨hr, by simpa [powLoop] using hx⟩
    | succ i =>
      simp only [powLoop]
      have hb := bit_eq e he i (by omega)
      have hdiv : e.val / 2 ^ i = 2 * (e.val / 2 ^ (i + 1)) + bit e i := by
        rw [hb, pow_succ, ← Nat.div_div_eq_div_mul]; omega
      split
      · next h0 =>
        refine ih i (fpSqr r) (by omega) (by omega) (r_sqr hr) ?_
        rw [d_sqr hr, hx, ← pow_mul, hdiv, h0, add_zero, mul_comm]
      · next h0 =>
        have hl := lastOne_spec e (i - (i - 2)) (i - 2) (by rwa [show i - 2 + (i - (i - 2)) = i by omega])
        generalize lastOne e (i - (i - 2)) (i - 2) = j at *
        obtain ⟨l1, l2, l3⟩ := hl
        obtain ⟨s1, s2, s3⟩ := squareWin_spec e he j a.dec (i + 1 - j) r 0 _ (by omega) hr hx
        generalize squareWin e j (i + 1 - j) r 0 = s at *
        have hbj := bit_eq e he j (by omega)
        have hw : s.2 < 8 := by
          rw [s3]
          have : e.val / 2 ^ j % 2 ^ (i + 1 - j) < 2 ^ (i + 1 - j) := Nat.mod_lt _ (by positivity)
          have : 2 ^ (i + 1 - j) ≤ 2 ^ 3 := Nat.pow_le_pow_right (by norm_num) (by omega)
          omega
        have hodd : s.2 % 2 = 1 := by
          rw [s3, mul_zero, zero_add, Nat.mod_mod_of_dvd _ (dvd_pow_self 2 (by omega)), ← hbj]
          have : bit e j < 2 := Nat.mod_lt _ (by norm_num)
          omega
        obtain ⟨t1, t2⟩ := powTable_spec ha ((s.2 - 1) / 2) (by omega)
        refine ih j _ (by omega) (by omega) (r_mul s1 t1) ?_
        rw [d_mul s1 t1, s2, t2, ← pow_add]
        congr 1
        rw [show 2 * ((s.2 - 1) / 2) + 1 = s.2 by omega, s3, mul_zero, zero_add]
        have : e.val / 2 ^ (i + 1) = e.val / 2 ^ j / 2 ^ (i + 1 - j) := by
          rw [Nat.div_div_eq_div_mul, ← pow_add]; congr 2; omega
        rw [this]
        exact Nat.div_add_mod _ _

theorem exp_start {e : Fe} {n : ℕ} {a : Fe} (h : e.val < 2 ^ n) : fpOne.dec = a.dec ^ (e.val / 2 ^ n) := by
  rw [Nat.div_eq_of_lt h, pow_zero, dec_one]

theorem fermat {p : ℕ} [Fact p.Prime] (hp : 3 ≤ p) (a : ZMod p) : a ^ (p - 2) = a⁻¹ := by
  by_cases h : a = 0
  · rw [h, inv_zero, zero_pow (by omega)]
  · have := ZMod.pow_card_sub_one_eq_one h
    rw [show p - 1 = p - 2 + 1 by omega, pow_succ] at this
    exact eq_inv_of_mul_eq_one_left this

/-- C150: the inversion; the inverse of zero is zero. -/
theorem C150_inv (a : Fe) (ha : a.Red) : (fpInv a).Red ∧ (fpInv a).dec = (a.dec)⁻¹ := by
  have hv : expInv.val = Pm - 2 := by decide
  obtain ⟨h1, h2⟩ := powLoop_spec expInv (by unfold Fe.Wf; decide) ha 256 256 fpOne (le_refl _) (le_refl _) red_one
    (exp_start (by rw [hv]; norm_num))
  refine ⟨h1, ?_⟩
  rw [← fermat (by norm_num), ← hv]
  exact h2

theorem sqrt_pow {p : ℕ} [Fact p.Prime] {e : ℕ} (he : 4 * e = p + 1) (hp : 2 < p) {a : ZMod p} (h : IsSquare a) : (a ^ e) ^ 2 = a := by
  by_cases ha : a = 0
  · rw [ha, zero_pow (by omega), zero_pow (by norm_num)]
  · have := (ZMod.euler_criterion p ha).1 h
    rw [← pow_mul, show e * 2 = p / 2 + 1 by omega, pow_succ, this, one_mul]

/-- C150: the square root: a root is returned exactly for the squares. -/
theorem C150_sqrt (a : Fe) (ha : a.Red) : (IsSquare a.dec → ∃ r, fpSqrt a = some r ∧ r.Red ∧ r.dec ^ 2 = a.dec) ∧
    (¬ IsSquare a.dec → fpSqrt a = none) := by
  have hv : 4 * expSqrt.val = Pm + 1 := by decide
  obtain ⟨h1, h2⟩ := powLoop_spec expSqrt (by unfold Fe.Wf; decide) ha 254 254 fpOne (le_refl _) (by norm_num) red_one
    (exp_start (by have := hv; omega))
  have hz := z_iff ha
  simp only [fpSqrt]
  have he := C148_equal (fpSqr (powLoop expSqrt (powTable a) 254 254 fpOne)) a (r_sqr h1) ha
  rw [d_sqr h1] at he
  by_cases h0 : fpIsZero a = true
  · rw [if_pos h0]
    have hz := hz.1 h0
    refine ⟨fun _ => ⟨_, rfl, red_zero, by rw [dec_zero, hz]; ring⟩, fun h => absurd (by rw [hz]; exact ⟨0, by ring⟩) h⟩
  · rw [if_neg h0]
    constructor
    · intro hs
      have := sqrt_pow hv (by norm_num) hs
      rw [← h2] at this
      rw [he.2 this]
      exact ⟨_, rfl, h1, this⟩
    · intro hs
      have : fpEqual (fpSqr (powLoop expSqrt (powTable a) 254 254 fpOne)) a = false := by
        rw [Bool.eq_false_iff]
        intro h
        exact hs ⟨_, by rw [← he.1 h, pow_two]⟩
      rw [this]
      rfl

theorem aff_alg {F : Type*} [Field F] {x z : F} (hz : z ≠ 0) : x * z ^ 2 * (z⁻¹) ^ 2 = x := by field_simp
theorem aff_alg' {F : Type*} [Field F] {y z : F} (hz : z ≠ 0) : y * z ^ 3 * ((z⁻¹) ^ 2 * z⁻¹) = y := by field_simp

/-- C150: a Jacobian point leaves as the affine point it stands for. -/
theorem C150_affine {j : Jac} {Q : E.Point} (h : RepJ j Q) : RepA (jacobianToAffine j) Q := by
  have hi := isInf_iff h
  unfold jacobianToAffine
  cases Q with
  | zero => rw [if_pos (hi.2 rfl)]; exact ⟨⟨red_zero, red_zero⟩, dec_zero, dec_zero⟩
  | some x y hh =>
    rw [if_neg (fun e => WeierstrassCurve.Affine.Point.some_ne_zero hh (hi.1 e))]
    obtain ⟨⟨hX, hY, hZ⟩, hz, hx, hy⟩ := h
    obtain ⟨i1, i2⟩ := C150_inv j.Z hZ
    simp only []
    generalize fpInv j.Z = zi at *
    refine ⟨⟨by red, by red⟩, ?_, ?_⟩
    · simp only []
      rw [d_mul hX (r_sqr i1), d_sqr i1, i2, hx]
      exact aff_alg hz
    · simp only []
      rw [d_mul hY (r_mul (r_sqr i1) i1), d_mul (r_sqr i1) i1, d_sqr i1, i2, hy]
      exact aff_alg' hz

/-- Both cases of the square root occur: 4 is a square; and the affine form of the generator doubled. -/
example : ∃ a : Fe, a.Red ∧ IsSquare a.dec ∧ a.dec ≠ 0 :=
  ⟨fpOne, red_one, by rw [dec_one]; exact IsSquare.one, by rw [dec_one]; exact one_ne_zero⟩
example : ∃ a : Fe, a.Red ∧ ¬ IsSquare a.dec := by
  refine ⟨fpNeg fpOne, (C148_neg _ red_one).1, ?_⟩
  rw [(C148_neg _ red_one).2, dec_one]
  intro h
  rw [ZMod.exists_sq_eq_neg_one_iff] at h
  exact h (by norm_num)
example : ∃ (Q : E.Point) (j : Jac), Q ≠ 0 ∧ RepJ j Q ∧ RepA (jacobianToAffine j) Q := by
  obtain ⟨G, -, -, hne, h⟩ := C148_generator
  exact ⟨G, _, hne, C148_lift h, C150_affine (C148_lift h)⟩

end Yacl.Cuda
