import Verif.Gf.FieldLib
import Verif.Gf.Props
import Mathlib.Data.ZMod.Basic
import Mathlib.Algebra.Field.ZMod
/-! Property C125: the Galois field libraries compute in the field they name. -/
namespace Verif.GfLib
open Yacl.Gf

/-! ### Prime fields -/

/-- `z` is the representative of the field element `a` of GF(p): in range, and in the class. -/
def Rep (p : Nat) (z : Int) (a : ZMod p) : Prop := 0 ≤ z ∧ z < p ∧ (z : ZMod p) = a

/-- A field element has one representative. -/
theorem Rep.unique {p : Nat} {z z' : Int} {a : ZMod p} (h : Rep p z a) (h' : Rep p z' a) : z = z' := by
  have : ((z : Int) : ZMod p) = ((z' : Int) : ZMod p) := h.2.2.trans h'.2.2.symm
  rw [ZMod.intCast_eq_intCast_iff_dvd_sub] at this
  obtain ⟨k, hk⟩ := this
  have h1 := h.1; have h2 := h.2.1; have h3 := h'.1; have h4 := h'.2.1
  have : k = 0 := by
    by_contra hne
    rcases lt_or_gt_of_ne hne with hlt | hgt
    · nlinarith
    · nlinarith
  subst this
  omega

theorem rep_emod (p : Nat) (hp : 0 < p) (z : Int) : Rep p (z % p) (z : ZMod p) := by
  refine ⟨Int.emod_nonneg _ (by omega), Int.emod_lt_of_pos _ (by omega), ?_⟩
  rw [ZMod.intCast_mod]

theorem gcd_one_iff (p : Nat) [hp : Fact p.Prime] (x : Int) : Int.gcd x p = 1 ↔ (x : ZMod p) ≠ 0 := by
  rw [Ne, ZMod.intCast_zmod_eq_zero_iff_dvd]
  rw [Int.gcd_comm, ← Int.isCoprime_iff_gcd_eq_one]
  exact (Nat.prime_iff_prime_int.mp hp.out).coprime_iff_not_dvd

theorem invertMod_ok (p : Nat) [hp : Fact p.Prime] (x : Int) :
    (((x : ZMod p) = 0) ∧ invertMod x p = none) ∨ ((x : ZMod p) ≠ 0 ∧ ∃ z, invertMod x p = some z ∧ Rep p z (x : ZMod p)⁻¹) := by
  unfold invertMod
  by_cases h : Int.gcd x p = 1
  · right
    have hne := (gcd_one_iff p x).mp h
    refine ⟨hne, _, if_pos h, ?_⟩
    have := rep_emod p hp.out.pos (Int.gcdA x p)
    refine ⟨this.1, this.2.1, this.2.2.trans ?_⟩
    have hb := Int.gcd_eq_gcd_ab x p
    rw [h] at hb
    have hc := congrArg (fun z : Int => (z : ZMod p)) hb
    simp only [Int.cast_natCast, Int.cast_add, Int.cast_mul, Nat.cast_one, CharP.cast_eq_zero, zero_mul, add_zero] at hc
    exact eq_inv_of_mul_eq_one_right (hc.symm.trans (by simp))
  · left
    refine ⟨?_, if_neg h⟩
    by_contra hne
    exact h ((gcd_one_iff p x).mpr hne)

/-- **C125** Prime fields on `MPInt`, for every prime `p`, all field elements (and, where the operations reduce, all integers):
`Add`, `Sub`, `Mul` give the representative of the sum, difference, product in GF(p); `Inv` and `Div` that of the inverse and the
quotient, and throw exactly for a zero divisor; `Pow` that of the power for every integer exponent, and throws exactly for a
negative power of zero; `AddInplace` agrees with `Add`. -/
theorem C125_prime (p : Nat) [hp : Fact p.Prime] (x y : Int) :
    Rep p (Prime.add p x y) ((x : ZMod p) + y) ∧ Rep p (Prime.sub p x y) ((x : ZMod p) - y) ∧
    Rep p (Prime.mul p x y) ((x : ZMod p) * y) ∧ Prime.addInplace p x y = Prime.add p x y ∧
    (match Prime.inv p x with | some z => (x : ZMod p) ≠ 0 ∧ Rep p z (x : ZMod p)⁻¹ | none => (x : ZMod p) = 0) ∧
    (match Prime.div p x y with | some z => (y : ZMod p) ≠ 0 ∧ Rep p z ((x : ZMod p) / y) | none => (y : ZMod p) = 0) ∧
    ∀ e : Int, match Prime.pow p x e with
      | some z => ((x : ZMod p) ≠ 0 ∨ 0 ≤ e) ∧ Rep p z ((x : ZMod p) ^ e)
      | none => (x : ZMod p) = 0 ∧ e < 0 := by
  have hpos := hp.out.pos
  refine ⟨?_, ?_, ?_, rfl, ?_, ?_, fun e => ?_⟩
  · have := rep_emod p hpos (x + y); push_cast at this; exact this
  · have := rep_emod p hpos (x - y); push_cast at this; exact this
  · have := rep_emod p hpos (x * y); push_cast at this; exact this
  · unfold Prime.inv
    rcases invertMod_ok p x with ⟨h, e⟩ | ⟨h, z, e, r⟩
    · rw [e]; exact h
    · rw [e]; exact ⟨h, r⟩
  · unfold Prime.div
    rcases invertMod_ok p y with ⟨h, e⟩ | ⟨h, z, e, r⟩
    · rw [e]; exact h
    · rw [e]
      refine ⟨h, ?_⟩
      have := rep_emod p hpos (x * z)
      push_cast at this
      rw [r.2.2] at this
      exact this
  · unfold Prime.pow powMod
    by_cases he : 0 ≤ e
    · rw [if_pos he]
      refine ⟨Or.inr he, ?_⟩
      have := rep_emod p hpos (x ^ e.toNat)
      push_cast at this
      obtain ⟨n, rfl⟩ := Int.eq_ofNat_of_zero_le he
      simpa using this
    · rw [if_neg he]
      rcases invertMod_ok p x with ⟨h, h2⟩ | ⟨h, z, h2, r⟩
      · rw [h2]; exact ⟨h, by omega⟩
      · rw [h2]
        refine ⟨Or.inl h, ?_⟩
        have := rep_emod p hpos (z ^ (-e).toNat)
        push_cast at this
        rw [r.2.2] at this
        obtain ⟨n, hn⟩ := Int.eq_ofNat_of_zero_le (show 0 ≤ -e by omega)
        have he' : e = -(n : Int) := by omega
        subst he'
        simpa using this

/-- **C125** `Neg` and `NegInplace` on elements of the field give the representative of the negative in GF(p), in debug and release
builds; a debug build refuses everything outside of the field. `IsInField` is true for the representatives only, and the
comparisons are those of the field on them. Not covered: a release build and a number outside of the field, see
`C125_release_neg_violated`. -/
theorem C125_prime_neg_partial (p : Nat) [hp : Fact p.Prime] (debug : Bool) (x y : Int) :
    (Prime.isInField p x = true ↔ ∃ a, Rep p x a) ∧
    (Prime.isInField p x = true → ∃ z, Prime.neg debug p x = some z ∧ Prime.negInplace debug p x = some z ∧ Rep p z (-(x : ZMod p))) ∧
    (Prime.isInField p x = false → Prime.neg true p x = none ∧ Prime.negInplace true p x = none) ∧
    (Prime.isInField p x = true → Prime.isInField p y = true → (Prime.equal x y = true ↔ (x : ZMod p) = y) ∧
      (Prime.isIdentityZero x = true ↔ (x : ZMod p) = 0) ∧ (Prime.isIdentityOne x = true ↔ (x : ZMod p) = 1)) := by
  have hpos := hp.out.pos
  have hone := hp.out.one_lt
  have hfield : ∀ x, Prime.isInField p x = true ↔ 0 ≤ x ∧ x < p := by
    intro x; unfold Prime.isInField; simp
  refine ⟨?_, fun h => ?_, fun h => ?_, fun hx hy => ?_⟩
  · rw [hfield]
    exact ⟨fun h => ⟨x, h.1, h.2, rfl⟩, fun ⟨a, h⟩ => ⟨h.1, h.2.1⟩⟩
  · have hx := (hfield x).mp h
    by_cases h0 : x = 0
    · subst h0
      refine ⟨0, rfl, rfl, le_refl _, by omega, by simp⟩
    · refine ⟨p - x, ?_, ?_, by omega, by omega, by simp⟩
      · simp [Prime.neg, Prime.isIdentityZero, h0, Prime.weakEnforce, h]
      · simp only [Prime.negInplace, Prime.isIdentityZero, h0, Prime.weakEnforce, h, Prime.addInplace, addMod]
        have : (-x + (p : Int)) % p = p - x := by
          rw [show -x + (p : Int) = p - x by ring]
          exact Int.emod_eq_of_lt (by omega) (by omega)
        simp [this]
  · have h0 : x ≠ 0 := by
      intro h0
      subst h0
      rw [← Bool.not_eq_true, hfield] at h
      omega
    simp [Prime.neg, Prime.negInplace, Prime.isIdentityZero, h0, Prime.weakEnforce, h]
  · have hx := (hfield x).mp hx
    have hy := (hfield y).mp hy
    refine ⟨⟨fun h => ?_, fun h => ?_⟩, ⟨fun h => ?_, fun h => ?_⟩, ⟨fun h => ?_, fun h => ?_⟩⟩
    · have : x = y := by simpa [Prime.equal] using h
      rw [this]
    · have := Rep.unique (p := p) ⟨hx.1, hx.2, h⟩ ⟨hy.1, hy.2, rfl⟩
      simpa [Prime.equal] using this
    · have : x = 0 := by simpa [Prime.isIdentityZero] using h
      rw [this]; simp
    · have := Rep.unique (p := p) ⟨hx.1, hx.2, h⟩ ⟨le_refl 0, by omega, by simp⟩
      simpa [Prime.isIdentityZero] using this
    · have : x = 1 := by simpa [Prime.isIdentityOne] using h
      rw [this]; simp
    · have := Rep.unique (p := p) ⟨hx.1, hx.2, h⟩ ⟨zero_le_one, by omega, by simp⟩
      simpa [Prime.isIdentityOne] using this

/-- **C125** The orders that a prime field reports: the number of elements, and of units. -/
theorem C125_prime_orders (p : Nat) [hp : Fact p.Prime] :
    Prime.getOrder p = Nat.card (ZMod p) ∧ Prime.getAddGroupOrder p = Nat.card (ZMod p) ∧ Prime.getBaseFieldOrder p = Nat.card (ZMod p) ∧
    Prime.getMulGroupOrder p = Nat.card (ZMod p)ˣ := by
  have h : Nat.card (ZMod p) = p := by rw [Nat.card_eq_fintype_card, ZMod.card]
  have hu : Nat.card (ZMod p)ˣ = p - 1 := by rw [Nat.card_eq_fintype_card, ZMod.card_units]
  have := hp.out.pos
  refine ⟨by rw [h]; rfl, by rw [h]; rfl, by rw [h]; rfl, ?_⟩
  rw [hu]
  unfold Prime.getMulGroupOrder
  omega

/-- **C125 violated** In a release build `Neg` of a number outside of the field returns a number outside of the field, and not the
one `NegInplace` returns: `Neg(p + 1) = -1`, `NegInplace` gives `p - 1`. `Add`, `Sub`, `Mul` reduce such numbers. -/
theorem C125_release_neg_violated (p : Nat) [hp : Fact p.Prime] :
    Prime.neg false p (p + 1) = some (-1) ∧ Prime.negInplace false p (p + 1) = some ((p : Int) - 1) ∧ Prime.isInField p (-1) = false ∧
    Prime.sub p 0 (p + 1) = p - 1 := by
  have hone := hp.out.one_lt
  have h0 : ((p : Int) + 1) ≠ 0 := by omega
  have hm : (-1 : Int) % p = p - 1 := by
    rw [show (-1 : Int) = (p - 1) + p * (-1) by ring, Int.add_mul_emod_self_left]
    exact Int.emod_eq_of_lt (by omega) (by omega)
  refine ⟨?_, ?_, ?_, ?_⟩
  · simp [Prime.neg, Prime.isIdentityZero, h0, Prime.weakEnforce]
  · simp only [Prime.negInplace, Prime.isIdentityZero, h0, Prime.weakEnforce, Prime.addInplace, addMod]
    rw [show -((p : Int) + 1) + p = -1 by ring, hm]
    simp
  · simp [Prime.isInField]
  · unfold Prime.sub subMod
    rw [show (0 : Int) - (p + 1) = -1 + p * (-1) by ring, Int.add_mul_emod_self_left, hm]

/-- The hypotheses are met: GF(13), 5 / 7 = 10, 2^(-1) = 7. -/
example : Prime.div 13 5 7 = some 10 ∧ Prime.pow 13 2 (-1) = some 7 ∧ Prime.neg true 13 5 = some 8 ∧ Prime.inv 13 26 = none := by decide +kernel

/-! ### Binary fields -/

/-- Characteristic two: every element is its own negative. -/
theorem val128_self (x : BitVec 128) : val128 x + val128 x = 0 := by
  rw [← val128_add, BitVec.xor_self]
  exact val128_zero

theorem val64_self (x : BitVec 64) : val64 x + val64 x = 0 := by
  rw [← val64_add, BitVec.xor_self]
  exact val64_zero

theorem val64_surj (a : AdjoinRoot f64) : ∃ x, val64 x = a := by
  have h0 := C59_irreducible64.ne_zero
  have : Module.Finite (ZMod 2) (AdjoinRoot f64) := (AdjoinRoot.powerBasis h0).finite
  have : Finite (AdjoinRoot f64) := Module.finite_of_finite (ZMod 2)
  have : Fintype (AdjoinRoot f64) := Fintype.ofFinite _
  have hc : Nat.card (AdjoinRoot f64) = 2 ^ 64 := by
    rw [Nat.card_eq_fintype_card, Module.card_eq_pow_finrank (K := ZMod 2), ZMod.card, (AdjoinRoot.powerBasis h0).finrank,
      AdjoinRoot.powerBasis_dim, f64_deg]
  have hinj : Function.Injective (fun i : Fin (2 ^ 64) => val64 (BitVec.ofFin i)) := by
    intro i j h
    have := val64_inj h
    exact congrArg BitVec.toFin this
  have hb := (Function.Injective.bijective_of_nat_card_le hinj (by rw [hc]; simp)).2 a
  obtain ⟨i, hi⟩ := hb
  exact ⟨_, hi⟩

theorem val128_surj (a : AdjoinRoot f128) : ∃ x, val128 x = a := by
  have h0 := C59_irreducible128.ne_zero
  have : Module.Finite (ZMod 2) (AdjoinRoot f128) := (AdjoinRoot.powerBasis h0).finite
  have : Finite (AdjoinRoot f128) := Module.finite_of_finite (ZMod 2)
  have : Fintype (AdjoinRoot f128) := Fintype.ofFinite _
  have hc : Nat.card (AdjoinRoot f128) = 2 ^ 128 := by
    rw [Nat.card_eq_fintype_card, Module.card_eq_pow_finrank (K := ZMod 2), ZMod.card, (AdjoinRoot.powerBasis h0).finrank,
      AdjoinRoot.powerBasis_dim, f128_deg]
  have hinj : Function.Injective (fun i : Fin (2 ^ 128) => val128 (BitVec.ofFin i)) := by
    intro i j h
    have := val128_inj h
    exact congrArg BitVec.toFin this
  have hb := (Function.Injective.bijective_of_nat_card_le hinj (by rw [hc]; simp)).2 a
  obtain ⟨i, hi⟩ := hb
  exact ⟨_, hi⟩

/-- **C125** The binary fields: the words are exactly the elements of GF(2)[X]/f (a field with 2^64 and 2^128 elements), and `Add`, `Sub`,
`Neg`, `Mul` are its operations; in the 64-bit field `Inv` and `Div` are the inverse and the quotient, and throw exactly for a
zero divisor. (Missing: `Pow`, and for 128 bits `Inv` and `Div`, see the violations.) -/
theorem C125_binary_partial :
    Function.Bijective val64 ∧ Function.Bijective val128 ∧
    (∀ x y, val64 (Binary.add x y) = val64 x + val64 y ∧ val64 (Binary.sub x y) = val64 x - val64 y ∧ val64 (Binary.neg x) = -val64 x ∧
      val64 (Binary.mul64 x y) = val64 x * val64 y) ∧
    (∀ x y, val128 (Binary.add x y) = val128 x + val128 y ∧ val128 (Binary.sub x y) = val128 x - val128 y ∧
      val128 (Binary.neg x) = -val128 x ∧ val128 (Binary.mul128 x y) = val128 x * val128 y) ∧
    (∀ x, match Binary.inv64 x with | some z => val64 x ≠ 0 ∧ val64 z = (val64 x)⁻¹ | none => val64 x = 0) ∧
    ∀ x y, match Binary.div64 x y with | some z => val64 y ≠ 0 ∧ val64 z = val64 x / val64 y | none => val64 y = 0 := by
  have hneg64 : ∀ x, -val64 x = val64 x := fun x => neg_eq_of_add_eq_zero_left (val64_self x)
  have hneg128 : ∀ x, -val128 x = val128 x := fun x => neg_eq_of_add_eq_zero_left (val128_self x)
  have hinv : ∀ x, x ≠ 0 → val64 x ≠ 0 ∧ val64 (gf64Inv x) = (val64 x)⁻¹ := by
    intro x hx
    have h := congrArg val64 ((C59_inverse64 x).1 hx)
    rw [val64_mul, val64_one] at h
    exact ⟨fun h0 => hx (val64_inj (h0.trans val64_zero.symm)), eq_inv_of_mul_eq_one_right h⟩
  refine ⟨⟨fun _ _ h => val64_inj h, val64_surj⟩, ⟨fun _ _ h => val128_inj h, val128_surj⟩, fun x y => ⟨val64_add x y, ?_, (hneg64 x).symm, val64_mul x y⟩,
    fun x y => ⟨val128_add x y, ?_, (hneg128 x).symm, val128_mul x y⟩, fun x => ?_, fun x y => ?_⟩
  · rw [sub_eq_add_neg, hneg64]; exact val64_add x y
  · rw [sub_eq_add_neg, hneg128]; exact val128_add x y
  · unfold Binary.inv64
    by_cases hx : x = 0
    · subst hx; simpa using val64_zero
    · rw [if_pos hx]; exact hinv x hx
  · unfold Binary.div64 Binary.inv64
    by_cases hy : y = 0
    · subst hy; simpa using val64_zero
    · rw [if_pos hy]
      refine ⟨(hinv y hy).1, ?_⟩
      show val64 (gf64Mul x (gf64Inv y)) = _
      rw [val64_mul, (hinv y hy).2, div_eq_mul_inv]

theorem powLoop_res (n : Nat) : ∀ (i : Int), i.toNat ≤ n → ∀ res xc, Binary.powLoop res xc i = res := by
  induction n with
  | zero =>
    intro i hi res xc
    unfold Binary.powLoop
    rw [if_neg (by omega)]
  | succ n ih =>
    intro i hi res xc
    unfold Binary.powLoop
    split
    · rename_i h
      rw [if_neg (show ¬ i = 1 by omega)]
      apply ih
      rw [Int.tdiv_eq_ediv_of_nonneg (by omega)]
      omega
    · rfl

/-- **C125 violated** `Pow` of the 64-bit field returns one for every base and every exponent (the loop ends before the exponent is
one, and multiplies only if it is), so it is not the power: for instance not for the exponent one. -/
theorem C125_pow64_violated :
    (∀ x y, Binary.pow64 x y = some 1) ∧ ∃ x, ∀ z, Binary.pow64 x 1 = some z → val64 z ≠ val64 x ^ 1 := by
  have h : ∀ x y, Binary.pow64 x y = some 1 := fun x y => congrArg some (powLoop_res y.toNat y (le_refl _) 1 x)
  refine ⟨h, 2, fun z hz he => ?_⟩
  rw [h] at hz
  rw [pow_one, ← Option.some.inj hz] at he
  exact absurd (val64_inj he) (by decide)

/-- **C125 violated** In the 128-bit field `Pow`, `Inv` and `Div` throw for all arguments. -/
theorem C125_inv128_violated :
    (∀ x y, Binary.pow128 x y = none) ∧ (∀ x, Binary.inv128 x = none) ∧ (∀ x y, Binary.div128 x y = none) ∧
    ∀ x : BitVec 128, x ≠ 0 → ∃ z, val128 z = (val128 x)⁻¹ := by
  have hi : ∀ x, Binary.inv128 x = none := by
    intro x; unfold Binary.inv128; split <;> rfl
  refine ⟨fun _ _ => rfl, hi, fun x y => ?_, fun x _ => val128_surj _⟩
  unfold Binary.div128
  rw [hi]; rfl

/-- **C125 violated** The binary fields report the number of elements as the order of the multiplicative group; raising to the
reported order does not give one, raising to the number below it does. -/
theorem C125_mul_order_violated :
    (∃ x : BitVec 64, x ≠ 0 ∧ val64 x ^ Binary.getMulGroupOrder 64 ≠ 1) ∧
    ∀ x : BitVec 64, x ≠ 0 → val64 x ^ (Binary.getOrder 64 - 1) = 1 := by
  refine ⟨⟨2, by decide, fun h => ?_⟩, fun x hx => ?_⟩
  · rw [show Binary.getMulGroupOrder 64 = 2 ^ 64 from rfl, field_card, ← val64_one] at h
    exact absurd (val64_inj h) (by decide)
  · have hx0 : val64 x ≠ 0 := fun h => hx (val64_inj (h.trans val64_zero.symm))
    apply mul_left_cancel₀ hx0
    rw [mul_one, ← pow_succ', show Binary.getOrder 64 - 1 + 1 = 2 ^ 64 from rfl]
    exact field_card _

/-! ### Serialization of binary fields -/

theorem leBytes_length {w : Nat} (x : BitVec w) (n : Nat) : (Binary.leBytes x n).length = n := by
  unfold Binary.leBytes; simp

theorem ofLe_getLsbD (w : Nat) (bs : List (BitVec 8)) (i : Nat) (hi : i < w) :
    (Binary.ofLeBytes w bs).getLsbD i = ((bs[i / 8]?).getD 0).getLsbD (i % 8) := by
  induction bs generalizing i with
  | nil => simp [Binary.ofLeBytes]
  | cons b bs ih =>
    unfold Binary.ofLeBytes
    rw [BitVec.getLsbD_or, BitVec.getLsbD_shiftLeft, BitVec.getLsbD_setWidth]
    by_cases h8 : i < 8
    · have h1 : i / 8 = 0 := by omega
      have h2 : i % 8 = i := by omega
      simp [h8, h1, h2, hi]
    · have h1 : i / 8 = (i - 8) / 8 + 1 := by omega
      have h2 : i % 8 = (i - 8) % 8 := by omega
      rw [ih (i - 8) (by omega), h1, h2]
      simp [h8, hi, BitVec.getLsbD_of_ge b i (by omega)]

/-- **C125** Element serialization of the binary fields into a buffer of the right length reads back, for every element of both fields;
buffers of another length are refused both ways. -/
theorem C125_binary_element {w : Nat} (hw : w = 64 ∨ w = 128) (x : BitVec w) :
    (∃ bs, Binary.serialize x (w / 8) = some bs ∧ bs.length = w / 8 ∧ Binary.deserialize w bs = some x) ∧
    (∀ n, n ≠ w / 8 → Binary.serialize x n = none) ∧ ∀ bs, bs.length ≠ w / 8 → Binary.deserialize w bs = none := by
  refine ⟨⟨_, if_pos rfl, leBytes_length _ _, ?_⟩, fun n h => if_neg (fun h' => h h'.symm), fun bs h => if_neg (fun h' => h h'.symm)⟩
  unfold Binary.deserialize
  rw [if_pos (leBytes_length _ _).symm]
  congr 1
  apply BitVec.eq_of_getLsbD_eq
  intro i hi
  rw [ofLe_getLsbD w _ i hi]
  have h8 : i / 8 < w / 8 := by rcases hw with h | h <;> subst h <;> omega
  unfold Binary.leBytes
  rw [List.getElem?_map, List.getElem?_range h8]
  simp only [Option.map_some, Option.getD_some, BitVec.getLsbD_extractLsb']
  rw [decide_eq_true (Nat.mod_lt i (by norm_num : 0 < 8)), Bool.true_and]
  congr 1
  omega

/-- **C125 violated** `Serialize` of an item of a binary field throws for every scalar and every non-empty vector: the element
serializer, asked for the size with a null buffer of length zero, refuses the length. Only the empty vector has a serialization,
the msgpack head of an empty array. -/
theorem C125_binary_serialize_violated {w : Nat} (hw : w = 64 ∨ w = 128) :
    (∀ x : BitVec w, Binary.serializeScalar x = none) ∧ (∀ xs : List (BitVec w), xs ≠ [] → Binary.serializeVector xs = none) ∧
    Binary.serializeVector (w := w) [] = some [0x90] := by
  have h : ∀ x : BitVec w, Binary.serializeScalar x = none := by
    intro x
    unfold Binary.serializeScalar Binary.serialize
    rw [if_neg (by rcases hw with h | h <;> subst h <;> decide)]
    rfl
  refine ⟨h, fun xs hx => ?_, rfl⟩
  cases xs with
  | nil => exact absurd rfl hx
  | cons x xs =>
    unfold Binary.serializeVector
    simp only [List.mapM_cons, h]
    rfl

/-! ### Factories -/

/-- **C125** Factories. The `MPInt` library offers itself for prime fields only, and creates a field exactly if a modulus is given that
passes the primality test. The mcl library, for prime fields or with a degree given, offers itself exactly if it can create the field
once a modulus is given. The binary library creates exactly the degrees 64 and 128. -/
theorem C125_factories_partial (isPrime : Nat → Bool) (n : Name) (a : Args) (w : Statics) :
    (mpintCheck n = true ↔ n = .prime) ∧
    (∀ p, mpintCreate isPrime n a = some p ↔ n = .prime ∧ a.mod = some p ∧ isPrime p = true) ∧
    ((mclCreate w n a).isSome = true ↔ mclCheck n a = some true ∧ a.mod.isSome = true) ∧
    (mclCheck n a = none ↔ n ≠ .prime ∧ a.degree = none) ∧
    (∀ k, intelCreate n a = some k ↔ n = .bin ∧ a.degree = some k ∧ (k = 64 ∨ k = 128)) ∧
    (intelCheck n a = true ↔ n = .bin) := by
  refine ⟨by simp [mpintCheck], fun p => ?_, ?_, ?_, fun k => ?_, by simp [intelCheck]⟩
  · unfold mpintCreate
    by_cases hn : n = .prime
    · cases hm : a.mod with
      | none => simp [hn]
      | some q =>
        by_cases hq : isPrime q = true
        · simp only [hn, hq, if_true, true_and, Option.some.injEq]
          exact ⟨fun h => ⟨h, h ▸ hq⟩, fun h => h.1⟩
        · simp only [hn, hq, if_true, true_and, Option.some.injEq]
          exact ⟨fun h => by simp at h, fun h => absurd (h.1 ▸ h.2) hq⟩
    · simp [hn]
  · unfold mclCreate mclCheck
    cases hm : a.mod with
    | none => simp
    | some p =>
      by_cases hn : n = .prime
      · by_cases h : (n, a.degree.getD 1, a.maxBits.getD 512) ∈ mclMetas
        · simp only [h, if_true, Option.isSome_some]
          simp [hn] at h ⊢
          exact h
        · simp only [h, if_false]
          simp [hn] at h ⊢
          exact h
      · cases hd : a.degree with
        | none =>
          have : (n, 1, a.maxBits.getD 512) ∉ mclMetas := by
            intro h
            simp [mclMetas, hn] at h
          simp [hn, this]
        | some d =>
          by_cases h : (n, d, a.maxBits.getD 512) ∈ mclMetas
          · simp [hn, h]
          · simp [hn, h]
  · unfold mclCheck
    by_cases hn : n = .prime
    · simp [hn]
    · cases hd : a.degree <;> simp [hn]
  · unfold intelCreate
    by_cases hn : n = .bin
    · rw [if_pos hn]
      split
      · rename_i h; rw [h]; simp [hn]; intro e; omega
      · rename_i h; rw [h]; simp [hn]; intro e; omega
      · rename_i h1 h2
        constructor
        · intro h; simp at h
        · rintro ⟨_, h, h3 | h3⟩
          · subst h3; exact absurd h h1
          · subst h3; exact absurd h h2
    · simp [hn]

/-- **C125 violated** The binary library offers itself for every degree, and then cannot create the field unless the degree is 64 or
128: the factory selects it and throws. -/
theorem C125_binary_degree_violated (k : Nat) (h : k ≠ 64) (h' : k ≠ 128) (m b : Option Nat) :
    intelCheck .bin ⟨m, some k, b⟩ = true ∧ intelCreate .bin ⟨m, some k, b⟩ = none := by
  refine ⟨rfl, ?_⟩
  unfold intelCreate
  rw [if_pos rfl]
  split
  · rename_i he; simp at he; exact absurd he h
  · rename_i he; simp at he; exact absurd he h'
  · rfl

/-! ### mcl: the modulus is not part of the field object -/

/-- Creating fields one after the other. -/
def createAll (w : Statics) : List (Name × Args) → Statics
  | [] => w
  | (n, a) :: l => match mclCreate w n a with
    | some (w', _) => createAll w' l
    | none => createAll w l

theorem times_eq (w : Statics) (f : MclField) (n : Nat) : f.times w n = n % f.modulus w := by
  induction n with
  | zero => simp [MclField.times]
  | succ n ih => simp [MclField.times, MclField.add, MclField.one, ih]

/-- **C125** An mcl prime field works modulo its order as long as no field on the same base type (of 256 or of 512 bits) with another
modulus is created afterwards, whatever other fields are created. The full statement would not need this condition, see
`C125_mcl_modulus_violated`. -/
theorem C125_mcl_partial (w : Statics) (a : Args) (p : Nat) (hp : a.mod = some p) (w' : Statics) (f : MclField)
    (hc : mclCreate w .prime a = some (w', f)) (later : List (Name × Args))
    (hl : ∀ n b, (n, b) ∈ later → b.mod = some p ∨ b.maxBits.getD 512 ≠ f.bits) :
    f.order = p ∧ f.orderMul = p - 1 ∧ f.getBaseFieldOrder (createAll w' later) = p ∧
    (∀ x y, f.add (createAll w' later) x y = (x + y) % p) ∧ f.times (createAll w' later) p = 0 := by
  have hbits : f.bits = 256 ∨ f.bits = 512 := by
    unfold mclCreate at hc
    rw [hp] at hc
    simp only at hc
    split at hc
    · rename_i hm
      simp only [Option.some.injEq, Prod.mk.injEq] at hc
      obtain ⟨_, rfl⟩ := hc
      simp [mclMetas] at hm
      obtain ⟨h1, h2⟩ : a.degree.getD 1 = 1 ∧ (a.maxBits.getD 512 = 256 ∨ a.maxBits.getD 512 = 512) := by
        rcases hm with h | h
        · exact ⟨h.1, Or.inl h.2⟩
        · exact ⟨h.1, Or.inr h.2⟩
      simp [h1, h2]
    · simp at hc
  have h0 : f.order = p ∧ f.orderMul = p - 1 ∧ f.modulus w' = p := by
    unfold mclCreate at hc
    rw [hp] at hc
    simp only at hc
    split at hc
    · rename_i hm
      simp only [Option.some.injEq, Prod.mk.injEq] at hc
      obtain ⟨rfl, rfl⟩ := hc
      simp [mclMetas] at hm
      rcases hm with h | h <;> simp [h.1, h.2, MclField.modulus]
    · simp at hc
  have hstep : ∀ (l : List (Name × Args)) (v : Statics), (∀ n b, (n, b) ∈ l → b.mod = some p ∨ b.maxBits.getD 512 ≠ f.bits) →
      f.modulus v = p → f.modulus (createAll v l) = p := by
    intro l
    induction l with
    | nil => intro v _ h; exact h
    | cons c l ih =>
      obtain ⟨n, b⟩ := c
      intro v hl h
      unfold createAll
      have hl' : ∀ n b, (n, b) ∈ l → b.mod = some p ∨ b.maxBits.getD 512 ≠ f.bits := fun n b hb => hl n b (by simp [hb])
      cases hcr : mclCreate v n b with
      | none => exact ih v hl' h
      | some r =>
        obtain ⟨v', g⟩ := r
        refine ih v' hl' ?_
        unfold mclCreate at hcr
        cases hm : b.mod with
        | none => rw [hm] at hcr; simp at hcr
        | some q =>
          rw [hm] at hcr
          simp only at hcr
          split at hcr
          · rename_i hmm
            simp only [Option.some.injEq, Prod.mk.injEq] at hcr
            obtain ⟨rfl, _⟩ := hcr
            rcases hl n b (by simp) with hq | hq
            · rw [hm] at hq
              obtain rfl := Option.some.inj hq
              unfold MclField.modulus at h ⊢
              by_cases h1 : f.bits = 256 <;> by_cases h2 : b.maxBits.getD 512 = 256 <;> simp_all
            · have hb : b.maxBits.getD 512 = 256 ∨ b.maxBits.getD 512 = 512 := by
                simp [mclMetas] at hmm
                rcases hmm with h | h | h | h | h <;> simp [h.2.2]
              unfold MclField.modulus at h ⊢
              rcases hb with h2 | h2 <;> rcases hbits with h1 | h1 <;> simp_all
          · simp at hcr
  have hm := hstep later w' hl h0.2.2
  refine ⟨h0.1, h0.2.1, hm, fun x y => ?_, ?_⟩
  · unfold MclField.add; rw [hm]
  · rw [times_eq, hm, Nat.mod_self]

/-- **C125 violated** Creating a second mcl prime field with another prime changes the first: it still reports its own order `p`, but
computes modulo the new one, so that one added `p` times is not zero. -/
theorem C125_mcl_modulus_violated (p q : Nat) (hp : p.Prime) (hq : q.Prime) (hne : p ≠ q) (w : Statics) :
    ∃ w1 f w2 g, mclCreate w .prime ⟨some p, none, none⟩ = some (w1, f) ∧ f.times w1 p = 0 ∧
      mclCreate w1 .prime ⟨some q, none, none⟩ = some (w2, g) ∧
      f.order = p ∧ f.getBaseFieldOrder w2 = q ∧ MclField.isZero (f.times w2 p) = false := by
  refine ⟨_, _, _, _, rfl, ?_, rfl, rfl, rfl, ?_⟩
  · rw [times_eq]; exact Nat.mod_self p
  · unfold MclField.isZero
    rw [times_eq]
    have : ¬ q ∣ p := fun h => hne ((Nat.prime_dvd_prime_iff_eq hq hp).mp h).symm
    have hmod : p % q ≠ 0 := fun h => this (Nat.dvd_of_mod_eq_zero h)
    exact decide_eq_false hmod

example : ∃ w' f, mclCreate ⟨0, 0⟩ .prime ⟨some 13, none, some 256⟩ = some (w', f) ∧
    f.getBaseFieldOrder (createAll w' [(.prime, ⟨some 17, none, none⟩), (.ext, ⟨some 17, some 12, none⟩)]) = 13 := ⟨_, _, rfl, rfl⟩

end Verif.GfLib
