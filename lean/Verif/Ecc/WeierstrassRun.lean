import Verif.Ecc.Weierstrass

/-! Concrete curves for C96. -/
namespace Yacl.Ecc
open Vss (invertMod)

/-- The equation of secp256k1 over the integers modulo 13; its group has order 7. -/
def small : Params := ⟨0, 7, ⟨7, 5⟩, 13, 7⟩

instance : Fact (Nat.Prime 13) := ⟨by decide⟩
instance : Fact (Nat.Prime 7) := ⟨by decide⟩

theorem small_valid : Valid small 13 :=
  ⟨rfl, by decide +kernel, by decide +kernel⟩

theorem small_points {P : AffinePoint} {P' : (curve 13 small.A small.B).Point} (hP : Represents P P') :
    P ∈ [(⟨0, 0⟩ : AffinePoint), ⟨7, 5⟩, ⟨7, 8⟩, ⟨8, 5⟩, ⟨8, 8⟩, ⟨11, 5⟩, ⟨11, 8⟩] := by
  have h := (C96_membership small_valid P hP.1 hP.2.1).2 ⟨P', hP⟩
  have key : ∀ a b : Fin 13, isInCurveGroup small ⟨(a : ℕ), (b : ℕ)⟩ = true →
      (⟨(a : ℕ), (b : ℕ)⟩ : AffinePoint) ∈
        [(⟨0, 0⟩ : AffinePoint), ⟨7, 5⟩, ⟨7, 8⟩, ⟨8, 5⟩, ⟨8, 8⟩, ⟨11, 5⟩, ⟨11, 8⟩] := by decide +kernel
  obtain ⟨x, y⟩ := P
  obtain ⟨⟨h1, h2⟩, ⟨h3, h4⟩, -⟩ := hP
  simp only [] at h1 h2 h3 h4
  lift x to ℕ using h1
  lift y to ℕ using h3
  exact key ⟨x, by exact_mod_cast h2⟩ ⟨y, by exact_mod_cast h4⟩ h

theorem exists_rep {p : ℕ} [Fact p.Prime] {A B : Int} (Q : (curve p A B).Point) : ∃ P, Represents P Q := by
  cases Q with
  | zero => exact ⟨inf, rep_inf⟩
  | some x y h =>
    have hp0 : 0 < p := (Fact.out : p.Prime).pos
    have : NeZero p := ⟨hp0.ne'⟩
    refine ⟨⟨(x.val : ℕ), (y.val : ℕ)⟩, ⟨?_, ?_⟩, ⟨?_, ?_⟩, by simp, by simp⟩
    · exact Int.natCast_nonneg _
    · exact Int.ofNat_lt.2 (ZMod.val_lt x)
    · exact Int.natCast_nonneg _
    · exact Int.ofNat_lt.2 (ZMod.val_lt y)

theorem small_order (Q : (curve 13 small.A small.B).Point) : small.n • Q = 0 := by
  obtain ⟨P, hP⟩ := exists_rep Q
  have h := pow_good small_valid True (Or.inl trivial) hP 7
  have key : ∀ P ∈ [(⟨0, 0⟩ : AffinePoint), ⟨7, 5⟩, ⟨7, 8⟩, ⟨8, 5⟩, ⟨8, 8⟩, ⟨11, 5⟩, ⟨11, 8⟩],
      slowCustomPow (add small) inf P 7 = some inf := by
    have hd : Nat.digits (2 ^ 60) 7 = [7] := Nat.digits_of_lt _ _ (by decide) (by norm_num)
    unfold slowCustomPow
    rw [hd]
    decide +kernel
  rw [key P (small_points hP)] at h
  exact (C96_equal small_valid h rep_inf).1 rfl

/-- C96: the hypotheses hold on this curve, so that `Mul` is the multiple for every scalar and point. -/
example (P : AffinePoint) (P' : (curve 13 small.A small.B).Point) (hP : Represents P P') (k : Int) :
    ∃ R, mul small P k = some R ∧ Represents R (k • P') := C96_mul small_valid (by decide) (small_order P') hP k

/-- C96: division by 3 and multiplication by 3. -/
example : ∃ R R', div small ⟨7, 5⟩ (-3) = some R ∧ Represents (p := 13) (A := small.A) (B := small.B) R R' ∧
    mul small R (-3) = some ⟨7, 5⟩ := by
  obtain ⟨P', hP⟩ := (C96_membership small_valid ⟨7, 5⟩ (by decide) (by decide)).1 (by decide +kernel)
  have h := C96_div small_valid (by decide) (n := 7) rfl (small_order P') hP (-3)
  rw [if_neg (by decide)] at h
  obtain ⟨R, R', h1, h2, -, h4⟩ := h
  exact ⟨R, R', h1, h2, h4⟩

/-- A curve with a point of order two, (1, 0) on `y² = x³ + x + 11` modulo 13: doubling it throws, negating it leaves the
reduced range. -/
example : add ⟨1, 11, ⟨1, 0⟩, 13, 1⟩ ⟨1, 0⟩ ⟨1, 0⟩ = none ∧ negate ⟨1, 11, ⟨1, 0⟩, 13, 1⟩ ⟨1, 0⟩ = ⟨1, 13⟩ := by
  decide +kernel

/-- toy/factory.cc L22-43: the predefined secp256k1 and sm2 parameters. -/
def secp256k1 : Params :=
  ⟨0, 7, ⟨0x79be667ef9dcbbac55a06295ce870b07029bfcdb2dce28d959f2815b16f81798,
    0x483ada7726a3c4655da4fbfc0e1108a8fd17b448a68554199c47d08ffb10d4b8⟩,
    0xfffffffffffffffffffffffffffffffffffffffffffffffffffffffefffffc2f,
    0xfffffffffffffffffffffffffffffffebaaedce6af48a03bbfd25e8cd0364141⟩
/-- toy/factory.cc L34-43. -/
def sm2 : Params :=
  ⟨0xFFFFFFFEFFFFFFFFFFFFFFFFFFFFFFFFFFFFFFFF00000000FFFFFFFFFFFFFFFC,
    0x28E9FA9E9D9F5E344D5A9E4BCF6509A7F39789F515AB8F92DDBCBD414D940E93,
    ⟨0x32C4AE2C1F1981195F9904466A39C9948FE30BBFF2660BE1715A4589334C74C7,
      0xBC3736A2F4F6779C59BDCEE36B692153D0A9877CC62A474002DF32E52139F0A0⟩,
    0xFFFFFFFEFFFFFFFFFFFFFFFFFFFFFFFFFFFFFFFF00000000FFFFFFFFFFFFFFFF,
    0xFFFFFFFEFFFFFFFFFFFFFFFFFFFFFFFF7203DF6B21C6052B53BBF40939D54123⟩

/-- C96: the predefined generators are on their curves, reduced, the discriminants are not zero modulo the field prime
and (0, 0) is not on the curve. -/
theorem C96_predefined : ∀ C ∈ [secp256k1, sm2], isInCurveGroup C C.G = true ∧ isInfinity C.G = false ∧
    0 ≤ C.G.x ∧ C.G.x < C.p ∧ 0 ≤ C.G.y ∧ C.G.y < C.p ∧
    (16 * (4 * C.A ^ 3 + 27 * C.B ^ 2)) % C.p ≠ 0 ∧ C.B % C.p ≠ 0 := by
  decide +kernel

end Yacl.Ecc
