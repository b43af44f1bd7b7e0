import Verif.Ecc.Elligator
import Verif.Ecc.Primes
import Verif.Ecc.SswuSuites

/-! Curve25519: addition, doubling and cofactor clearing follow the group law of `y² = x³ + A x² + x`; hash and encode to curve. -/
namespace Yacl.Ecc.H2C
open Vss (addMod subMod mulMod invertMod cast_mod cast_add cast_sub cast_mul mod_range invertMod_cases eq_of_cast)
open BlockCipher (Byte Bytes beNat beBytes)
open WeierstrassCurve.Affine (Point)

/-- The curve `y² = x³ + A x² + x` over the integers modulo `p`. -/
def mont (p : ℕ) (A : Int) : WeierstrassCurve.Affine (ZMod p) := ⟨0, (A : ZMod p), 0, 1, 0⟩

/-- The pair of byte strings holds the affine coordinates of `Q`, `k` big-endian bytes each. -/
def Holds {p : ℕ} {A : Int} (k : ℕ) (q : Bytes × Bytes) (Q : (mont p A).Point) : Prop :=
  ∃ x y : ℕ, x < p ∧ y < p ∧ q = (beBytes k x, beBytes k y) ∧ ∃ h, Q = .some (x : ZMod p) (y : ZMod p) h

section
variable {p : ℕ} [Fact p.Prime] {A : Int}

theorem mont_eqn {x y : ZMod p} (h : (mont p A).Nonsingular x y) : y ^ 2 = x ^ 3 + A * x ^ 2 + x := by
  have := (WeierstrassCurve.Affine.equation_iff _ _).1 h.1
  simp only [mont] at this
  linear_combination this

theorem mont_negY (x y : ZMod p) : (mont p A).negY x y = -y := by simp [WeierstrassCurve.Affine.negY, mont]

theorem mont_addX (x₁ x₂ l : ZMod p) : (mont p A).addX x₁ x₂ l = l ^ 2 - A - x₁ - x₂ := by
  simp [WeierstrassCurve.Affine.addX, mont]

theorem mont_addY (x₁ x₂ y₁ l : ZMod p) : (mont p A).addY x₁ x₂ y₁ l = (2 * x₁ + x₂ + A) * l - l ^ 3 - y₁ := by
  rw [WeierstrassCurve.Affine.addY, WeierstrassCurve.Affine.negAddY, mont_negY, mont_addX]; ring

theorem mont_nonsingular (h4 : (A : ZMod p) ^ 2 ≠ 4) (h2 : (2 : ZMod p) ≠ 0) {x y : ZMod p} (h : y ^ 2 = x ^ 3 + A * x ^ 2 + x) : (mont p A).Nonsingular x y := by
  have hd : (mont p A).Δ ≠ 0 := by
    have : (mont p A).Δ = 2 ^ 4 * ((A : ZMod p) ^ 2 - 4) := by
      simp only [mont, WeierstrassCurve.Δ, WeierstrassCurve.b₂, WeierstrassCurve.b₄, WeierstrassCurve.b₆, WeierstrassCurve.b₈]
      ring
    rw [this]
    exact mul_ne_zero (pow_ne_zero _ h2) (sub_ne_zero.mpr h4)
  refine (WeierstrassCurve.Affine.equation_iff_nonsingular_of_Δ_ne_zero hd).mp ?_
  rw [WeierstrassCurve.Affine.equation_iff]
  simp only [mont]
  linear_combination h

theorem Elli.two_ne {c : Ctx} (hc : Elli c p) : (2 : ZMod p) ≠ 0 := fun h => hc.two ⟨0, by rw [h]; ring⟩

theorem natCast_toNat {v : ℤ} (h : 0 ≤ v) : ((v.toNat : ℕ) : ZMod p) = (v : ZMod p) := by
  have : ((v.toNat : ℤ) : ZMod p) = (v : ZMod p) := by rw [Int.toNat_of_nonneg h]
  rwa [Int.cast_natCast] at this

theorem nat_inj {a b : ℕ} (ha : a < p) (hb : b < p) (h : (a : ZMod p) = b) : a = b := by
  have := (ZMod.natCast_eq_natCast_iff _ _ _).mp h
  unfold Nat.ModEq at this
  rwa [Nat.mod_eq_of_lt ha, Nat.mod_eq_of_lt hb] at this

theorem sub_range (a b : ℤ) : 0 ≤ subMod a b p ∧ subMod a b p < p := mod_range _

theorem toNat_lt' {a : ℤ} (h : 0 ≤ a ∧ a < p) : a.toNat < p := by omega

/-- The x coordinate of a point that is not at infinity. -/
def xOf : (mont p A).Point → Option (ZMod p)
  | .zero => none
  | .some x _ _ => some x

/-- C104. `PointAdd` of two points with different x coordinates is their sum; when the x coordinates agree it throws. -/
theorem C104_point_add {c : Ctx} (hc : Elli c p) (hA : c.aux! "a" = A) {q r : Bytes × Bytes} {Q R : (mont p A).Point} (hq : Holds c.keySize q Q) (hr : Holds c.keySize r R) :
    (xOf Q = xOf R ∧ pointAdd c q.1 q.2 r.1 r.2 = none) ∨
    (xOf Q ≠ xOf R ∧ ∃ s, pointAdd c q.1 q.2 r.1 r.2 = some s ∧ Holds c.keySize s (Q + R)) := by
  obtain ⟨x, y, lx, ly, rfl, h1, rfl⟩ := hq
  obtain ⟨x', y', lx', ly', rfl, h2, rfl⟩ := hr
  have sz : ∀ v, v < p → beNat (beBytes c.keySize v) = v := fun v hv => beNat_pad _ _ (lt_of_lt_of_le hv hc.size)
  have hinj : ∀ v w, v < p → w < p → (beBytes c.keySize v = beBytes c.keySize w ↔ v = w) := by
    intro v w hv hw
    exact ⟨fun h => by rw [← sz v hv, ← sz w hw, h], fun h => by rw [h]⟩
  have hx : xOf (.some (x : ZMod p) (y : ZMod p) h1 : (mont p A).Point) = xOf (.some (x' : ZMod p) (y' : ZMod p) h2 : (mont p A).Point) ↔ x = x' := by
    simp only [xOf, Option.some.injEq]
    exact ⟨fun h => nat_inj lx lx' h, fun h => by rw [h]⟩
  rw [Ne, hx]
  have hs1 : ((subMod (x' : ℤ) (x : ℤ) p : ℤ) : ZMod p) = (x' : ZMod p) - x := by
    rw [cast_sub, Int.cast_natCast, Int.cast_natCast]
  unfold pointAdd
  simp only [sz x lx, sz y ly, sz x' lx', sz y' ly', hc.aux_p, hA]
  by_cases hxx : x = x'
  · refine Or.inl ⟨hxx, ?_⟩
    split
    · rcases invertMod_cases (p := p) (subMod (x' : ℤ) (x : ℤ) p) with ⟨-, e⟩ | ⟨h, -⟩
      · rw [e]; rfl
      · exact absurd (by rw [hs1, hxx, sub_self]) h
    · rfl
  · refine Or.inr ⟨hxx, ?_⟩
    rw [if_pos (Or.inl fun h => hxx ((hinj _ _ lx lx').mp h))]
    have hne : (x : ZMod p) ≠ x' := fun h => hxx (nat_inj lx lx' h)
    rcases invertMod_cases (p := p) (subMod (x' : ℤ) (x : ℤ) p) with ⟨h, -⟩ | ⟨-, i, e, hi⟩
    · rw [hs1] at h
      exact absurd (sub_eq_zero.mp h).symm hne
    · rw [e, Option.bind_some]
      set l := mulMod (subMod (y' : ℤ) (y : ℤ) p) i p with hl
      have cl : (l : ZMod p) = (mont p A).slope (x : ZMod p) x' y y' := by
        rw [hl, cast_mul, cast_sub, hi, hs1, WeierstrassCurve.Affine.slope_of_X_ne hne, Int.cast_natCast, Int.cast_natCast]
        have n1 : (x : ZMod p) - x' ≠ 0 := sub_ne_zero.2 hne
        have n2 : (x' : ZMod p) - x ≠ 0 := sub_ne_zero.2 (Ne.symm hne)
        field_simp
        ring
      clear_value l
      rw [pad_of hc.size (sub_range _ _), Option.bind_some, pad_of hc.size (sub_range _ _), Option.map_some]
      refine ⟨_, rfl, _, _, ?_, ?_, rfl, ?_⟩
      · exact toNat_lt' (sub_range _ _)
      · exact toNat_lt' (sub_range _ _)
      · rw [WeierstrassCurve.Affine.Point.add_some (fun h => hne h.1)]
        have ex : (((subMod (subMod (subMod (mulMod l l p) A p) x p) x' p).toNat : ℕ) : ZMod p) = (mont p A).addX (x : ZMod p) x' ((mont p A).slope (x : ZMod p) x' y y') := by
          rw [natCast_toNat (sub_range _ _).1, cast_sub, cast_sub, cast_sub, cast_mul, mont_addX, cl, Int.cast_natCast, Int.cast_natCast]
          ring
        have ey : (((subMod (subMod (mulMod (addMod (addMod (mulMod x 2 p) x' p) A p) l p) (mulMod (mulMod l l p) l p) p) y p).toNat : ℕ) : ZMod p) =
            (mont p A).addY (x : ZMod p) x' y ((mont p A).slope (x : ZMod p) x' y y') := by
          rw [natCast_toNat (sub_range _ _).1, cast_sub, cast_sub, cast_mul, cast_add, cast_add, cast_mul, cast_mul, cast_mul, mont_addY, cl, Int.cast_natCast, Int.cast_natCast, Int.cast_natCast]
          push_cast
          ring
        refine ⟨?_, ?_⟩
        · rw [ex, ey]
          exact WeierstrassCurve.Affine.nonsingular_add h1 h2 (fun h => hne h.1)
        · simp only [ex, ey]

/-- C104. `PointDbl` doubles the point; it throws when the double is the point at infinity. -/
theorem C104_point_dbl {c : Ctx} (hc : Elli c p) (hA : c.aux! "a" = A) {q : Bytes × Bytes} {Q : (mont p A).Point} (hq : Holds c.keySize q Q) :
    (Q + Q = 0 ∧ pointDbl c q.1 q.2 = none) ∨ (Q + Q ≠ 0 ∧ ∃ s, pointDbl c q.1 q.2 = some s ∧ Holds c.keySize s (Q + Q)) := by
  obtain ⟨x, y, lx, ly, rfl, h1, rfl⟩ := hq
  have sz : ∀ v, v < p → beNat (beBytes c.keySize v) = v := fun v hv => beNat_pad _ _ (lt_of_lt_of_le hv hc.size)
  have hs1 : ((mulMod (y : ℤ) 2 p : ℤ) : ZMod p) = 2 * (y : ZMod p) := by
    rw [cast_mul, Int.cast_natCast]; push_cast; ring
  unfold pointDbl
  simp only [sz x lx, sz y ly, hc.aux_p, hA]
  by_cases hy0 : (y : ZMod p) = 0
  · refine Or.inl ⟨?_, ?_⟩
    · exact WeierstrassCurve.Affine.Point.add_self_of_Y_eq (by rw [mont_negY, hy0, neg_zero])
    · rcases invertMod_cases (p := p) (mulMod (y : ℤ) 2 p) with ⟨-, e⟩ | ⟨h, -⟩
      · rw [e]; rfl
      · exact absurd (by rw [hs1, hy0, mul_zero]) h
  · have h2y : (2 : ZMod p) * y ≠ 0 := mul_ne_zero hc.two_ne hy0
    have hne : ¬ ((x : ZMod p) = x ∧ (y : ZMod p) = (mont p A).negY (x : ZMod p) y) := by
      rintro ⟨-, h⟩
      rw [mont_negY] at h
      exact h2y (by linear_combination h)
    refine Or.inr ⟨?_, ?_⟩
    · rw [WeierstrassCurve.Affine.Point.add_some hne]
      exact WeierstrassCurve.Affine.Point.some_ne_zero _
    rcases invertMod_cases (p := p) (mulMod (y : ℤ) 2 p) with ⟨h, -⟩ | ⟨-, i, e, hi⟩
    · exact absurd (by rw [← hs1]; exact h) h2y
    · rw [e, Option.bind_some]
      set l := mulMod (addMod (addMod (mulMod (mulMod x x p) 3 p) (mulMod (mulMod x A p) 2 p) p) 1 p) i p with hl
      have cl : (l : ZMod p) = (mont p A).slope (x : ZMod p) x y y := by
        rw [hl, cast_mul, cast_add, cast_add, cast_mul, cast_mul, cast_mul, cast_mul, hi, hs1,
          WeierstrassCurve.Affine.slope_of_Y_ne rfl (fun h => hne ⟨rfl, h⟩), mont_negY, Int.cast_natCast]
        simp only [mont]
        push_cast
        rw [div_eq_mul_inv]
        congr 1
        · ring
        · rw [show (y : ZMod p) - -y = 2 * y by ring]
      clear_value l
      rw [pad_of hc.size (sub_range _ _), Option.bind_some, pad_of hc.size (sub_range _ _), Option.map_some]
      refine ⟨_, rfl, _, _, ?_, ?_, rfl, ?_⟩
      · exact toNat_lt' (sub_range _ _)
      · exact toNat_lt' (sub_range _ _)
      · rw [WeierstrassCurve.Affine.Point.add_some hne]
        have ex : (((subMod (subMod (powMod l 2 p) A p) (mulMod x 2 p) p).toNat : ℕ) : ZMod p) = (mont p A).addX (x : ZMod p) x ((mont p A).slope (x : ZMod p) x y y) := by
          rw [natCast_toNat (sub_range _ _).1, cast_sub, cast_sub, cast_pow, cast_mul, mont_addX, cl, Int.cast_natCast]
          simp only [show (2 : ℤ).toNat = 2 from rfl]
          push_cast
          ring
        have ey : (((subMod (subMod (mulMod (addMod (mulMod x 3 p) A p) l p) (powMod l 3 p) p) y p).toNat : ℕ) : ZMod p) =
            (mont p A).addY (x : ZMod p) x y ((mont p A).slope (x : ZMod p) x y y) := by
          rw [natCast_toNat (sub_range _ _).1, cast_sub, cast_sub, cast_pow, cast_mul, cast_add, cast_mul, mont_addY, cl, Int.cast_natCast, Int.cast_natCast]
          simp only [show (3 : ℤ).toNat = 3 from rfl]
          push_cast
          ring
        refine ⟨?_, ?_⟩
        · rw [ex, ey]
          exact WeierstrassCurve.Affine.nonsingular_add h1 h1 hne
        · simp only [ex, ey]

/-- C104. `PointClearCofactor` multiplies by eight; it throws when the product is the point at infinity. -/
theorem C104_cofactor {c : Ctx} (hc : Elli c p) (hA : c.aux! "a" = A) {q : Bytes × Bytes} {Q : (mont p A).Point} (hq : Holds c.keySize q Q) :
    (8 • Q = 0 ∧ clearCofactor c q.1 q.2 = none) ∨ (8 • Q ≠ 0 ∧ ∃ s, clearCofactor c q.1 q.2 = some s ∧ Holds c.keySize s (8 • Q)) := by
  have e8 : 8 • Q = ((Q + Q) + (Q + Q)) + ((Q + Q) + (Q + Q)) := by abel
  unfold clearCofactor
  rw [e8]
  rcases C104_point_dbl hc hA hq with ⟨h1, e1⟩ | ⟨-, s, e1, hs⟩
  · rw [e1, h1]; exact Or.inl ⟨by simp, rfl⟩
  rw [e1, Option.bind_some]
  rcases C104_point_dbl hc hA hs with ⟨h2, e2⟩ | ⟨-, t, e2, ht⟩
  · rw [e2, h2]; exact Or.inl ⟨by simp, rfl⟩
  rw [e2, Option.bind_some]
  exact C104_point_dbl hc hA ht

/-- `Q` is the point the Elligator 2 map of the RFC gives for the field element `u`. -/
def IsElligator (p : ℕ) [Fact p.Prime] (A : Int) (u : ℕ) (Q : (mont p A).Point) : Prop :=
  ∃ x y : ℕ, Rfc.Elligator p (A : ZMod p) u x y ∧ ∃ h, Q = .some (x : ZMod p) (y : ZMod p) h

/-- There is exactly one such point. -/
theorem elligator_unique (h2 : p % 2 = 1) (u : ℕ) (Q Q' : (mont p A).Point) (h : IsElligator p A u Q) (h' : IsElligator p A u Q') : Q = Q' := by
  obtain ⟨x, y, ⟨lx, ly, hd, H⟩, hn, rfl⟩ := h
  obtain ⟨x', y', ⟨lx', ly', -, H'⟩, hn', rfl⟩ := h'
  have hx1 : (-(A : ZMod p) / (1 + 2 * (u : ZMod p) ^ 2)) * (1 + 2 * (u : ZMod p) ^ 2) = -A := div_mul_cancel₀ _ hd
  obtain ⟨a1, a2, a3⟩ := H _ hx1
  obtain ⟨b1, b2, b3⟩ := H' _ hx1
  have key : x = x' ∧ y = y' := by
    have hxx : x = x' ∧ ((y ≠ 0 → y % 2 = 1) ∧ (y' ≠ 0 → y' % 2 = 1) ∨ (y % 2 = 0 ∧ y' % 2 = 0)) := by
      by_cases hs : IsSquare ((-(A : ZMod p) / (1 + 2 * (u : ZMod p) ^ 2)) ^ 3 + A * (-(A : ZMod p) / (1 + 2 * (u : ZMod p) ^ 2)) ^ 2 + -(A : ZMod p) / (1 + 2 * (u : ZMod p) ^ 2))
      · exact ⟨nat_inj lx lx' (by rw [(a1 hs).1, (b1 hs).1]), Or.inl ⟨(a1 hs).2, (b1 hs).2⟩⟩
      · exact ⟨nat_inj lx lx' (by rw [(a2 hs).1, (b2 hs).1]), Or.inr ⟨(a2 hs).2, (b2 hs).2⟩⟩
    obtain ⟨rfl, hpar⟩ := hxx
    refine ⟨rfl, ?_⟩
    have hsq : ((y : ZMod p) - y') * (y + y') = 0 := by linear_combination a3 - b3
    rcases mul_eq_zero.mp hsq with h | h
    · exact nat_inj ly ly' (sub_eq_zero.mp h)
    · have hs : ((y + y' : ℕ) : ZMod p) = 0 := by push_cast; exact h
      rw [ZMod.natCast_eq_zero_iff] at hs
      obtain ⟨k, hk⟩ := hs
      have hk2 : k < 2 := by
        have : p * k < p * 2 := by omega
        exact Nat.lt_of_mul_lt_mul_left this
      have hk01 : k = 0 ∨ k = 1 := by omega
      rcases hk01 with rfl | rfl
      · omega
      · by_cases h0 : y = 0
        · omega
        · by_cases h0' : y' = 0
          · omega
          · rcases hpar with ⟨q1, q2⟩ | ⟨q1, q2⟩
            · have := q1 h0; have := q2 h0'; omega
            · omega
  obtain ⟨rfl, rfl⟩ := key
  rfl

theorem elligator_point {c : Ctx} (hc : Elli c p) (hA : c.aux! "a" = A) (ubuf : Bytes) (hne : ubuf ≠ []) :
    ∃ q Q, mapToCurveG2 c ubuf = some q ∧ IsElligator p A (beNat ubuf) Q ∧ Holds c.keySize q Q := by
  obtain ⟨x, y, e, hs⟩ := C104_elligator hc ubuf hne
  rw [hA] at hs
  have h4 := hc.hA
  rw [hA] at h4
  have hx1 : (-(A : ZMod p) / (1 + 2 * ((beNat ubuf : ℕ) : ZMod p) ^ 2)) * (1 + 2 * ((beNat ubuf : ℕ) : ZMod p) ^ 2) = -A := div_mul_cancel₀ _ hs.2.2.1
  have hn := mont_nonsingular h4 hc.two_ne (hs.2.2.2 _ hx1).2.2
  exact ⟨_, .some _ _ hn, e, ⟨x, y, hs, hn, rfl⟩, x, y, hs.1, hs.2.1, rfl, hn, rfl⟩

/-- The affine point has the (reduced) coordinates of `Q`. -/
def Is (P : AffinePoint) (Q : (mont p A).Point) : Prop :=
  (0 ≤ P.x ∧ P.x < p) ∧ (0 ≤ P.y ∧ P.y < p) ∧ ∃ h, Q = .some (P.x : ZMod p) (P.y : ZMod p) h

theorem holds_is {c : Ctx} (hc : Elli c p) {q : Bytes × Bytes} {Q : (mont p A).Point} (h : Holds c.keySize q Q) :
    ∃ P, ((deserialize q.1 c.keySize).bind fun x => (deserialize q.2 c.keySize).map fun y => (⟨x, y⟩ : AffinePoint)) = some P ∧ Is P Q := by
  obtain ⟨x, y, lx, ly, rfl, hn, rfl⟩ := h
  have sz : ∀ v, v < p → deserialize (beBytes c.keySize v) c.keySize = some (v : ℤ) := by
    intro v hv
    unfold deserialize
    rw [if_pos (BlockCipher.beBytes_length _ _), beNat_pad _ _ (lt_of_lt_of_le hv hc.size)]
  refine ⟨⟨x, y⟩, ?_, ⟨Int.natCast_nonneg _, by show (x : ℤ) < p; omega⟩, ⟨Int.natCast_nonneg _, by show (y : ℤ) < p; omega⟩, ?_⟩
  · rw [sz x lx, sz y ly]; rfl
  · have ex : ((x : ℤ) : ZMod p) = (x : ZMod p) := Int.cast_natCast _
    have ey : ((y : ℤ) : ZMod p) = (y : ZMod p) := Int.cast_natCast _
    refine ⟨by show (mont p A).Nonsingular ((x : ℤ) : ZMod p) ((y : ℤ) : ZMod p); rw [ex, ey]; exact hn, ?_⟩
    simp only [ex, ey]

/-- C104. `HashToCurve` of Curve25519 for every message and every accepted tag: eight times the sum of the Elligator points of the two field elements of the RFC.
It throws exactly when the two points have the same x coordinate, or when eight times their sum is the point at infinity. -/
theorem C104_hash_25519_partial {c : Ctx} (hc : Elli c p) (hA : c.aux! "a" = A) (hk : 0 < c.keySize) (msg dst : Bytes) (hacc : Accepts c dst (2 * 48)) :
    ∃ Q0 Q1, IsElligator p A ((Rfc.field c.hash.fn c.hash.size c.sInBytes p 48 msg dst 2).getD 0 0) Q0 ∧
      IsElligator p A ((Rfc.field c.hash.fn c.hash.size c.sInBytes p 48 msg dst 2).getD 1 0) Q1 ∧
      (hashToCurve25519 c msg dst = none ↔ xOf Q0 = xOf Q1 ∨ 8 • (Q0 + Q1) = 0) ∧
      ∀ R, hashToCurve25519 c msg dst = some R → Is R (8 • (Q0 + Q1)) := by
  have hpos : 0 < p := (Fact.out : p.Prime).pos
  unfold hashToCurve25519
  rw [if_pos ⟨hacc.2.2.1, hacc.2.2.2⟩, C104_field c p hc.hp hpos hc.size, if_pos hacc, Option.bind_some]
  have hf : ∃ v0 v1, Rfc.field c.hash.fn c.hash.size c.sInBytes p 48 msg dst 2 = [v0, v1] ∧ v0 < p ∧ v1 < p :=
    ⟨_, _, rfl, Nat.mod_lt _ hpos, Nat.mod_lt _ hpos⟩
  obtain ⟨v0, v1, hf, l0, l1⟩ := hf
  rw [hf]
  simp only [List.map_cons, List.map_nil, List.getD_cons_zero, List.getD_cons_succ]
  have hne : ∀ v, beBytes c.keySize v ≠ [] := by
    intro v h
    have := congrArg List.length h
    rw [BlockCipher.beBytes_length, List.length_nil] at this
    omega
  obtain ⟨q, Q, e1, s1, r1⟩ := elligator_point hc hA _ (hne v0)
  obtain ⟨r, R, e2, s2, r2⟩ := elligator_point hc hA _ (hne v1)
  rw [beNat_pad _ _ (lt_of_lt_of_le l0 hc.size)] at s1
  rw [beNat_pad _ _ (lt_of_lt_of_le l1 hc.size)] at s2
  refine ⟨Q, R, s1, s2, ?_⟩
  rw [e1, Option.bind_some, e2, Option.bind_some]
  rcases C104_point_add hc hA r1 r2 with ⟨h1, e3⟩ | ⟨h1, s, e3, r3⟩
  · rw [e3]
    exact ⟨⟨fun _ => Or.inl h1, fun _ => rfl⟩, fun R h => by cases h⟩
  · rw [e3, Option.bind_some]
    rcases C104_cofactor hc hA r3 with ⟨h4, e4⟩ | ⟨h4, t, e4, r4⟩
    · rw [e4]
      exact ⟨⟨fun _ => Or.inr h4, fun _ => rfl⟩, fun R h => by cases h⟩
    · rw [e4, Option.bind_some]
      obtain ⟨P, e5, r5⟩ := holds_is hc r4
      rw [e5]
      refine ⟨⟨fun h => (by cases h), fun h => ?_⟩, fun R h => by cases h; exact r5⟩
      rcases h with h | h
      · exact absurd h h1
      · exact absurd h h4

/-- C104. `EncodeToCurve` of Curve25519: eight times the Elligator point; it throws exactly when that is the point at infinity. -/
theorem C104_encode_25519_partial {c : Ctx} (hc : Elli c p) (hA : c.aux! "a" = A) (hk : 0 < c.keySize) (msg dst : Bytes) (hacc : Accepts c dst (1 * 48)) :
    ∃ Q, IsElligator p A ((Rfc.field c.hash.fn c.hash.size c.sInBytes p 48 msg dst 1).getD 0 0) Q ∧
      (encodeToCurve25519 c msg dst = none ↔ 8 • Q = 0) ∧ ∀ R, encodeToCurve25519 c msg dst = some R → Is R (8 • Q) := by
  have hpos : 0 < p := (Fact.out : p.Prime).pos
  unfold encodeToCurve25519
  rw [if_pos ⟨hacc.2.2.1, hacc.2.2.2⟩, C104_field c p hc.hp hpos hc.size, if_pos hacc, Option.bind_some]
  have hf : ∃ v0, Rfc.field c.hash.fn c.hash.size c.sInBytes p 48 msg dst 1 = [v0] ∧ v0 < p := ⟨_, rfl, Nat.mod_lt _ hpos⟩
  obtain ⟨v0, hf, l0⟩ := hf
  rw [hf]
  simp only [List.map_cons, List.map_nil, List.getD_cons_zero]
  have hne : beBytes c.keySize v0 ≠ [] := by
    intro h
    have := congrArg List.length h
    rw [BlockCipher.beBytes_length, List.length_nil] at this
    omega
  obtain ⟨q, Q, e1, s1, r1⟩ := elligator_point hc hA _ hne
  rw [beNat_pad _ _ (lt_of_lt_of_le l0 hc.size)] at s1
  refine ⟨Q, s1, ?_⟩
  rw [e1, Option.bind_some]
  rcases C104_cofactor hc hA r1 with ⟨h4, e4⟩ | ⟨h4, t, e4, r4⟩
  · rw [e4]
    exact ⟨⟨fun _ => h4, fun _ => rfl⟩, fun R h => by cases h⟩
  · rw [e4, Option.bind_some]
    obtain ⟨P, e5, r5⟩ := holds_is hc r4
    rw [e5]
    exact ⟨⟨fun h => (by cases h), fun h => absurd h h4⟩, fun R h => by cases h; exact r5⟩

/-- When the two field elements agree, `HashToCurve` of Curve25519 throws, although RFC 9380 defines the result. -/
theorem equal_elements_throw {c : Ctx} (hc : Elli c p) (hk : 0 < c.keySize) (msg dst : Bytes) (hacc : Accepts c dst (2 * 48))
    (he : (Rfc.field c.hash.fn c.hash.size c.sInBytes p 48 msg dst 2).getD 0 0 = (Rfc.field c.hash.fn c.hash.size c.sInBytes p 48 msg dst 2).getD 1 0) :
    hashToCurve25519 c msg dst = none := by
  obtain ⟨Q0, Q1, h0, h1, h2, -⟩ := C104_hash_25519_partial (A := c.aux! "a") hc rfl hk msg dst hacc
  rw [he] at h0
  rw [h2]
  left
  rw [elligator_unique (by have := hc.h58; omega) _ _ _ h0 h1]

end

/-- The field size of Curve25519. -/
def P25519 : ℕ := 57896044618658097711785492504343953926634992332820282019728792003956564819949
instance : Fact P25519.Prime := ⟨Primes.p25519⟩

theorem elli_25519 (h : Hash) : Elli (ctx25519 h) P25519 where
  hp := rfl
  h58 := by decide +kernel
  c4 := by
    show (0xffffffffffffffffffffffffffffffffffffffffffffffffffffffffffffffd : ℤ) = _
    decide +kernel
  sm1 := by
    have := eq_of_emod (p := P25519) (0x547cdb7fb03e20f4d4b2ff66c2042858d0bce7f952d01b873b11e4d8b5f15f3d ^ 2) (-1) (by decide +kernel)
    rw [Int.cast_pow, Int.cast_neg, Int.cast_one] at this
    exact this
  c2 := by
    have := eq_of_emod (p := P25519) (0x2b8324804fc1df0b2b4d00993dfbd7a72f431806ad2fe478c4ee1b274a0ea0b1 ^ 4) (-4) (by decide +kernel)
    rw [Int.cast_pow, Int.cast_neg, show ((4 : ℤ) : ZMod P25519) = 4 by norm_num] at this
    exact this
  two := by
    have := nonsquare_of (p := P25519) 2 (by decide +kernel) (by decide +kernel)
    exact_mod_cast this
  size := by
    show P25519 ≤ 256 ^ 32
    decide +kernel
  hA := by
    have := ne_zero_of (p := P25519) (0x76d06 ^ 2 - 4) (by decide +kernel)
    rw [Int.cast_sub, Int.cast_pow, show ((4 : ℤ) : ZMod P25519) = 4 by norm_num] at this
    exact sub_ne_zero.mp this

/-- C104, for the constants of Curve25519 and a 64-byte hash: every message and every tag of 16 to 255 bytes. -/
theorem C104_25519_partial (h : Hash) (hs : h.size = 64) (msg dst : Bytes) (hd : 16 ≤ dst.length ∧ dst.length ≤ 255) :
    (∃ Q0 Q1, IsElligator P25519 486662 ((Rfc.field h.fn 64 128 P25519 48 msg dst 2).getD 0 0) Q0 ∧
      IsElligator P25519 486662 ((Rfc.field h.fn 64 128 P25519 48 msg dst 2).getD 1 0) Q1 ∧
      (hashToCurve25519 (ctx25519 h) msg dst = none ↔ xOf Q0 = xOf Q1 ∨ 8 • (Q0 + Q1) = 0) ∧
      ∀ R, hashToCurve25519 (ctx25519 h) msg dst = some R → Is R (8 • (Q0 + Q1))) ∧
    (∃ Q, IsElligator P25519 486662 ((Rfc.field h.fn 64 128 P25519 48 msg dst 1).getD 0 0) Q ∧
      (encodeToCurve25519 (ctx25519 h) msg dst = none ↔ 8 • Q = 0) ∧ ∀ R, encodeToCurve25519 (ctx25519 h) msg dst = some R → Is R (8 • Q)) := by
  have e1 : (ctx25519 h).hash.size = 64 := hs
  have a1 : Accepts (ctx25519 h) dst (2 * 48) := ⟨by rw [e1]; omega, by omega, hd.1, hd.2⟩
  have a2 : Accepts (ctx25519 h) dst (1 * 48) := ⟨by rw [e1]; omega, by omega, hd.1, hd.2⟩
  have r1 := C104_hash_25519_partial (A := 486662) (elli_25519 h) rfl (by show 0 < 32; decide) msg dst a1
  have r2 := C104_encode_25519_partial (A := 486662) (elli_25519 h) rfl (by show 0 < 32; decide) msg dst a2
  rw [e1] at r1 r2
  exact ⟨r1, r2⟩

/-- A hash of 64 bytes for examples: all digests are equal. -/
def const64 : Hash := ⟨64, fun _ => List.replicate 64 7, by decide, fun _ => rfl⟩

/-- C104, violated for Curve25519: when the two field elements coincide (here with a hash whose digests are all equal) `HashToCurve` throws. -/
theorem C104_25519_violated (msg dst : Bytes) : hashToCurve25519 (ctx25519 const64) msg dst = none := by
  by_cases hd : 16 ≤ dst.length ∧ dst.length ≤ 255
  · refine equal_elements_throw (elli_25519 const64) (by show 0 < 32; decide) msg dst ⟨by show (2 * 48 + 64 - 1) / 64 ≤ 255; decide, by omega, hd.1, hd.2⟩ ?_
    show (Rfc.field (fun _ => List.replicate 64 7) 64 128 P25519 48 msg dst 2).getD 0 0 = (Rfc.field (fun _ => List.replicate 64 7) 64 128 P25519 48 msg dst 2).getD 1 0
    rfl
  · exact if_neg hd

end Yacl.Ecc.H2C
