import Verif.Ecc.Montgomery
import Verif.Ecc.Primes

/-! C97 on the predefined curve curve25519, with no hypothesis left. -/
namespace Yacl.Ecc.Mont

/-- The field size and the order of toy/factory.cc L50-51. -/
abbrev P25519 : ℕ := 57896044618658097711785492504343953926634992332820282019728792003956564819949
abbrev N25519 : ℕ := 7237005577332262213973186563042994240857116359379907606001950938285454250989

example : P25519 = 2 ^ 255 - 19 := by decide +kernel
example : N25519 = 2 ^ 252 + 0x14def9dea2f79cd65812631a5cf5d3ed := by decide +kernel

instance : Fact P25519.Prime := ⟨Primes.p25519⟩

/-- toy/factory.cc L44-53. -/
def c25519 : Params := ⟨486662, P25519, N25519⟩

theorem size_p : Nat.size P25519 = 255 := by
  have h1 : Nat.size P25519 ≤ 255 := Nat.size_le.2 (by decide +kernel)
  have h2 : 254 < Nat.size P25519 := Nat.lt_size.2 (by decide +kernel)
  omega

theorem c25519_valid : Valid c25519 P25519 where
  hp := rfl
  odd := by decide +kernel
  size := size_p
  a24 := by decide
  elliptic := by
    change ((486662 : Int) : ZMod P25519) ^ 2 ≠ 4
    intro h
    have h' : ((486662 ^ 2 - 4 : Int) : ZMod P25519) = 0 := by
      rw [Int.cast_sub, Int.cast_pow, h]; norm_num
    rw [ZMod.intCast_zmod_eq_zero_iff_dvd] at h'
    revert h'
    decide +kernel

/-- The y-coordinate of the generator, toy/factory.cc L49. -/
abbrev gy : ℕ := 0x20ae19a1b8a086b4e01edd2c7748d14c923d4d7e6d7c61b229e9c5a27eced3d9

abbrev F := ZMod P25519
abbrev ι : Int →+* F := φ (RingHom.id F)

theorem g_nonsingular : (curve (ι 486662)).Nonsingular (ι 9) (ι gy) := by
  refine ((curve (ι 486662)).equation_iff_nonsingular_of_Δ_ne_zero ?_).1 ?_
  · have h2 : (2 : F) ≠ 0 := two_ne (RingHom.id F) c25519_valid.odd
    have hA := A_ne (f := RingHom.id F) c25519_valid
    have : (curve (ι 486662)).Δ = 2 ^ 4 * ((ι 486662) ^ 2 - 4) := by
      simp only [WeierstrassCurve.Δ, WeierstrassCurve.b₂, WeierstrassCurve.b₄, WeierstrassCurve.b₆, WeierstrassCurve.b₈, curve]
      ring
    rw [this]
    exact mul_ne_zero (pow_ne_zero 4 h2) (sub_ne_zero.2 hA)
  · rw [WeierstrassCurve.Affine.equation_iff]
    have e : ι ((gy : Int) ^ 2) = ι (9 ^ 3 + 486662 * 9 ^ 2 + 9) := by
      rw [← φ_mod, ← φ_mod (9 ^ 3 + 486662 * 9 ^ 2 + 9)]
      congr 1
    simp only [map_pow, map_add, map_mul] at e
    simp only [curve]
    linear_combination e

/-- The generator as a point of the curve. -/
def g : (curve (ι 486662)).Point := .some _ _ g_nonsingular

/-- C97: the advertised order is the order of the generator of curve25519. -/
theorem C97_order : addOrderOf g = N25519 := by
  have h9 : ι 9 ≠ 0 := by
    intro h
    have : ((9 : ℕ) : F) = 0 := by exact_mod_cast h
    rw [ZMod.natCast_eq_zero_iff] at this
    revert this
    decide +kernel
  haveI : Fact N25519.Prime := ⟨Primes.n25519⟩
  exact addOrderOf_eq_prime (loop_order (f := RingHom.id F) c25519_valid h9 ⟨_, _, rfl⟩ N25519 255 (by decide +kernel)
    (by decide +kernel)) (WeierstrassCurve.Affine.Point.some_ne_zero _)

/-- From the two running values, whether the product is a given residue. -/
theorem mul_ne (x k y : Int) (h : ((fst (loop c25519 (maskPoint x) (maskScalar k.natAbs) 255 ⟨1, 0, maskPoint x, 1, false⟩)).1 -
    y * (fst (loop c25519 (maskPoint x) (maskScalar k.natAbs) 255 ⟨1, 0, maskPoint x, 1, false⟩)).2) % P25519 ≠ 0)
    (hz : (fst (loop c25519 (maskPoint x) (maskScalar k.natAbs) 255 ⟨1, 0, maskPoint x, 1, false⟩)).2 % P25519 ≠ 0) :
    mul c25519 x k ≠ y := by
  intro hy
  have hfe := final_eq (loop c25519 (maskPoint x) (maskScalar k.natAbs) 255 ⟨1, 0, maskPoint x, 1, false⟩)
  have e : ι (mul c25519 x k) = ι (fst (loop c25519 (maskPoint x) (maskScalar k.natAbs) 255 ⟨1, 0, maskPoint x, 1, false⟩)).1 *
      (ι (fst (loop c25519 (maskPoint x) (maskScalar k.natAbs) 255 ⟨1, 0, maskPoint x, 1, false⟩)).2)⁻¹ := by
    rw [← final_div c25519_valid.hp c25519_valid.odd, ← hfe]
    unfold mul
    rw [show c25519.p.natAbs = P25519 from rfl, size_p]
  revert e h hz
  generalize fst _ = t
  intro h hz e
  have hz' : ι t.2 ≠ 0 := by
    intro h0
    apply hz
    exact Int.emod_eq_zero_of_dvd ((ZMod.intCast_zmod_eq_zero_iff_dvd _ _).1 h0)
  rw [hy, eq_mul_inv_iff_mul_eq₀ hz'] at e
  apply h
  apply Int.emod_eq_zero_of_dvd
  rw [← ZMod.intCast_zmod_eq_zero_iff_dvd]
  have : ι (t.1 - y * t.2) = 0 := by rw [map_sub, map_mul, e, sub_self]
  exact this

/-- C97: multiplication by one does not return the generator (the scalar is clamped), so `Mul` is not the scalar
multiplication that `EcGroup` promises. -/
theorem C97_one_violated : mul c25519 9 1 ≠ 9 :=
  mul_ne 9 1 9 (by decide +kernel) (by decide +kernel)

/-- C97: the negation of the generator is not the generator, although opposite points have the same x-coordinate. -/
theorem C97_negate_violated : negate c25519 9 ≠ 9 ∧ xcoord (-g) = ι 9 :=
  ⟨mul_ne 9 _ 9 (by decide +kernel) (by decide +kernel), rfl⟩

/-- The hypotheses of the ladder theorem hold for the generator. -/
example (k : Int) : ι (mul c25519 9 k) = xcoord (clamp k • g) :=
  (C97_ladder c25519_valid ⟨by decide, by decide +kernel⟩ k g (WeierstrassCurve.Affine.Point.some_ne_zero _) rfl).1

/-- Diffie–Hellman on curve25519 without hypotheses. -/
example (a b : Int) : mul c25519 (mul c25519 9 a) b = mul c25519 (mul c25519 9 b) a :=
  C97_dh c25519_valid ⟨by decide, by decide +kernel⟩ a b

end Yacl.Ecc.Mont
