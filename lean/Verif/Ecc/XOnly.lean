import Mathlib.AlgebraicGeometry.EllipticCurve.Affine.Point
import Mathlib.Tactic.FieldSimp
import Mathlib.Tactic.LinearCombination
import Mathlib.Tactic.ByContra

/-! X-only arithmetic on `y² = x³ + A x² + x`: the doubling and the differential addition of the Montgomery ladder, for
every point of the curve over any field of characteristic other than two.  Lemmas for C97. -/
namespace Yacl.Ecc.Mont
open WeierstrassCurve.Affine

variable {K : Type*} [Field K] [DecidableEq K]

/-- `y² = x³ + A x² + x`. -/
def curve (A : K) : WeierstrassCurve.Affine K := ⟨0, A, 0, 1, 0⟩

/-- `X / Z` is the x-coordinate of the point (`Z = 0` at infinity). -/
def XRel {A : K} (Q : (curve A).Point) (X Z : K) : Prop :=
  match Q with
  | .zero => Z = 0 ∧ X ≠ 0
  | .some x _ _ => Z ≠ 0 ∧ X = x * Z

/-- The x-coordinate, with 0 at infinity. -/
def xcoord {A : K} (Q : (curve A).Point) : K :=
  match Q with
  | .zero => 0
  | .some x _ _ => x

omit [DecidableEq K] in
theorem eqn {A x y : K} (h : (curve A).Nonsingular x y) : y ^ 2 = x * (x ^ 2 + A * x + 1) := by
  have := (equation_iff _ _).1 h.1
  simp only [curve] at this
  linear_combination this

omit [DecidableEq K] in
theorem negY_eq {A : K} (x y : K) : (curve A).negY x y = -y := by simp [negY, curve]

omit [DecidableEq K] in
theorem addX_eq {A : K} (x₁ x₂ l : K) : (curve A).addX x₁ x₂ l = l ^ 2 - A - (x₁ + x₂) := by
  simp [addX, curve]; ring

variable {A : K}

omit [DecidableEq K] in
/-- Where the tangent is vertical, `x² ≠ 1`. -/
theorem sq_ne_one (hA : A ^ 2 ≠ 4) {x : K} (h : x * (x ^ 2 + A * x + 1) = 0) : x ^ 2 - 1 ≠ 0 := by
  intro h1
  have hx : x ≠ 0 := by rintro rfl; simp at h1
  have h2 := (mul_eq_zero.1 h).resolve_left hx
  apply hA
  linear_combination (A * x - 2) * h2 + (-(A ^ 2) + 2 - A * x) * h1

theorem double_some (h2 : (2 : K) ≠ 0) {x y : K} (h : (curve A).Nonsingular x y) (hy : y ≠ 0) :
    ∃ x' y' h', Point.some x y h + Point.some x y h = Point.some (W' := curve A) x' y' h' ∧ x' * (4 * y ^ 2) = (x ^ 2 - 1) ^ 2 := by
  have hne : y ≠ (curve A).negY x y := by
    rw [negY_eq]
    intro e
    exact hy ((mul_eq_zero.1 (show (2 : K) * y = 0 by linear_combination e)).resolve_left h2)
  refine ⟨_, _, _, Point.add_some (fun h => hne h.2), ?_⟩
  have e := eqn h
  rw [addX_eq, slope_of_Y_ne rfl hne, negY_eq]
  simp only [curve]
  have h4 : y - -y ≠ 0 := by
    intro e
    exact hy ((mul_eq_zero.1 (show (2 : K) * y = 0 by linear_combination e)).resolve_left h2)
  rw [div_pow, show (y - -y) ^ 2 = 4 * y ^ 2 by ring]
  have h5 : 4 * y ^ 2 ≠ 0 := by
    rw [show 4 * y ^ 2 = (y - -y) ^ 2 by ring]; exact pow_ne_zero 2 h4
  have s1 : ((3 * x ^ 2 + 2 * A * x + 1 - 0 * y) ^ 2 / (4 * y ^ 2) - A - (x + x)) * (4 * y ^ 2) =
      (3 * x ^ 2 + 2 * A * x + 1) ^ 2 - (A + 2 * x) * (4 * y ^ 2) := by
    rw [sub_mul, sub_mul, div_mul_cancel₀ _ h5]; ring
  rw [s1, e]
  ring

/-- Doubling. -/
theorem xdbl (h2 : (2 : K) ≠ 0) (hA : A ^ 2 ≠ 4) {Q : (curve A).Point} {X Z : K} (h : XRel Q X Z) :
    XRel (Q + Q) ((X + Z) ^ 2 * (X - Z) ^ 2) (4 * X * Z * (X ^ 2 + A * X * Z + Z ^ 2)) := by
  cases Q with
  | zero =>
    obtain ⟨rfl, hX⟩ := h
    rw [← Point.zero_def, add_zero]
    exact ⟨by ring, by simp [hX]⟩
  | some x y hn =>
    obtain ⟨hZ, rfl⟩ := h
    have e := eqn hn
    by_cases hy : y = 0
    · rw [Point.add_self_of_Y_eq (by rw [negY_eq, hy, neg_zero])]
      have e0 : x * (x ^ 2 + A * x + 1) = 0 := by rw [← e, hy]; ring
      refine ⟨by linear_combination 4 * Z ^ 4 * e0, ?_⟩
      rw [show (x * Z + Z) ^ 2 * (x * Z - Z) ^ 2 = (Z ^ 2 * (x ^ 2 - 1)) ^ 2 by ring]
      exact pow_ne_zero 2 (mul_ne_zero (pow_ne_zero 2 hZ) (sq_ne_one hA e0))
    · obtain ⟨x', y', h', h3, h4⟩ := double_some h2 hn hy
      rw [h3]
      have h44 : (4 : K) ≠ 0 := by rw [show (4 : K) = 2 * 2 by norm_num]; exact mul_ne_zero h2 h2
      have hz : 4 * (x * Z) * Z * ((x * Z) ^ 2 + A * (x * Z) * Z + Z ^ 2) = 4 * y ^ 2 * Z ^ 4 := by
        linear_combination (-(4 * Z ^ 4)) * e
      refine ⟨?_, ?_⟩
      · rw [hz]; exact mul_ne_zero (mul_ne_zero h44 (pow_ne_zero 2 hy)) (pow_ne_zero 4 hZ)
      · rw [hz]; linear_combination (-(Z ^ 4)) * h4

/-- Sum and difference of two points with different x-coordinates. -/
theorem sum_diff {x₁ y₁ x₂ y₂ : K} (h₁ : (curve A).Nonsingular x₁ y₁) (h₂ : (curve A).Nonsingular x₂ y₂) (hx : x₁ ≠ x₂) :
    ∃ x' y' h' x'' y'' h'', Point.some x₁ y₁ h₁ + Point.some x₂ y₂ h₂ = Point.some (W' := curve A) x' y' h' ∧
      Point.some x₁ y₁ h₁ - Point.some x₂ y₂ h₂ = Point.some (W' := curve A) x'' y'' h'' ∧
      x' * x'' * (x₁ - x₂) ^ 2 = (x₁ * x₂ - 1) ^ 2 := by
  have hs := Point.add_some (h₁ := h₁) (h₂ := (nonsingular_neg x₂ y₂).mpr h₂) (fun h => hx h.1)
  rw [← Point.neg_some h₂, ← sub_eq_add_neg] at hs
  refine ⟨_, _, _, _, _, _, Point.add_some (fun h => hx h.1), hs, ?_⟩
  have e1 := eqn h₁
  have e2 := eqn h₂
  rw [addX_eq, addX_eq, slope_of_X_ne hx, slope_of_X_ne hx, negY_eq]
  have hd : x₁ - x₂ ≠ 0 := sub_ne_zero.2 hx
  rw [← mul_left_inj' (pow_ne_zero 2 hd)]
  have s1 : (((y₁ - y₂) / (x₁ - x₂)) ^ 2 - A - (x₁ + x₂)) * (x₁ - x₂) ^ 2 = (y₁ - y₂) ^ 2 - (A + x₁ + x₂) * (x₁ - x₂) ^ 2 := by
    field_simp; ring
  have s2 : (((y₁ - -y₂) / (x₁ - x₂)) ^ 2 - A - (x₁ + x₂)) * (x₁ - x₂) ^ 2 = (y₁ + y₂) ^ 2 - (A + x₁ + x₂) * (x₁ - x₂) ^ 2 := by
    field_simp; ring
  generalize ((y₁ - y₂) / (x₁ - x₂)) ^ 2 - A - (x₁ + x₂) = a at *
  generalize ((y₁ - -y₂) / (x₁ - x₂)) ^ 2 - A - (x₁ + x₂) = b at *
  have s3 : a * b * (x₁ - x₂) ^ 2 * (x₁ - x₂) ^ 2 =
      ((y₁ - y₂) ^ 2 - (A + x₁ + x₂) * (x₁ - x₂) ^ 2) * ((y₁ + y₂) ^ 2 - (A + x₁ + x₂) * (x₁ - x₂) ^ 2) := by
    rw [← s1, ← s2]; ring
  rw [s3]
  have s4 : ((y₁ - y₂) ^ 2 - (A + x₁ + x₂) * (x₁ - x₂) ^ 2) * ((y₁ + y₂) ^ 2 - (A + x₁ + x₂) * (x₁ - x₂) ^ 2) =
      (y₁ ^ 2 - y₂ ^ 2) ^ 2 - 2 * (y₁ ^ 2 + y₂ ^ 2) * ((A + x₁ + x₂) * (x₁ - x₂) ^ 2) + ((A + x₁ + x₂) * (x₁ - x₂) ^ 2) ^ 2 := by
    ring
  rw [s4, e1, e2]
  ring

/-- Differential addition: `Q - P` is the base point, whose x-coordinate is not 0. -/
theorem xadd (h2 : (2 : K) ≠ 0) (hA : A ^ 2 ≠ 4) {x₁ y₁ : K} (hD : (curve A).Nonsingular x₁ y₁) (hx : x₁ ≠ 0)
    {P Q : (curve A).Point} (hPQ : Q - P = .some x₁ y₁ hD ∨ P - Q = .some x₁ y₁ hD)
    {X₂ Z₂ X₃ Z₃ : K} (hP : XRel P X₂ Z₂) (hQ : XRel Q X₃ Z₃) :
    XRel (P + Q) (4 * (X₂ * X₃ - Z₂ * Z₃) ^ 2) (x₁ * (4 * (X₂ * Z₃ - X₃ * Z₂) ^ 2)) := by
  have h4 : (4 : K) ≠ 0 := by rw [show (4 : K) = 2 * 2 by norm_num]; exact mul_ne_zero h2 h2
  have neg_ : ∀ {R : (curve A).Point}, R = .some x₁ y₁ hD ∨ -R = .some x₁ y₁ hD → ∃ y' h', R = .some x₁ y' h' := by
    rintro R (h | h)
    · exact ⟨_, _, h⟩
    · have := congrArg (fun z => -z) h
      simp only [neg_neg] at this
      rw [Point.neg_some] at this
      exact ⟨_, _, this⟩
  cases P with
  | zero =>
    obtain ⟨rfl, hX⟩ := hP
    rw [← Point.zero_def] at hPQ ⊢
    rw [sub_zero, zero_sub] at hPQ
    rw [zero_add]
    obtain ⟨y', h', rfl⟩ := neg_ hPQ
    obtain ⟨hZ, rfl⟩ := hQ
    refine ⟨?_, by ring⟩
    rw [mul_zero, sub_zero]
    exact mul_ne_zero hx (mul_ne_zero h4 (pow_ne_zero 2 (mul_ne_zero hX hZ)))
  | some x₂ y₂ hn₂ =>
    obtain ⟨hZ₂, rfl⟩ := hP
    cases Q with
    | zero =>
      obtain ⟨rfl, hX⟩ := hQ
      rw [← Point.zero_def] at hPQ ⊢
      rw [sub_zero, zero_sub] at hPQ
      rw [add_zero]
      obtain ⟨y', h', e⟩ := neg_ hPQ.symm
      injection e with e1 e2
      subst e1
      refine ⟨?_, by ring⟩
      rw [mul_zero, zero_sub]
      exact mul_ne_zero hx (mul_ne_zero h4 (pow_ne_zero 2 (neg_ne_zero.2 (mul_ne_zero hX hZ₂))))
    | some x₃ y₃ hn₃ =>
      obtain ⟨hZ₃, rfl⟩ := hQ
      have e2 := eqn hn₂
      have e3 := eqn hn₃
      by_cases hxx : x₂ = x₃
      · subst hxx
        have hne : y₂ ≠ y₃ := by
          rintro rfl
          rw [sub_self, or_self] at hPQ
          exact Point.some_ne_zero _ hPQ.symm
        have hneg : y₂ = -y₃ := by
          have : (y₂ - y₃) * (y₂ + y₃) = 0 := by linear_combination e2 - e3
          rcases mul_eq_zero.1 this with h | h
          · exact absurd (sub_eq_zero.1 h) hne
          · linear_combination h
        rw [Point.add_of_Y_eq rfl (by rw [negY_eq, hneg])]
        refine ⟨by ring, ?_⟩
        have hy3 : y₃ ≠ 0 := by
          rintro rfl
          exact hne (by rw [hneg, neg_zero])
        have hn : Point.some x₂ y₂ hn₂ = -Point.some x₂ y₃ hn₃ := by
          rw [Point.neg_some]; simp only [negY_eq, hneg]
        have hd : ∃ y' h', Point.some x₂ y₃ hn₃ + Point.some x₂ y₃ hn₃ = Point.some (W' := curve A) x₁ y' h' := by
          apply neg_
          rw [hn, sub_neg_eq_add] at hPQ
          rcases hPQ with h | h
          · exact Or.inl h
          · right; rw [← h]; abel
        obtain ⟨y', h', hd⟩ := hd
        obtain ⟨x'', y'', h'', hd', hk⟩ := double_some h2 hn₃ hy3
        rw [hd] at hd'
        injection hd' with q1 q2
        subst q1
        rw [show 4 * (x₂ * Z₂ * (x₂ * Z₃) - Z₂ * Z₃) ^ 2 = 4 * ((Z₂ * Z₃) ^ 2 * (x₂ ^ 2 - 1) ^ 2) by ring, ← hk]
        exact mul_ne_zero h4 (mul_ne_zero (pow_ne_zero 2 (mul_ne_zero hZ₂ hZ₃)) (mul_ne_zero hx (mul_ne_zero h4 (pow_ne_zero 2 hy3))))
      · obtain ⟨x', y', h', x'', y'', h'', s1, s2, s3⟩ := sum_diff hn₂ hn₃ hxx
        rw [s1]
        have : ∃ y h, Point.some x₂ y₂ hn₂ - Point.some x₃ y₃ hn₃ = Point.some (W' := curve A) x₁ y h := by
          apply neg_
          rcases hPQ with h | h
          · right; rw [← h]; abel
          · exact Or.inl h
        obtain ⟨y, h, e⟩ := this
        rw [e] at s2
        injection s2 with q1 q2
        subst q1
        have hd : x₂ - x₃ ≠ 0 := sub_ne_zero.2 hxx
        refine ⟨?_, ?_⟩
        · rw [show x₂ * Z₂ * Z₃ - x₃ * Z₃ * Z₂ = (x₂ - x₃) * (Z₂ * Z₃) by ring]
          exact mul_ne_zero hx (mul_ne_zero h4 (pow_ne_zero 2 (mul_ne_zero hd (mul_ne_zero hZ₂ hZ₃))))
        · linear_combination (-(4 * (Z₂ * Z₃) ^ 2)) * s3

end Yacl.Ecc.Mont
