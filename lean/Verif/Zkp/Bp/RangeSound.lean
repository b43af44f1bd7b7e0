/-
C92: soundness of the range proof.
-/
import Verif.Zkp.Bp.Range
import Verif.Zkp.Bp.Sound
import Mathlib.Algebra.Polynomial.Roots
import Mathlib.LinearAlgebra.Dual.Lemmas

namespace Yacl.Bp

open Polynomial Finset

variable {F M : Type} [Field F] [AddCommGroup M] [Module F M]

/-! ### polynomials with many roots -/

/-- The polynomial with given coefficients. -/
noncomputable def ofCoeffs (d : Nat) (c : Nat → F) : F[X] := ∑ i ∈ range d, C (c i) * X ^ i

theorem ofCoeffs_eval (d : Nat) (c : Nat → F) (t : F) :
    (ofCoeffs d c).eval t = ∑ i ∈ range d, t ^ i * c i := by
  unfold ofCoeffs
  rw [eval_finsetSum]
  refine sum_congr rfl fun i _ => ?_
  rw [eval_mul, eval_C, eval_pow, eval_X, mul_comm]

theorem ofCoeffs_coeff (d : Nat) (c : Nat → F) (i : Nat) (hi : i < d) : (ofCoeffs d c).coeff i = c i := by
  unfold ofCoeffs
  rw [finsetSum_coeff]
  simp [coeff_C_mul, coeff_X_pow, hi]

theorem ofCoeffs_degree (d : Nat) (c : Nat → F) : (ofCoeffs d c).natDegree ≤ d - 1 := by
  unfold ofCoeffs
  refine natDegree_sum_le_of_forall_le _ _ fun i hi => ?_
  rw [mem_range] at hi
  exact (natDegree_C_mul_X_pow_le _ _).trans (by omega)

theorem poly_zero (p : F[X]) (T : Finset F) (hd : p.natDegree < T.card) (h : ∀ t ∈ T, p.eval t = 0) :
    p = 0 := by
  by_contra hp
  have h1 : T.val ≤ p.roots := by
    rw [Multiset.le_iff_subset T.nodup]
    intro t ht
    rw [mem_roots hp]
    exact h t ht
  have h2 := (Multiset.card_le_card h1).trans (card_roots' p)
  have : T.card = Multiset.card T.val := rfl
  omega

/-- Coefficients in a module. -/
theorem vand {W : Type} [AddCommGroup W] [Module F W] (d : Nat) (T : Finset F) (hT : d ≤ T.card)
    (c : Nat → W) (h : ∀ t ∈ T, ∑ i ∈ range d, t ^ i • c i = 0) (i : Nat) (hi : i < d) : c i = 0 := by
  rw [← Module.forall_dual_apply_eq_zero_iff F]
  intro φ
  have h0 : ofCoeffs d (fun i => φ (c i)) = 0 := by
    refine poly_zero _ T (lt_of_le_of_lt (ofCoeffs_degree d _) (by omega)) fun t ht => ?_
    have := congrArg φ (h t ht)
    rw [map_sum, map_zero] at this
    rw [ofCoeffs_eval, ← this]
    refine sum_congr rfl fun i _ => ?_
    rw [map_smul, smul_eq_mul]
  have := ofCoeffs_coeff d (fun i => φ (c i)) i hi
  rw [h0] at this
  simpa using this.symm

/-- A function that is a polynomial of bounded degree. -/
def Poly (d : Nat) (f : F → F) : Prop := ∃ p : F[X], p.natDegree ≤ d ∧ ∀ t, p.eval t = f t

theorem Poly.const (c : F) : Poly 0 (fun _ => c) := ⟨C c, by simp, by simp⟩
theorem Poly.id : Poly 1 (fun t : F => t) := ⟨X, natDegree_X_le, by simp⟩
theorem Poly.mono {d e : Nat} {f : F → F} (h : Poly d f) (hde : d ≤ e) : Poly e f := by
  obtain ⟨p, h1, h2⟩ := h
  exact ⟨p, h1.trans hde, h2⟩
theorem Poly.add {d : Nat} {f g : F → F} (hf : Poly d f) (hg : Poly d g) : Poly d (fun t => f t + g t) := by
  obtain ⟨p, h1, h2⟩ := hf
  obtain ⟨q, h3, h4⟩ := hg
  exact ⟨p + q, (natDegree_add_le _ _).trans (max_le h1 h3), fun t => by simp [h2, h4]⟩
theorem Poly.mul {d e : Nat} {f g : F → F} (hf : Poly d f) (hg : Poly e g) :
    Poly (d + e) (fun t => f t * g t) := by
  obtain ⟨p, h1, h2⟩ := hf
  obtain ⟨q, h3, h4⟩ := hg
  exact ⟨p * q, natDegree_mul_le.trans (add_le_add h1 h3), fun t => by simp [h2, h4]⟩
theorem Poly.sum {d : Nat} {ι : Type} (s : Finset ι) (f : ι → F → F) (h : ∀ i ∈ s, Poly d (f i)) :
    Poly d (fun t => ∑ i ∈ s, f i t) := by
  choose! p h1 h2 using h
  refine ⟨∑ i ∈ s, p i, natDegree_sum_le_of_forall_le _ _ h1, fun t => ?_⟩
  rw [eval_finsetSum]
  exact sum_congr rfl fun i hi => h2 i hi t
theorem Poly.zero_at {d : Nat} {f : F → F} (hf : Poly d f) (T : Finset F) (hT : d < T.card)
    (h : ∀ t ∈ T, f t = 0) : f 0 = 0 := by
  obtain ⟨p, h1, h2⟩ := hf
  have := poly_zero p T (lt_of_le_of_lt h1 hT) fun t ht => by rw [h2, h t ht]
  rw [← h2, this, eval_zero]

/-- Linear, quadratic. -/
theorem Poly.lin (a b : F) : Poly 1 (fun t : F => a + t * b) :=
  ((Poly.const a).mono (by omega)).add (Poly.id.mul (Poly.const b))
theorem Poly.quad (a b c : F) : Poly 2 (fun t : F => t * a + t ^ 2 * b + c) := by
  have h : Poly 2 (fun t : F => t * a + t * t * b + c) :=
    (((Poly.id.mul (Poly.const a)).mono (by omega)).add ((Poly.id.mul Poly.id).mul (Poly.const b))).add
      ((Poly.const c).mono (by omega))
  obtain ⟨p, h1, h2⟩ := h
  exact ⟨p, h1, fun t => by rw [h2]; ring⟩

/-! ### the scalar equation -/

/-- The coefficients of the generators in the points of an accepting prover. -/
theorem scalar_core (n m : Nat) (hn : 0 < n) (hm : 0 < m) (Y Z X W : Finset F)
    (hY : n * m ≤ Y.card) (hZ : 2 * m + 2 ≤ Z.card) (hX : 5 ≤ X.card) (hW : 4 ≤ W.card)
    (hZ0 : ∀ z ∈ Z, z ≠ 0)
    (a s c d : Nat → F) (vg vh : Nat → Nat → F) (vb : Nat → F) (t1g t2g t1h t2h : F → F → Nat → F)
    (t1b t2b : F → F → F) (ab sb : F)
    (h : ∀ y ∈ Y, ∀ z ∈ Z, ∀ x ∈ X, ∀ w ∈ W,
      w * ∑ k ∈ range (n * m),
        (a k + x * s k + w * (x * t1g y z k + x ^ 2 * t2g y z k + z ^ 2 * ∑ j ∈ range m, z ^ j * vg j k) - z)
        * (y ^ k * (c k + x * d k + w * (x * t1h y z k + x ^ 2 * t2h y z k + z ^ 2 * ∑ j ∈ range m, z ^ j * vh j k) + z)
          + z ^ 2 * (z ^ (k / n) * 2 ^ (k % n)))
      = ab + x * sb + w * (x * t1b y z + x ^ 2 * t2b y z + z ^ 2 * (∑ j ∈ range m, z ^ j * vb j)
          + ((z - z ^ 2) * (∑ k ∈ range (n * m), y ^ k)
            - z ^ 3 * ∑ k ∈ range (n * m), z ^ (k / n) * 2 ^ (k % n)))) :
    (∀ k < n * m, a k = 0 ∨ a k = 1) ∧
    (∀ j < m, vb j = ∑ i ∈ range n, 2 ^ i * a (j * n + i)) ∧
    (∀ j < m, ∀ k < n * m, vg j k = 0 ∧ vh j k = 0) := by
  set N := n * m with hN
  have hNpos : 0 < N := Nat.mul_pos hn hm
  -- powers of `w`
  have hw : ∀ y ∈ Y, ∀ z ∈ Z, ∀ x ∈ X,
      (∑ k ∈ range N, (a k - z + x * s k) * ((y ^ k * (c k + z) + z ^ 2 * (z ^ (k / n) * 2 ^ (k % n))) + x * (y ^ k * d k))
        = x * t1b y z + x ^ 2 * t2b y z + (z ^ 2 * (∑ j ∈ range m, z ^ j * vb j)
          + ((z - z ^ 2) * (∑ k ∈ range N, y ^ k) - z ^ 3 * ∑ k ∈ range N, z ^ (k / n) * 2 ^ (k % n)))) ∧
      (∑ k ∈ range N, ((a k - z + x * s k) * (y ^ k * (x * t1h y z k + x ^ 2 * t2h y z k + z ^ 2 * ∑ j ∈ range m, z ^ j * vh j k))
        + (x * t1g y z k + x ^ 2 * t2g y z k + z ^ 2 * ∑ j ∈ range m, z ^ j * vg j k)
          * ((y ^ k * (c k + z) + z ^ 2 * (z ^ (k / n) * 2 ^ (k % n))) + x * (y ^ k * d k))) = 0) ∧
      (∑ k ∈ range N, (x * t1g y z k + x ^ 2 * t2g y z k + z ^ 2 * ∑ j ∈ range m, z ^ j * vg j k)
          * (y ^ k * (x * t1h y z k + x ^ 2 * t2h y z k + z ^ 2 * ∑ j ∈ range m, z ^ j * vh j k)) = 0) := by
    intro y hy z hz x hx
    have key := vand (W := F) 4 W hW (fun i => match i with
      | 0 => -(ab + x * sb)
      | 1 => (∑ k ∈ range N, (a k - z + x * s k) * ((y ^ k * (c k + z) + z ^ 2 * (z ^ (k / n) * 2 ^ (k % n))) + x * (y ^ k * d k)))
        - (x * t1b y z + x ^ 2 * t2b y z + (z ^ 2 * (∑ j ∈ range m, z ^ j * vb j)
          + ((z - z ^ 2) * (∑ k ∈ range N, y ^ k) - z ^ 3 * ∑ k ∈ range N, z ^ (k / n) * 2 ^ (k % n))))
      | 2 => ∑ k ∈ range N, ((a k - z + x * s k) * (y ^ k * (x * t1h y z k + x ^ 2 * t2h y z k + z ^ 2 * ∑ j ∈ range m, z ^ j * vh j k))
        + (x * t1g y z k + x ^ 2 * t2g y z k + z ^ 2 * ∑ j ∈ range m, z ^ j * vg j k)
          * ((y ^ k * (c k + z) + z ^ 2 * (z ^ (k / n) * 2 ^ (k % n))) + x * (y ^ k * d k)))
      | _ => ∑ k ∈ range N, (x * t1g y z k + x ^ 2 * t2g y z k + z ^ 2 * ∑ j ∈ range m, z ^ j * vg j k)
          * (y ^ k * (x * t1h y z k + x ^ 2 * t2h y z k + z ^ 2 * ∑ j ∈ range m, z ^ j * vh j k))) ?_
    · refine ⟨sub_eq_zero.1 (key 1 (by omega)), key 2 (by omega), key 3 (by omega)⟩
    · intro w hw
      have e := h y hy z hz x hx w hw
      rw [mul_sum] at e
      simp only [sum_range_succ, sum_range_zero, zero_add, pow_zero, pow_one, one_smul, smul_eq_mul]
      have e2 : ∀ (A B C D : Nat → F), (∀ k, D k = A k + B k + C k) →
          ∑ k ∈ range N, D k = ∑ k ∈ range N, A k + ∑ k ∈ range N, B k + ∑ k ∈ range N, C k := by
        intro A B C D hD
        rw [← sum_add_distrib, ← sum_add_distrib]
        exact sum_congr rfl fun k _ => hD k
      rw [e2 (fun k => w * ((a k - z + x * s k) * ((y ^ k * (c k + z) + z ^ 2 * (z ^ (k / n) * 2 ^ (k % n))) + x * (y ^ k * d k))))
        (fun k => w ^ 2 * (((a k - z + x * s k) * (y ^ k * (x * t1h y z k + x ^ 2 * t2h y z k + z ^ 2 * ∑ j ∈ range m, z ^ j * vh j k))
        + (x * t1g y z k + x ^ 2 * t2g y z k + z ^ 2 * ∑ j ∈ range m, z ^ j * vg j k)
          * ((y ^ k * (c k + z) + z ^ 2 * (z ^ (k / n) * 2 ^ (k % n))) + x * (y ^ k * d k)))))
        (fun k => w ^ 3 * ((x * t1g y z k + x ^ 2 * t2g y z k + z ^ 2 * ∑ j ∈ range m, z ^ j * vg j k)
          * (y ^ k * (x * t1h y z k + x ^ 2 * t2h y z k + z ^ 2 * ∑ j ∈ range m, z ^ j * vh j k))))
        _ (fun k => by ring), ← mul_sum, ← mul_sum, ← mul_sum] at e
      linear_combination e
  -- constant terms in `x`
  have hx : ∀ y ∈ Y, ∀ z ∈ Z,
      (∑ k ∈ range N, (a k - z) * (y ^ k * (c k + z) + z ^ 2 * (z ^ (k / n) * 2 ^ (k % n)))
        = z ^ 2 * (∑ j ∈ range m, z ^ j * vb j)
          + ((z - z ^ 2) * (∑ k ∈ range N, y ^ k) - z ^ 3 * ∑ k ∈ range N, z ^ (k / n) * 2 ^ (k % n))) ∧
      (∑ k ∈ range N, ((a k - z) * (y ^ k * (z ^ 2 * ∑ j ∈ range m, z ^ j * vh j k))
        + (z ^ 2 * ∑ j ∈ range m, z ^ j * vg j k)
          * (y ^ k * (c k + z) + z ^ 2 * (z ^ (k / n) * 2 ^ (k % n)))) = 0) ∧
      (∑ k ∈ range N, (z ^ 2 * ∑ j ∈ range m, z ^ j * vg j k)
          * (y ^ k * (z ^ 2 * ∑ j ∈ range m, z ^ j * vh j k)) = 0) := by
    intro y hy z hz
    refine ⟨?_, ?_, ?_⟩
    · have hp : Poly 2 (fun x : F => (∑ k ∈ range N, (a k - z + x * s k) *
          ((y ^ k * (c k + z) + z ^ 2 * (z ^ (k / n) * 2 ^ (k % n))) + x * (y ^ k * d k)))
          + (x * (-t1b y z) + x ^ 2 * (-t2b y z) + (-(z ^ 2 * (∑ j ∈ range m, z ^ j * vb j)
          + ((z - z ^ 2) * (∑ k ∈ range N, y ^ k) - z ^ 3 * ∑ k ∈ range N, z ^ (k / n) * 2 ^ (k % n)))))) :=
        (Poly.sum _ _ fun k _ => (Poly.lin _ _).mul (Poly.lin _ _)).add (Poly.quad _ _ _)
      have := hp.zero_at X (by omega) fun x hx => by
        rw [(hw y hy z hz x hx).1]; ring
      simp only [zero_mul, add_zero, ne_eq, OfNat.ofNat_ne_zero, not_false_eq_true, zero_pow, zero_add] at this
      exact add_neg_eq_zero.1 this
    · have hp : Poly 3 (fun x : F => ∑ k ∈ range N, ((a k - z + x * s k) * (y ^ k * (x * t1h y z k + x ^ 2 * t2h y z k + z ^ 2 * ∑ j ∈ range m, z ^ j * vh j k))
        + (x * t1g y z k + x ^ 2 * t2g y z k + z ^ 2 * ∑ j ∈ range m, z ^ j * vg j k)
          * ((y ^ k * (c k + z) + z ^ 2 * (z ^ (k / n) * 2 ^ (k % n))) + x * (y ^ k * d k)))) :=
        Poly.sum _ _ fun k _ => ((Poly.lin _ _).mul ((Poly.const _).mul (Poly.quad _ _ _))).add
          ((Poly.quad _ _ _).mul (Poly.lin _ _))
      have := hp.zero_at X (by omega) fun x hx => (hw y hy z hz x hx).2.1
      simpa only [zero_mul, add_zero, ne_eq, OfNat.ofNat_ne_zero, not_false_eq_true, zero_pow, zero_add] using this
    · have hp : Poly 4 (fun x : F => ∑ k ∈ range N, (x * t1g y z k + x ^ 2 * t2g y z k + z ^ 2 * ∑ j ∈ range m, z ^ j * vg j k)
          * (y ^ k * (x * t1h y z k + x ^ 2 * t2h y z k + z ^ 2 * ∑ j ∈ range m, z ^ j * vh j k))) :=
        (Poly.sum _ _ fun k _ => (Poly.quad _ _ _).mul ((Poly.const _).mul (Poly.quad _ _ _))).mono (by omega)
      have := hp.zero_at X (by omega) fun x hx => (hw y hy z hz x hx).2.2
      simpa only [zero_mul, add_zero, ne_eq, OfNat.ofNat_ne_zero, not_false_eq_true, zero_pow, zero_add] using this
  -- powers of `y`
  have hypow : ∀ (u : Nat → F) (q : F), (∀ y ∈ Y, ∑ k ∈ range N, y ^ k * u k + q = 0) →
      u 0 + q = 0 ∧ ∀ k < N, 0 < k → u k = 0 := by
    intro u q hu
    have key := vand (W := F) N Y hY (fun k => u k + if k = 0 then q else 0) (by
      intro y hy
      refine Eq.trans ?_ (hu y hy)
      simp only [smul_eq_mul, mul_add, sum_add_distrib]
      congr 1
      simp [hNpos])
    refine ⟨by simpa using key 0 hNpos, fun k hk h0 => ?_⟩
    have := key k hk
    simpa [show k ≠ 0 by omega] using this
  have hflat : ∀ (z : F) (f : Nat → F), ∑ k ∈ range N, z ^ (k / n) * 2 ^ (k % n) * f k
      = ∑ j ∈ range m, z ^ j * ∑ i ∈ range n, 2 ^ i * f (j * n + i) := by
    intro z f
    have := sum_flat n m hn (fun j i => z ^ j * 2 ^ i * f (j * n + i))
    rw [← hN] at this
    simp only [Nat.div_add_mod'] at this
    rw [this]
    refine sum_congr rfl fun j _ => ?_
    rw [mul_sum]
    refine sum_congr rfl fun i _ => by ring
  -- the first family
  have h1 : ∀ z ∈ Z, ((a 0 - z) * (c 0 + z) - z + z ^ 2 + z ^ 2 * (∑ j ∈ range m, z ^ j *
        ((∑ i ∈ range n, 2 ^ i * a (j * n + i)) - vb j)) = 0) ∧
      ∀ k < N, 0 < k → (a k - z) * (c k + z) - z + z ^ 2 = 0 := by
    intro z hz
    refine hypow (fun k => (a k - z) * (c k + z) - z + z ^ 2) _ fun y hy => ?_
    have e := (hx y hy z hz).1
    have e3 : ∑ j ∈ range m, z ^ j * ((∑ i ∈ range n, 2 ^ i * a (j * n + i)) - vb j)
        = (∑ k ∈ range N, z ^ (k / n) * 2 ^ (k % n) * a k) - ∑ j ∈ range m, z ^ j * vb j := by
      rw [hflat, ← sum_sub_distrib]
      exact sum_congr rfl fun j _ => by ring
    rw [e3]
    have e4 : ∑ k ∈ range N, (a k - z) * (y ^ k * (c k + z) + z ^ 2 * (z ^ (k / n) * 2 ^ (k % n)))
        = ∑ k ∈ range N, y ^ k * ((a k - z) * (c k + z) - z + z ^ 2) + (z - z ^ 2) * (∑ k ∈ range N, y ^ k)
          + z ^ 2 * (∑ k ∈ range N, z ^ (k / n) * 2 ^ (k % n) * a k)
          - z ^ 3 * ∑ k ∈ range N, z ^ (k / n) * 2 ^ (k % n) := by
      rw [mul_sum, mul_sum, mul_sum, ← sum_add_distrib, ← sum_add_distrib, ← sum_sub_distrib]
      exact sum_congr rfl fun k _ => by ring
    rw [e4] at e
    linear_combination e
  have hac : (∀ k < N, a k * c k = 0 ∧ a k - c k - 1 = 0) ∧
      ∀ j < m, (∑ i ∈ range n, 2 ^ i * a (j * n + i)) - vb j = 0 := by
    have h0 := vand (W := F) (m + 2) Z (by omega) (fun i => match i with
      | 0 => a 0 * c 0
      | 1 => a 0 - c 0 - 1
      | j + 2 => (∑ i ∈ range n, 2 ^ i * a (j * n + i)) - vb j) (by
        intro z hz
        rw [sum_range_succ', sum_range_succ']
        simp only [smul_eq_mul, pow_zero, one_mul, zero_add, pow_one]
        have e := (h1 z hz).1
        have e2 : ∑ j ∈ range m, z ^ (j + 1 + 1) * ((∑ i ∈ range n, 2 ^ i * a (j * n + i)) - vb j)
            = z ^ 2 * ∑ j ∈ range m, z ^ j * ((∑ i ∈ range n, 2 ^ i * a (j * n + i)) - vb j) := by
          rw [mul_sum]
          exact sum_congr rfl fun j _ => by ring
        rw [e2]
        linear_combination e)
    refine ⟨fun k hk => ?_, fun j hj => h0 (j + 2) (by omega)⟩
    by_cases hk0 : k = 0
    · subst hk0
      exact ⟨h0 0 (by omega), h0 1 (by omega)⟩
    · have hk' := vand (W := F) 2 Z (by omega) (fun i => match i with
        | 0 => a k * c k
        | _ => a k - c k - 1) (by
          intro z hz
          simp only [sum_range_succ, sum_range_zero, zero_add, pow_zero, pow_one, smul_eq_mul, one_mul]
          linear_combination (h1 z hz).2 k hk (by omega))
      exact ⟨hk' 0 (by omega), hk' 1 (by omega)⟩
  -- the other two families
  have h2 : ∀ z ∈ Z, ((a 0 - z) * (∑ j ∈ range m, z ^ j * vh j 0) + (c 0 + z) * (∑ j ∈ range m, z ^ j * vg j 0)
        + z ^ 2 * ∑ k ∈ range N, z ^ (k / n) * 2 ^ (k % n) * ∑ j ∈ range m, z ^ j * vg j k = 0) ∧
      ∀ k < N, 0 < k → (a k - z) * (∑ j ∈ range m, z ^ j * vh j k) + (c k + z) * (∑ j ∈ range m, z ^ j * vg j k) = 0 := by
    intro z hz
    have hzz : z ^ 2 ≠ 0 := pow_ne_zero _ (hZ0 z hz)
    refine hypow (fun k => (a k - z) * (∑ j ∈ range m, z ^ j * vh j k) + (c k + z) * (∑ j ∈ range m, z ^ j * vg j k)) _ fun y hy => ?_
    have e := (hx y hy z hz).2.1
    refine mul_left_cancel₀ hzz ?_
    rw [mul_zero, ← e, mul_add, mul_sum, mul_sum, mul_sum, ← sum_add_distrib]
    exact sum_congr rfl fun k _ => by ring
  have h3 : ∀ z ∈ Z, ∀ k < N, (∑ j ∈ range m, z ^ j * vg j k) * (∑ j ∈ range m, z ^ j * vh j k) = 0 := by
    intro z hz
    have hzz : z ^ 2 * z ^ 2 ≠ 0 := mul_ne_zero (pow_ne_zero _ (hZ0 z hz)) (pow_ne_zero _ (hZ0 z hz))
    have := hypow (fun k => (∑ j ∈ range m, z ^ j * vg j k) * (∑ j ∈ range m, z ^ j * vh j k)) 0 (by
      intro y hy
      have e := (hx y hy z hz).2.2
      refine mul_left_cancel₀ hzz ?_
      rw [mul_zero, add_zero, mul_sum, ← e]
      exact sum_congr rfl fun k _ => by ring)
    intro k hk
    rcases Nat.eq_zero_or_pos k with rfl | h0
    · simpa using this.1
    · exact this.2 k hk h0
  have hor : ∀ k < N, ofCoeffs m (fun j => vg j k) = 0 ∨ ofCoeffs m (fun j => vh j k) = 0 := by
    intro k hk
    rw [← mul_eq_zero]
    refine poly_zero _ Z ?_ fun z hz => ?_
    · refine lt_of_le_of_lt natDegree_mul_le ?_
      have h4 := ofCoeffs_degree m (fun j => vg j k)
      have h5 := ofCoeffs_degree m (fun j => vh j k)
      omega
    · rw [eval_mul, ofCoeffs_eval, ofCoeffs_eval]
      exact h3 z hz k hk
  have hcoef : ∀ (u : Nat → F), ofCoeffs m u = 0 → ∀ j < m, u j = 0 := by
    intro u hu j hj
    have := ofCoeffs_coeff m u j hj
    rw [hu] at this
    simpa using this.symm
  have hfin : ∀ (q : F[X]) (u : Nat → F), q ≠ 0 → q.natDegree ≤ 2 → (∀ z ∈ Z, q.eval z * (∑ j ∈ range m, z ^ j * u j) = 0) →
      ofCoeffs m u = 0 := by
    intro q u hq hqd hqu
    have : q * ofCoeffs m u = 0 := by
      refine poly_zero _ Z ?_ fun z hz => ?_
      · refine lt_of_le_of_lt natDegree_mul_le ?_
        have := ofCoeffs_degree m u
        omega
      · rw [eval_mul, ofCoeffs_eval]
        exact hqu z hz
    exact (mul_eq_zero.1 this).resolve_left hq
  have hsum0 : ∀ (u : Nat → F), ofCoeffs m u = 0 → ∀ z : F, ∑ j ∈ range m, z ^ j * u j = 0 := by
    intro u hu z
    rw [← ofCoeffs_eval, hu, eval_zero]
  have hlin : ∀ q : F, (C q - Polynomial.X : F[X]) ≠ 0 ∧ (C q - Polynomial.X : F[X]).natDegree ≤ 2 := by
    intro q
    refine ⟨fun h0 => ?_, ?_⟩
    · have := congrArg (fun p => Polynomial.coeff p 1) h0
      simp [coeff_C] at this
    · refine (natDegree_sub_le _ _).trans ?_
      simp
  have hlin2 : ∀ q : F, (C q + Polynomial.X : F[X]) ≠ 0 ∧ (C q + Polynomial.X : F[X]).natDegree ≤ 2 := by
    intro q
    refine ⟨fun h0 => ?_, ?_⟩
    · have := congrArg (fun p => Polynomial.coeff p 1) h0
      simp [coeff_C] at this
    · refine (natDegree_add_le _ _).trans ?_
      simp
  have hquad : ∀ q : F, (C q + Polynomial.X + Polynomial.X ^ 2 : F[X]) ≠ 0 ∧ (C q + Polynomial.X + Polynomial.X ^ 2 : F[X]).natDegree ≤ 2 := by
    intro q
    refine ⟨fun h0 => ?_, ?_⟩
    · have := congrArg (fun p => Polynomial.coeff p 2) h0
      simp [coeff_C, coeff_X] at this
    · refine (natDegree_add_le _ _).trans (max_le ((hlin2 q).2) ?_)
      simp
  have hpos : ∀ k < N, 0 < k → ofCoeffs m (fun j => vg j k) = 0 ∧ ofCoeffs m (fun j => vh j k) = 0 := by
    intro k hk h0
    rcases hor k hk with hg | hh
    · refine ⟨hg, hfin (C (a k) - Polynomial.X) _ (hlin _).1 (hlin _).2 fun z hz => ?_⟩
      have e := (h2 z hz).2 k hk h0
      rw [hsum0 _ hg, mul_zero, add_zero] at e
      simpa using e
    · refine ⟨hfin (C (c k) + Polynomial.X) _ (hlin2 _).1 (hlin2 _).2 fun z hz => ?_, hh⟩
      have e := (h2 z hz).2 k hk h0
      rw [hsum0 _ hh, mul_zero, zero_add] at e
      simpa using e
  have hzero : ofCoeffs m (fun j => vg j 0) = 0 ∧ ofCoeffs m (fun j => vh j 0) = 0 := by
    have hs : ∀ z : F, ∑ k ∈ range N, z ^ (k / n) * 2 ^ (k % n) * ∑ j ∈ range m, z ^ j * vg j k
        = ∑ j ∈ range m, z ^ j * vg j 0 := by
      intro z
      rw [sum_eq_single 0]
      · simp
      · intro k hk h0
        rw [hsum0 _ (hpos k (mem_range.1 hk) (by omega)).1, mul_zero]
      · intro h0
        exact absurd (mem_range.2 hNpos) h0
    rcases hor 0 hNpos with hg | hh
    · refine ⟨hg, hfin (C (a 0) - Polynomial.X) _ (hlin _).1 (hlin _).2 fun z hz => ?_⟩
      have e := (h2 z hz).1
      rw [hs, hsum0 _ hg, mul_zero, mul_zero, add_zero, add_zero] at e
      simpa using e
    · refine ⟨hfin (C (c 0) + Polynomial.X + Polynomial.X ^ 2) _ (hquad _).1 (hquad _).2 fun z hz => ?_, hh⟩
      have e := (h2 z hz).1
      rw [hs, hsum0 _ hh, mul_zero, zero_add] at e
      simp only [eval_add, eval_C, eval_X, eval_pow]
      linear_combination e
  refine ⟨fun k hk => ?_, fun j hj => (sub_eq_zero.1 (hac.2 j hj)).symm, fun j hj k hk => ?_⟩
  · obtain ⟨e1, e2⟩ := hac.1 k hk
    rcases mul_eq_zero.1 e1 with e | e
    · exact Or.inl e
    · right; rw [e] at e2; linear_combination e2
  · rcases Nat.eq_zero_or_pos k with rfl | h0
    · exact ⟨hcoef _ hzero.1 j hj, hcoef _ hzero.2 j hj⟩
    · exact ⟨hcoef _ (hpos k hk h0).1 j hj, hcoef _ (hpos k hk h0).2 j hj⟩

/-! ### points -/

/-- The point on which an honest or dishonest prover has to run the inner product
    argument. -/
def rangePoint (B Bb : M) (gens : Gens M) (n m : Nat) (A S T1 T2 : M) (V : Nat → M)
    (txB eB y z x w : F) : M :=
  A + x • S + w • (x • T1 + x ^ 2 • T2) - (eB + w * txB) • Bb
    + (w * ((z - z ^ 2) * (∑ k ∈ range (n * m), y ^ k)
        - z ^ 3 * ∑ k ∈ range (n * m), z ^ (k / n) * 2 ^ (k % n))) • B
    - z • (∑ k ∈ range (n * m), gens.G (k / n) (k % n))
    + (∑ k ∈ range (n * m), (z + y⁻¹ ^ k * (z ^ 2 * (z ^ (k / n) * 2 ^ (k % n)))) • gens.H (k / n) (k % n))
    + (w * z ^ 2) • ∑ j ∈ range m, z ^ j • V j

/-- No linear relation between the generators of `n` bits and `m` parties and the two
    points of the Pedersen commitment. -/
def GensIndependent (F : Type) {M : Type} [Field F] [AddCommGroup M] [Module F M] (n m : Nat)
    (gens : Gens M) (B Bb : M) : Prop :=
  ∀ (g h : Nat → F) (b c : F),
    (∑ k ∈ range (n * m), g k • gens.G (k / n) (k % n)) + (∑ k ∈ range (n * m), h k • gens.H (k / n) (k % n))
      + b • B + c • Bb = 0 → (∀ k < n * m, g k = 0 ∧ h k = 0) ∧ b = 0 ∧ c = 0

/-- A prover of the range proof: `T1`, `T2` depend on the challenges `y`, `z`, the
    blindings also on `x`, and the inner product argument also on `w`. -/
structure RangeProver (F M : Type) where
  A : M
  S : M
  T1 : F → F → M
  T2 : F → F → M
  txBlinding : F → F → F → F
  eBlinding : F → F → F → F
  ipa : F → F → F → F → Prover F M

/-- The linear map of coordinates to points. -/
def spanMap (n m : Nat) (gens : Gens M) (B Bb : M) :
    ((Fin (n * m) → F) × (Fin (n * m) → F) × F × F) →ₗ[F] M where
  toFun p := (∑ k : Fin (n * m), p.1 k • gens.G (k / n) (k % n))
    + (∑ k : Fin (n * m), p.2.1 k • gens.H (k / n) (k % n)) + p.2.2.1 • B + p.2.2.2 • Bb
  map_add' p q := by
    simp only [Prod.fst_add, Prod.snd_add, Pi.add_apply, add_smul, sum_add_distrib]
    abel
  map_smul' c p := by
    simp only [Prod.smul_fst, Prod.smul_snd, Pi.smul_apply, smul_eq_mul, mul_smul, ← smul_sum, smul_add,
      RingHom.id_apply]

/-- A function on naturals from one on `Fin`. -/
def ext (N : Nat) (f : Fin N → F) (k : Nat) : F := if h : k < N then f ⟨k, h⟩ else 0

theorem ext_sum {W : Type} [AddCommGroup W] [Module F W] (N : Nat) (f : Fin N → F) (g : Nat → W) :
    ∑ k : Fin N, f k • g k = ∑ k ∈ range N, ext N f k • g k := by
  rw [← Fin.sum_univ_eq_sum_range (fun k => ext N f k • g k) N]
  refine sum_congr rfl fun k _ => ?_
  simp [ext]

theorem spanMap_apply (n m : Nat) (gens : Gens M) (B Bb : M)
    (p : (Fin (n * m) → F) × (Fin (n * m) → F) × F × F) :
    spanMap n m gens B Bb p = (∑ k ∈ range (n * m), ext _ p.1 k • gens.G (k / n) (k % n))
      + (∑ k ∈ range (n * m), ext _ p.2.1 k • gens.H (k / n) (k % n)) + p.2.2.1 • B + p.2.2.2 • Bb := by
  rw [← ext_sum _ p.1 (fun k => gens.G (k / n) (k % n)), ← ext_sum _ p.2.1 (fun k => gens.H (k / n) (k % n))]
  rfl

/-- Coordinates: for every point the coefficients of the generators, and a remainder that
    vanishes on the generators, all of them linear. -/
theorem coordinates (n m : Nat) (gens : Gens M) (B Bb : M) (hi : GensIndependent F n m gens B Bb) :
    ∃ (g h : Nat → M →ₗ[F] F) (b c : M →ₗ[F] F) (r : M →ₗ[F] M),
      (∀ P, P = (∑ k ∈ range (n * m), g k P • gens.G (k / n) (k % n))
        + (∑ k ∈ range (n * m), h k P • gens.H (k / n) (k % n)) + b P • B + c P • Bb + r P) ∧
      ∀ (x y : Nat → F) (u v : F) (P : M),
        P = (∑ k ∈ range (n * m), x k • gens.G (k / n) (k % n))
          + (∑ k ∈ range (n * m), y k • gens.H (k / n) (k % n)) + u • B + v • Bb →
        (∀ k < n * m, g k P = x k ∧ h k P = y k) ∧ b P = u ∧ c P = v ∧ r P = 0 := by
  have hker : LinearMap.ker (spanMap (F := F) n m gens B Bb) = ⊥ := by
    rw [LinearMap.ker_eq_bot']
    intro p hp
    rw [spanMap_apply] at hp
    obtain ⟨h1, h2, h3⟩ := hi _ _ _ _ hp
    refine Prod.ext (funext fun k => ?_) (Prod.ext (funext fun k => ?_) (Prod.ext h2 h3))
    · have := (h1 k k.2).1
      simpa [ext] using this
    · have := (h1 k k.2).2
      simpa [ext] using this
  obtain ⟨ψ, hψ⟩ := LinearMap.exists_leftInverse_of_injective _ hker
  refine ⟨fun k => if h : k < n * m then LinearMap.proj ⟨k, h⟩ ∘ₗ LinearMap.fst F _ _ ∘ₗ ψ else 0,
    fun k => if h : k < n * m then LinearMap.proj ⟨k, h⟩ ∘ₗ LinearMap.fst F _ _ ∘ₗ LinearMap.snd F _ _ ∘ₗ ψ else 0,
    LinearMap.fst F F F ∘ₗ LinearMap.snd F _ _ ∘ₗ LinearMap.snd F _ _ ∘ₗ ψ,
    LinearMap.snd F F F ∘ₗ LinearMap.snd F _ _ ∘ₗ LinearMap.snd F _ _ ∘ₗ ψ,
    LinearMap.id - spanMap n m gens B Bb ∘ₗ ψ, ?_, ?_⟩
  · intro P
    have : P = spanMap n m gens B Bb (ψ P) + (P - spanMap n m gens B Bb (ψ P)) := by abel
    conv_lhs => rw [this]
    congr 1
    rw [spanMap_apply]
    congr 1
    congr 1
    congr 1
    · refine sum_congr rfl fun k hk => ?_
      rw [mem_range] at hk
      simp [ext, hk]
    · refine sum_congr rfl fun k hk => ?_
      rw [mem_range] at hk
      simp [ext, hk]
  · intro x y u v P hP
    have hP' : P = spanMap n m gens B Bb ((fun k => x k, fun k => y k, u, v) :
        (Fin (n * m) → F) × (Fin (n * m) → F) × F × F) := by
      rw [spanMap_apply, hP]
      congr 1
      congr 1
      congr 1
      · refine sum_congr rfl fun k hk => ?_
        rw [mem_range] at hk
        simp [ext, hk]
      · refine sum_congr rfl fun k hk => ?_
        rw [mem_range] at hk
        simp [ext, hk]
    have hψP : ψ P = ((fun k : Fin (n * m) => x k), (fun k : Fin (n * m) => y k), u, v) := by
      rw [hP']
      exact LinearMap.congr_fun hψ _
    refine ⟨fun k hk => ?_, ?_, ?_, ?_⟩
    · simp [hk, hψP]
    · simp [hψP]
    · simp [hψP]
    · simp [hψP, ← hP']

theorem bits_lt (n : Nat) (b : Nat → Nat) (hb : ∀ i, b i ≤ 1) : ∑ i ∈ range n, 2 ^ i * b i < 2 ^ n := by
  induction n with
  | zero => simp
  | succ n ih =>
    rw [sum_range_succ, pow_succ]
    have : 2 ^ n * b n ≤ 2 ^ n * 1 := Nat.mul_le_mul_left _ (hb n)
    omega

/-- C92 (e): soundness.  If a prover convinces the verifier for at least `n m` challenges
    `y`, `2 m + 2` challenges `z`, five `x` and four `w` (all `y`, `z`, `w` not zero), and four
    challenges per round of the inner product argument, whatever it answers, then every
    one of its commitments is a commitment to a value below `2^n`. -/
theorem C92_sound (n m k : Nat) (hn : 0 < n) (hm : 0 < m) (hk : n * m = 2 ^ k) (B Bb : M) (gens : Gens M)
    (hi : GensIndependent F n m gens B Bb) (A : RangeProver F M) (V : Nat → M) (Y Z X W : Finset F)
    (hY : n * m ≤ Y.card) (hZ : 2 * m + 2 ≤ Z.card) (hX : 5 ≤ X.card) (hW : 4 ≤ W.card)
    (hY0 : ∀ y ∈ Y, y ≠ 0) (hZ0 : ∀ z ∈ Z, z ≠ 0) (hW0 : ∀ w ∈ W, w ≠ 0)
    (U : F → F → F → F → List F → List F) (hU : ∀ y z x w past, Four (U y z x w past))
    (hacc : ∀ y ∈ Y, ∀ z ∈ Z, ∀ x ∈ X, ∀ w ∈ W, ∀ us, us.length = k → Allowed (U y z x w) [] us →
      recursiveCheck ((A.ipa y z x w).run [] us)
        (rangePoint B Bb gens n m A.A A.S (A.T1 y z) (A.T2 y z) V (A.txBlinding y z x) (A.eBlinding y z x) y z x w)
        (getAll gens.G n m) (scaled (expIter y⁻¹ (n * m)) (getAll gens.H n m)) (w • B)
        ((A.ipa y z x w).a us) ((A.ipa y z x w).b us)) :
    ∀ j < m, ∃ v < 2 ^ n, ∃ γ : F, V j = ((v : Nat) : F) • B + γ • Bb := by
  obtain ⟨g, h, b, c, r, hdec, huniq⟩ := coordinates n m gens B Bb hi
  have hNpos : 0 < n * m := Nat.mul_pos hn hm
  have hG : getAll gens.G n m = (List.range (n * m)).map fun k => gens.G (k / n) (k % n) := by
    simp only [getAll, share]
    exact flat_eq n m hn gens.G
  have hH : ∀ y : F, scaled (expIter y⁻¹ (n * m)) (getAll gens.H n m)
      = (List.range (n * m)).map fun k => y⁻¹ ^ k • gens.H (k / n) (k % n) := by
    intro y
    simp only [getAll, share]
    rw [flat_eq n m hn gens.H, expIter_eq, scaled_range]
  -- the openings
  have hopen : ∀ y ∈ Y, ∀ z ∈ Z, ∀ x ∈ X, ∀ w ∈ W, ∃ l r' : Nat → F,
      rangePoint B Bb gens n m A.A A.S (A.T1 y z) (A.T2 y z) V (A.txBlinding y z x) (A.eBlinding y z x) y z x w
        = (∑ k ∈ range (n * m), l k • gens.G (k / n) (k % n))
          + (∑ k ∈ range (n * m), (r' k * y⁻¹ ^ k) • gens.H (k / n) (k % n))
          + (w * ∑ k ∈ range (n * m), l k * r' k) • B := by
    intro y hy z hz x hx w hw
    have hy0 := hY0 y hy
    have hw0 := hW0 w hw
    have hacc' := hacc y hy z hz x hx w hw
    rw [hG, hH] at hacc'
    have hind : Independent (F := F) ((List.range (n * m)).map fun k => gens.G (k / n) (k % n))
        ((List.range (n * m)).map fun k => y⁻¹ ^ k • gens.H (k / n) (k % n)) (w • B) := by
      intro u v t hu hv hz0
      simp only [List.length_map, List.length_range] at hu hv
      rw [list_eq_range u 0 _ hu, list_eq_range v 0 _ hv, dot_range, dot_range] at hz0
      obtain ⟨h1, h2, -⟩ := hi (fun k => u.getD k 0) (fun k => v.getD k 0 * y⁻¹ ^ k) (t * w) 0 (by
        rw [zero_smul, add_zero]
        simp only [mul_smul]
        exact hz0)
      refine ⟨fun q hq => ?_, fun q hq => ?_, (mul_eq_zero.1 h2).resolve_right hw0⟩
      · obtain ⟨i, hi', rfl⟩ := List.getElem_of_mem hq
        have := (h1 i (by omega)).1
        rwa [List.getD_eq_getElem _ _ hi'] at this
      · obtain ⟨i, hi', rfl⟩ := List.getElem_of_mem hq
        have := (h1 i (by omega)).2
        simp only [List.getD_eq_getElem _ _ hi'] at this
        exact (mul_eq_zero.1 this).resolve_right (pow_ne_zero _ (inv_ne_zero hy0))
    obtain ⟨l, r', hl, hr, he⟩ := C91_sound (A.ipa y z x w) (U y z x w) (hU y z x w) k [] _ _ (w • B) _
      (by simp [hk]) (by simp [hk]) hind hacc'
    rw [← hk] at hl hr
    obtain ⟨lf, rfl⟩ : ∃ lf : Nat → F, l = (List.range (n * m)).map lf := ⟨_, list_eq_range l 0 _ hl⟩
    obtain ⟨rf, rfl⟩ : ∃ rf : Nat → F, r' = (List.range (n * m)).map rf := ⟨_, list_eq_range r' 0 _ hr⟩
    refine ⟨lf, rf, ?_⟩
    rw [he]
    unfold commitment
    rw [dot_range, dot_range, dot_range, smul_smul, mul_comm w]
    simp only [mul_smul, smul_eq_mul]
  -- coordinates of the prover's points
  have hco : ∀ y ∈ Y, ∀ z ∈ Z, ∀ x ∈ X, ∀ w ∈ W, ∃ l r' : Nat → F,
      (∀ k < n * m, g k A.A + x * g k A.S + w * (x * g k (A.T1 y z) + x ^ 2 * g k (A.T2 y z)
          + z ^ 2 * ∑ j ∈ range m, z ^ j * g k (V j)) = l k + z) ∧
      (∀ k < n * m, h k A.A + x * h k A.S + w * (x * h k (A.T1 y z) + x ^ 2 * h k (A.T2 y z)
          + z ^ 2 * ∑ j ∈ range m, z ^ j * h k (V j))
          = r' k * y⁻¹ ^ k - (z + y⁻¹ ^ k * (z ^ 2 * (z ^ (k / n) * 2 ^ (k % n))))) ∧
      (b A.A + x * b A.S + w * (x * b (A.T1 y z) + x ^ 2 * b (A.T2 y z) + z ^ 2 * ∑ j ∈ range m, z ^ j * b (V j))
        = w * (∑ k ∈ range (n * m), l k * r' k) - w * ((z - z ^ 2) * (∑ k ∈ range (n * m), y ^ k)
        - z ^ 3 * ∑ k ∈ range (n * m), z ^ (k / n) * 2 ^ (k % n))) ∧
      (r A.A + x • r A.S + w • (x • r (A.T1 y z) + x ^ 2 • r (A.T2 y z) + z ^ 2 • ∑ j ∈ range m, z ^ j • r (V j)) = 0) := by
    intro y hy z hz x hx w hw
    obtain ⟨l, r', he⟩ := hopen y hy z hz x hx w hw
    refine ⟨l, r', ?_⟩
    obtain ⟨h1, h2, -, h4⟩ := huniq (fun k => l k + z)
      (fun k => r' k * y⁻¹ ^ k - (z + y⁻¹ ^ k * (z ^ 2 * (z ^ (k / n) * 2 ^ (k % n)))))
      (w * (∑ k ∈ range (n * m), l k * r' k) - w * ((z - z ^ 2) * (∑ k ∈ range (n * m), y ^ k)
        - z ^ 3 * ∑ k ∈ range (n * m), z ^ (k / n) * 2 ^ (k % n)))
      (A.eBlinding y z x + w * A.txBlinding y z x)
      (A.A + x • A.S + w • (x • A.T1 y z + x ^ 2 • A.T2 y z + z ^ 2 • ∑ j ∈ range m, z ^ j • V j)) (by
        unfold rangePoint at he
        simp only [add_smul _ z, sub_smul _ (z + _), sum_add_distrib, sum_sub_distrib, ← smul_sum]
        linear_combination (norm := module) he)
    simp only [map_add, map_smul, map_sum, smul_eq_mul] at h1 h2 h4
    exact ⟨fun k hk => (h1 k hk).1, fun k hk => (h1 k hk).2, h2, h4⟩
  obtain ⟨y0, hy0⟩ : Y.Nonempty := Finset.card_pos.1 (by omega)
  -- nothing outside the span of the generators
  have hr : ∀ j < m, r (V j) = 0 := by
    refine vand m Z (by omega) (fun j => r (V j)) fun z hz => ?_
    have hx : ∀ x ∈ X, x • r (A.T1 y0 z) + x ^ 2 • r (A.T2 y0 z) + z ^ 2 • ∑ j ∈ range m, z ^ j • r (V j) = 0 := by
      intro x hx
      refine vand 2 W (by omega) (fun i => match i with
        | 0 => r A.A + x • r A.S
        | _ => x • r (A.T1 y0 z) + x ^ 2 • r (A.T2 y0 z) + z ^ 2 • ∑ j ∈ range m, z ^ j • r (V j)) ?_ 1 (by omega)
      intro w hw
      obtain ⟨_, _, _, _, _, e⟩ := hco y0 hy0 z hz x hx w hw
      simpa [sum_range_succ] using e
    have := vand 3 X (by omega) (fun i => match i with
      | 0 => z ^ 2 • ∑ j ∈ range m, z ^ j • r (V j)
      | 1 => r (A.T1 y0 z)
      | _ => r (A.T2 y0 z)) (by
        intro x hx'
        have e := hx x hx'
        simp only [sum_range_succ, sum_range_zero, zero_add, pow_zero, pow_one, one_smul]
        rw [← e]
        abel) 0 (by omega)
    exact (smul_eq_zero.1 this).resolve_left (pow_ne_zero _ (hZ0 z hz))
  obtain ⟨hbit, hval, hzero⟩ := scalar_core n m hn hm Y Z X W hY hZ hX hW hZ0
    (fun k => g k A.A) (fun k => g k A.S) (fun k => h k A.A) (fun k => h k A.S)
    (fun j k => g k (V j)) (fun j k => h k (V j)) (fun j => b (V j))
    (fun y z k => g k (A.T1 y z)) (fun y z k => g k (A.T2 y z)) (fun y z k => h k (A.T1 y z)) (fun y z k => h k (A.T2 y z))
    (fun y z => b (A.T1 y z)) (fun y z => b (A.T2 y z)) (b A.A) (b A.S) (by
      intro y hy z hz x hx w hw
      obtain ⟨l, r', e1, e2, e3, -⟩ := hco y hy z hz x hx w hw
      have : ∑ k ∈ range (n * m),
          (g k A.A + x * g k A.S + w * (x * g k (A.T1 y z) + x ^ 2 * g k (A.T2 y z) + z ^ 2 * ∑ j ∈ range m, z ^ j * g k (V j)) - z)
          * (y ^ k * (h k A.A + x * h k A.S + w * (x * h k (A.T1 y z) + x ^ 2 * h k (A.T2 y z) + z ^ 2 * ∑ j ∈ range m, z ^ j * h k (V j)) + z)
            + z ^ 2 * (z ^ (k / n) * 2 ^ (k % n))) = ∑ k ∈ range (n * m), l k * r' k := by
        refine sum_congr rfl fun k hk => ?_
        rw [mem_range] at hk
        rw [e1 k hk, e2 k hk]
        have hyk : y ^ k * y⁻¹ ^ k = 1 := by
          rw [← mul_pow, mul_inv_cancel₀ (hY0 y hy), one_pow]
        linear_combination (l k * (r' k - z ^ 2 * (z ^ (k / n) * 2 ^ (k % n)))) * hyk
      rw [this]
      linear_combination -e3)
  intro j hj
  classical
  refine ⟨∑ i ∈ range n, 2 ^ i * (if g (j * n + i) A.A = 0 then 0 else 1),
    bits_lt n _ (fun i => by split <;> omega), c (V j), ?_⟩
  have hd := hdec (V j)
  rw [hr j hj, add_zero, sum_eq_zero (fun k hk => by rw [(hzero j hj k (mem_range.1 hk)).1, zero_smul]),
    sum_eq_zero (fun k hk => by rw [(hzero j hj k (mem_range.1 hk)).2, zero_smul]), zero_add, zero_add] at hd
  rw [hval j hj] at hd
  conv_lhs => rw [hd]
  congr 2
  push_cast
  refine sum_congr rfl fun i hi' => ?_
  rw [mem_range] at hi'
  have hlt : j * n + i < n * m := by
    have : (j + 1) * n ≤ m * n := Nat.mul_le_mul_right _ hj
    rw [Nat.mul_comm n m]
    have e : (j + 1) * n = j * n + n := by ring
    omega
  rcases hbit _ hlt with e | e
  · simp [e]
  · simp [e]

end Yacl.Bp
