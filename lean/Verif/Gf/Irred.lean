import Mathlib.RingTheory.AdjoinRoot
import Mathlib.FieldTheory.Finite.Basic
import Mathlib.Dynamics.PeriodicPts.Defs
import Mathlib.Algebra.CharP.Frobenius
import Verif.Gf.Reduce

/-! Irreducibility of the two moduli, by Rabin's test run in the kernel on the modelled multiplication. -/
namespace Yacl.Gf
open Polynomial

instance : Fact (Nat.Prime 2) := ⟨Nat.prime_two⟩

theorem sq_iter {R : Type} [CommRing R] [CharP R 2] (n : Nat) (x : R) : (fun y : R => y ^ 2)^[n] x = x ^ (2 ^ n) := by
  induction n with
  | zero => simp
  | succ n ih => rw [Function.iterate_succ_apply', ih, ← pow_mul, pow_succ]

/-- Rabin's test in degree `2^(k+1)`: `X^(2^n) = X` modulo `f`, and `X^(2^(n/2)) - X` is a unit modulo `f`. -/
theorem irreducible_of_rabin (f : (ZMod 2)[X]) (n h : Nat) (hn : ∃ k, h = 2 ^ k) (hh : n = 2 * h) (hd : f.natDegree = n)
    (h1 : (fun y : AdjoinRoot f => y ^ 2)^[n] (AdjoinRoot.root f) = AdjoinRoot.root f)
    (u : AdjoinRoot f) (h2 : u * ((fun y : AdjoinRoot f => y ^ 2)^[h] (AdjoinRoot.root f) - AdjoinRoot.root f) = 1) :
    Irreducible f := by
  obtain ⟨k, hk⟩ := hn
  have hpos : 0 < h := by rw [hk]; positivity
  have hf0 : f ≠ 0 := by
    rintro rfl
    simp at hd
    omega
  have hfu : ¬ IsUnit f := by
    intro hu
    have := natDegree_eq_zero_of_isUnit hu
    omega
  obtain ⟨g, hg, q, hq⟩ := WfDvdMonoid.exists_irreducible_factor hfu hf0
  have hg0 := hg.ne_zero
  have hq0 : q ≠ 0 := by
    rintro rfl
    exact hf0 (by rw [hq, mul_zero])
  by_cases hlt : g.natDegree < n
  · exfalso
    haveI : Fact (Irreducible g) := ⟨hg⟩
    let φ : AdjoinRoot f →+* AdjoinRoot g := AdjoinRoot.lift (algebraMap _ _) (AdjoinRoot.root g) (by
      rw [hq, eval₂_mul]
      have : eval₂ (algebraMap (ZMod 2) (AdjoinRoot g)) (AdjoinRoot.root g) g = 0 := AdjoinRoot.eval₂_root g
      rw [this, zero_mul])
    have hφ : φ (AdjoinRoot.root f) = AdjoinRoot.root g := AdjoinRoot.lift_root _
    have hit : ∀ (m : Nat) (x : AdjoinRoot f), φ ((fun y : AdjoinRoot f => y ^ 2)^[m] x) = (fun y : AdjoinRoot g => y ^ 2)^[m] (φ x) := by
      intro m
      induction m with
      | zero => intro x; rfl
      | succ m ih =>
        intro x
        rw [Function.iterate_succ_apply', Function.iterate_succ_apply', map_pow, ih]
    have p1 : Function.IsPeriodicPt (fun y : AdjoinRoot g => y ^ 2) n (AdjoinRoot.root g) := by
      have := congrArg φ h1
      rw [hit, hφ] at this
      exact this
    have p2 : Function.IsPeriodicPt (fun y : AdjoinRoot g => y ^ 2) g.natDegree (AdjoinRoot.root g) := by
      haveI : Module.Finite (ZMod 2) (AdjoinRoot g) := (AdjoinRoot.powerBasis hg0).finite
      haveI : Finite (AdjoinRoot g) := Module.finite_of_finite (ZMod 2)
      haveI : Fintype (AdjoinRoot g) := Fintype.ofFinite _
      have hc : Fintype.card (AdjoinRoot g) = 2 ^ g.natDegree := by
        rw [Module.card_eq_pow_finrank (K := ZMod 2), ZMod.card, (AdjoinRoot.powerBasis hg0).finrank, AdjoinRoot.powerBasis_dim]
      have hpc := FiniteField.pow_card (AdjoinRoot.root g)
      rw [hc] at hpc
      haveI : CharP (AdjoinRoot g) 2 := charP_of_injective_algebraMap (algebraMap (ZMod 2) (AdjoinRoot g)).injective 2
      show (fun y : AdjoinRoot g => y ^ 2)^[g.natDegree] (AdjoinRoot.root g) = _
      rw [sq_iter, hpc]
    have p3 := p1.gcd p2
    have hdv : Nat.gcd n g.natDegree ∣ h := by
      have hgn : Nat.gcd n g.natDegree ∣ n := Nat.gcd_dvd_left _ _
      have hle : Nat.gcd n g.natDegree < n := by
        have hgd : 0 < g.natDegree := by
          rcases Nat.eq_zero_or_pos g.natDegree with h' | h'
          · exfalso
            exact hg.not_isUnit (isUnit_iff_degree_eq_zero.mpr (by rw [degree_eq_natDegree hg0, h']; rfl))
          · exact h'
        have := Nat.gcd_le_right n hgd
        omega
      have hn2 : n = 2 ^ (k + 1) := by rw [hh, hk, pow_succ']
      generalize Nat.gcd n g.natDegree = e at *
      rw [hn2] at hgn hle
      obtain ⟨j, hj, rfl⟩ := (Nat.dvd_prime_pow Nat.prime_two).mp hgn
      rw [hk]
      apply Nat.pow_dvd_pow
      have := (Nat.pow_lt_pow_iff_right (a := 2) (by omega)).mp hle
      omega
    have p4 : Function.IsPeriodicPt (fun y : AdjoinRoot g => y ^ 2) h (AdjoinRoot.root g) := p3.trans_dvd hdv
    have e2 := congrArg φ h2
    rw [map_mul, map_sub, hit, hφ, map_one, show (fun y : AdjoinRoot g => y ^ 2)^[h] (AdjoinRoot.root g) = AdjoinRoot.root g from p4,
      sub_self, mul_zero] at e2
    exact zero_ne_one e2
  · have hdeg := natDegree_mul hg0 hq0
    rw [← hq, hd] at hdeg
    have hq1 : IsUnit q := isUnit_iff_degree_eq_zero.mpr (by rw [degree_eq_natDegree hq0, show q.natDegree = 0 by omega]; rfl)
    rw [hq]
    exact (irreducible_mul_isUnit hq1).mpr hg

end Yacl.Gf
