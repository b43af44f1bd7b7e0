import Mathlib.FieldTheory.Finite.Basic
import Mathlib.NumberTheory.Padics.PadicVal.Basic
import Mathlib.Tactic.NormNum.Prime
import Mathlib.Tactic.ByContra

/-! Pocklington's criterion with a checker the kernel evaluates: primality of the constants of the predefined curves. -/
namespace Yacl.Ecc

/-- `a ^ k mod n` by repeated squaring. -/
def pw (n : Nat) : Nat → Nat → Nat → Nat
  | 0, _, _ => 1 % n
  | f + 1, a, k => if k % 2 = 1 then a * pw n f (a * a % n) (k / 2) % n else pw n f (a * a % n) (k / 2)

theorem pw_eq (n f a k : Nat) (h : k < 2 ^ f) : pw n f a k = a ^ k % n := by
  induction f generalizing a k with
  | zero => simp only [pow_zero, Nat.lt_one_iff] at h; subst h; rfl
  | succ f ih =>
    have hk : k / 2 < 2 ^ f := by rw [pow_succ] at h; omega
    have h2 := ih (a * a % n) (k / 2) hk
    have h3 : (a * a % n) ^ (k / 2) % n = a ^ (2 * (k / 2)) % n := by
      rw [← Nat.pow_mod, pow_mul, pow_two]
    unfold pw
    rw [h2, h3]
    split
    · rename_i h1
      rw [Nat.mul_mod_mod, ← pow_succ', show 2 * (k / 2) + 1 = k by omega]
    · rename_i h1
      rw [show 2 * (k / 2) = k by omega]

/-- A certificate: the primes of a factored part of `N - 1`, with their exponents and witnesses. -/
def check (N : Nat) : List (Nat × Nat × Nat) → Bool
  | [] => true
  | (q, e, a) :: L =>
    (N - 1) % q ^ e == 0 && 0 < e && pw N (Nat.log2 N + 1) a (N - 1) == 1 &&
    Nat.gcd (pw N (Nat.log2 N + 1) a ((N - 1) / q) + (N - 1)) N == 1 &&
    Nat.gcd (q ^ e) ((L.map fun t => t.1 ^ t.2.1).prod) == 1 && check N L

theorem dvd_of_order {q m d : Nat} (hq : q.Prime) (hm : m ≠ 0) (hd : d ∣ m) (hq' : q ∣ m) (h : ¬ d ∣ m / q) {e : Nat} (he : q ^ e ∣ m) :
    q ^ e ∣ d := by
  have hd0 : d ≠ 0 := fun h0 => hm (Nat.eq_zero_of_zero_dvd (h0 ▸ hd))
  obtain ⟨v, s, hs, rfl⟩ := Nat.exists_eq_pow_mul_and_not_dvd hm q hq.ne_one
  obtain ⟨j, t, ht, rfl⟩ := Nat.exists_eq_pow_mul_and_not_dvd hd0 q hq.ne_one
  have hts : t ∣ s := by
    have : t ∣ q ^ v * s := (Dvd.intro_left _ rfl).trans hd
    exact ((Nat.Prime.coprime_iff_not_dvd hq).2 ht).symm.pow_right v |>.dvd_of_dvd_mul_left this
  have hev : e ≤ v := by
    by_contra hlt
    have : q ^ (v + 1) ∣ q ^ v * s := (pow_dvd_pow q (by omega)).trans he
    rw [pow_succ] at this
    exact hs ((Nat.mul_dvd_mul_iff_left (pow_pos hq.pos v)).1 this)
  have hvj : v ≤ j := by
    by_contra hlt
    apply h
    have hv : v = (v - 1) + 1 := by omega
    rw [hv, pow_succ, mul_assoc, mul_comm q s, ← mul_assoc, Nat.mul_div_cancel _ hq.pos]
    exact Nat.mul_dvd_mul (pow_dvd_pow q (by omega)) hts
  exact (pow_dvd_pow q (hev.trans hvj)).trans (Nat.dvd_mul_right _ _)

theorem check_dvd {N r : Nat} (hN : 1 < N) [Fact r.Prime] (hr : r ∣ N) {L : List (Nat × Nat × Nat)} (hc : check N L = true)
    (hp : ∀ t ∈ L, t.1.Prime) : (L.map fun t => t.1 ^ t.2.1).prod ∣ r - 1 := by
  induction L with
  | nil => simp
  | cons t L ih =>
    obtain ⟨q, e, a⟩ := t
    simp only [check, Bool.and_eq_true, beq_iff_eq, decide_eq_true_eq] at hc
    obtain ⟨⟨⟨⟨⟨h1, h0⟩, h2⟩, h3⟩, h4⟩, h5⟩ := hc
    rw [List.map_cons, List.prod_cons]
    refine Nat.Coprime.mul_dvd_of_dvd_of_dvd h4 ?_ (ih h5 fun t ht => hp t (List.mem_cons_of_mem _ ht))
    have hq : q.Prime := hp _ List.mem_cons_self
    have hlog : N < 2 ^ (Nat.log2 N + 1) := Nat.lt_log2_self
    rw [pw_eq _ _ _ _ (by omega)] at h2
    rw [pw_eq _ _ _ _ (lt_of_le_of_lt (Nat.div_le_self _ _) (by omega))] at h3
    have hr1 : r ≠ 1 := (Fact.out : r.Prime).ne_one
    have m1 : ((a : ℕ) : ZMod r) ^ (N - 1) = 1 := by
      have : ((a ^ (N - 1) % N : ℕ) : ZMod r) = ((a ^ (N - 1) : ℕ) : ZMod r) := by
        rw [ZMod.natCast_eq_natCast_iff]
        exact (Nat.mod_modEq _ N).of_dvd hr
      rw [h2] at this
      push_cast at this
      exact this.symm
    have m2 : ((a : ℕ) : ZMod r) ^ ((N - 1) / q) ≠ 1 := by
      intro hcon
      have e1 : ((a ^ ((N - 1) / q) % N + (N - 1) : ℕ) : ZMod r) = 0 := by
        have : ((a ^ ((N - 1) / q) % N : ℕ) : ZMod r) = ((a ^ ((N - 1) / q) : ℕ) : ZMod r) := by
          rw [ZMod.natCast_eq_natCast_iff]
          exact (Nat.mod_modEq _ N).of_dvd hr
        rw [Nat.cast_add, this, Nat.cast_pow, hcon, Nat.cast_sub hN.le, (ZMod.natCast_eq_zero_iff N r).2 hr]
        push_cast; ring
      rw [ZMod.natCast_eq_zero_iff] at e1
      have := Nat.dvd_gcd e1 hr
      rw [h3] at this
      exact hr1 (Nat.dvd_one.1 this)
    have a0 : ((a : ℕ) : ZMod r) ≠ 0 := by
      intro h
      rw [h, zero_pow (by omega)] at m1
      exact zero_ne_one m1
    have hqe : q ^ e ∣ N - 1 := Nat.dvd_of_mod_eq_zero h1
    have hd := dvd_of_order hq (by omega : N - 1 ≠ 0) (orderOf_dvd_of_pow_eq_one m1)
      ((dvd_pow_self q (by omega)).trans hqe) (fun h => m2 (orderOf_dvd_iff_pow_eq_one.1 h)) hqe
    exact hd.trans (orderOf_dvd_of_pow_eq_one (ZMod.pow_card_sub_one_eq_one a0))

/-- Pocklington's criterion. -/
theorem prime_of_check {N : Nat} (hN : 1 < N) (L : List (Nat × Nat × Nat)) (hc : check N L = true)
    (hF : N ≤ ((L.map fun t => t.1 ^ t.2.1).prod) ^ 2) (hp : ∀ t ∈ L, t.1.Prime) : N.Prime := by
  have hr : N.minFac.Prime := Nat.minFac_prime (by omega)
  haveI : Fact N.minFac.Prime := ⟨hr⟩
  have hd := check_dvd hN (Nat.minFac_dvd N) hc hp
  have hle : (L.map fun t => t.1 ^ t.2.1).prod ≤ N.minFac - 1 := Nat.le_of_dvd (by have := hr.two_le; omega) hd
  by_contra hnp
  have h2 := Nat.minFac_sq_le_self (by omega) hnp
  have h3 : (N.minFac - 1) ^ 2 < N.minFac ^ 2 := Nat.pow_lt_pow_left (by have := hr.two_le; omega) (by norm_num)
  have h4 := Nat.pow_le_pow_left hle 2
  omega

end Yacl.Ecc
