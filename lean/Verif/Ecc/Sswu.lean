import Verif.Ecc.HashToField
import Mathlib.NumberTheory.LegendreSymbol.Basic
import Mathlib.Tactic.LinearCombination
import Mathlib.Tactic.FieldSimp
import Mathlib.Tactic.Ring

namespace Yacl.Ecc.H2C
open Vss (addMod subMod mulMod invertMod cast_mod cast_add cast_sub cast_mul mod_range invertMod_cases)
open BlockCipher (Byte Bytes beNat beBytes)

/-! ### Specification -/
namespace Rfc

open Classical in
/-- The x coordinate of the simplified Shallue-van de Woestijne-Ulas map (RFC 9380, 6.6.2) for `y² = x³ + A x + B`. -/
noncomputable def sswuX {F : Type} [Field F] (A B Z u : F) : F :=
  let t := Z ^ 2 * u ^ 4 + Z * u ^ 2
  let x1 := if t = 0 then B / (Z * A) else -B / A * (1 + t⁻¹)
  if IsSquare (x1 ^ 3 + A * x1 + B) then x1 else Z * u ^ 2 * x1

/-- `(x, y)` is what the map gives for `u`: the x coordinate above, and the square root with the parity of `u`. -/
def Sswu (p : ℕ) (A B Z : ZMod p) [Fact p.Prime] (u : Nat) (x y : Int) : Prop :=
  (0 ≤ x ∧ x < p) ∧ (0 ≤ y ∧ y < p) ∧ (x : ZMod p) = sswuX A B Z (u : ZMod p) ∧
  (y : ZMod p) ^ 2 = (x : ZMod p) ^ 3 + A * x + B ∧ (y ≠ 0 → y % 2 = u % 2)

end Rfc

/-- The conditions of RFC 9380 on the constants. -/
structure Suite (c : Ctx) (p : ℕ) : Prop where
  hp : c.at? "p" = some (p : Int)
  h34 : p % 4 = 3
  c1 : c.aux! "c1" = ((p + 1) / 4 : ℕ)
  hA : ((c.aux! "a" : Int) : ZMod p) ≠ 0
  hB : ((c.aux! "b" : Int) : ZMod p) ≠ 0
  hZ : ¬ IsSquare ((c.aux! "z" : Int) : ZMod p)
  hG : ∃ x : ZMod p, x * ((c.aux! "z" : Int) * (c.aux! "a" : Int)) = (c.aux! "b" : Int) ∧ IsSquare (x ^ 3 + (c.aux! "a" : Int) * x + (c.aux! "b" : Int))

theorem Suite.aux_p {c : Ctx} {p : ℕ} (h : Suite c p) : c.aux! "p" = p := by
  unfold Ctx.aux!
  have := h.hp
  unfold Ctx.at? at this
  rw [this]
  rfl

section
variable {p : ℕ} [Fact p.Prime]

theorem half_exp (h2 : p ≠ 2) (t2 : Int) (h : (t2 : ZMod p) = ((2 : Int) : ZMod p)⁻¹) : mulMod (subMod p 1 p) t2 p = ((p / 2 : ℕ) : Int) := by
  have hp : p.Prime := Fact.out
  have hodd : p % 2 = 1 := (Nat.Prime.eq_two_or_odd hp).resolve_left h2
  have h20 : (2 : ZMod p) ≠ 0 := by
    intro h0
    have : ((2 : ℕ) : ZMod p) = 0 := by exact_mod_cast h0
    rw [ZMod.natCast_eq_zero_iff] at this
    exact h2 ((Nat.prime_dvd_prime_iff_eq hp Nat.prime_two).mp this)
  have hr := mod_range (p := p) (subMod p 1 p * t2)
  have hc : ((mulMod (subMod p 1 p) t2 p : Int) : ZMod p) = ((p / 2 : ℕ) : Int) := by
    rw [cast_mul, cast_sub, h]
    have hp2 : (2 : ZMod p) * ((p / 2 : ℕ) : ZMod p) = -1 := by
      have : ((2 * (p / 2) + 1 : ℕ) : ZMod p) = 0 := by
        rw [show 2 * (p / 2) + 1 = p by omega]
        exact ZMod.natCast_self p
      push_cast at this
      linear_combination this
    have hmul : (2 : ZMod p) * (((p : ℤ) : ZMod p) - ((1 : ℤ) : ZMod p)) * ((2 : Int) : ZMod p)⁻¹ = -1 := by
      push_cast
      rw [ZMod.natCast_self]
      field_simp
      ring
    apply mul_left_cancel₀ h20
    have e : (((p / 2 : ℕ) : ℤ) : ZMod p) = ((p / 2 : ℕ) : ZMod p) := Int.cast_natCast _
    rw [e, hp2, ← hmul]
    ring
  have := Vss.eq_of_cast hr hc
  unfold mulMod at this ⊢
  rw [this]
  exact Int.emod_eq_of_lt (by omega) (by have := hp.pos; omega)

theorem isSquare_eq (h2 : p ≠ 2) (v : Int) : ∃ b, isSquare v p = some b ∧ (b = true ↔ IsSquare (v : ZMod p)) := by
  have hp : p.Prime := Fact.out
  have h20 : ((2 : Int) : ZMod p) ≠ 0 := by
    intro h0
    have : ((2 : ℕ) : ZMod p) = 0 := by exact_mod_cast h0
    rw [ZMod.natCast_eq_zero_iff] at this
    exact h2 ((Nat.prime_dvd_prime_iff_eq hp Nat.prime_two).mp this)
  rcases invertMod_cases (p := p) 2 with ⟨h, -⟩ | ⟨-, t2, e, hc⟩
  · exact absurd h h20
  · unfold isSquare
    simp only [e, Option.map_some]
    refine ⟨_, rfl, ?_⟩
    rw [half_exp h2 t2 hc, decide_eq_true_eq]
    have hcast := cast_pow (p := p) v ((p / 2 : ℕ) : Int)
    rw [Int.toNat_natCast] at hcast
    have hr := powMod_range (p := p) v ((p / 2 : ℕ) : Int)
    generalize powMod v ((p / 2 : ℕ) : Int) p = t at hcast hr
    have hp2 := hp.two_le
    by_cases h0 : (v : ZMod p) = 0
    · rw [h0] at hcast ⊢
      rw [zero_pow (by omega)] at hcast
      have : t = 0 % (p : Int) := Vss.eq_of_cast hr (by rw [hcast, Int.cast_zero])
      rw [Int.zero_emod] at this
      exact ⟨fun _ => ⟨0, by ring⟩, fun _ => Or.inr this⟩
    · rw [ZMod.euler_criterion p h0]
      constructor
      · rintro (h | h)
        · rw [h] at hcast
          rw [← hcast, Int.cast_one]
        · rw [h, Int.cast_zero] at hcast
          exact absurd hcast.symm (pow_ne_zero _ h0)
      · intro h
        rw [h] at hcast
        left
        have := Vss.eq_of_cast hr (b := 1) (by rw [hcast, Int.cast_one])
        rw [this]
        exact Int.emod_eq_of_lt (by omega) (by omega)

/-- Squares have the root that `Sqrt3m4` computes. -/
theorem root_sq (h34 : p % 4 = 3) (a : ZMod p) (h : IsSquare a) : (a ^ ((p + 1) / 4)) ^ 2 = a := by
  have hp : p.Prime := Fact.out
  by_cases h0 : a = 0
  · rw [h0, zero_pow (by omega)]
    ring
  · have := (ZMod.euler_criterion p h0).mp h
    rw [← pow_mul, show (p + 1) / 4 * 2 = p / 2 + 1 by omega, pow_succ, this, one_mul]

theorem mul_nonsquare (a b : ZMod p) (ha : ¬ IsSquare a) (hb : ¬ IsSquare b) : IsSquare (a * b) := by
  have a0 : a ≠ 0 := by rintro rfl; exact ha ⟨0, by ring⟩
  have b0 : b ≠ 0 := by rintro rfl; exact hb ⟨0, by ring⟩
  have ea : a ^ (p / 2) = -1 := (ZMod.pow_div_two_eq_neg_one_or_one p a0).resolve_left fun h => ha ((ZMod.euler_criterion p a0).mpr h)
  have eb : b ^ (p / 2) = -1 := (ZMod.pow_div_two_eq_neg_one_or_one p b0).resolve_left fun h => hb ((ZMod.euler_criterion p b0).mpr h)
  rw [ZMod.euler_criterion p (mul_ne_zero a0 b0), mul_pow, ea, eb]
  ring

theorem sqrtRatio_eq {c : Ctx} (hc : Suite c p) (u v : Int) (hv : (v : ZMod p) ≠ 0) :
    ∃ b y, sqrtRatio c u v = some (b, y) ∧ (0 ≤ y ∧ y < p) ∧ (b = true ↔ IsSquare ((u : ZMod p) / v)) ∧
      (y : ZMod p) ^ 2 = if b = true then (u : ZMod p) / v else (c.aux! "z" : Int) * ((u : ZMod p) / v) := by
  have h2 : p ≠ 2 := by have := hc.h34; omega
  rcases invertMod_cases (p := p) v with ⟨h, -⟩ | ⟨-, r, e, hr⟩
  · exact absurd h hv
  · obtain ⟨b, eb, hb⟩ := isSquare_eq h2 (mulMod r u p)
    have hq : ((mulMod r u p : Int) : ZMod p) = (u : ZMod p) / v := by
      rw [cast_mul, hr, div_eq_mul_inv, mul_comm]
    rw [hq] at hb
    unfold sqrtRatio
    simp only [hc.aux_p, e, Option.bind_some, eb, Option.map_some]
    cases b with
    | true =>
      refine ⟨true, sqrt3m4 c (mulMod r u p), rfl, ?_, hb, ?_⟩
      · unfold sqrt3m4
        rw [hc.aux_p]
        exact powMod_range _ _
      · rw [if_pos rfl]
        unfold sqrt3m4
        rw [hc.aux_p, cast_pow, hc.c1, Int.toNat_natCast, hq]
        exact root_sq hc.h34 _ (hb.mp rfl)
    | false =>
      have hns : ¬ IsSquare ((u : ZMod p) / v) := fun h => by have := hb.mpr h; cases this
      refine ⟨false, sqrt3m4 c (mulMod (mulMod r u p) (c.aux! "z") p), rfl, ?_, hb, ?_⟩
      · unfold sqrt3m4
        rw [hc.aux_p]
        exact powMod_range _ _
      · rw [if_neg (by decide)]
        unfold sqrt3m4
        rw [hc.aux_p, cast_pow, hc.c1, Int.toNat_natCast, cast_mul, hq, mul_comm]
        exact root_sq hc.h34 _ (mul_nonsquare _ _ hc.hZ hns)

/-- The sign fix: the result is a root with the wanted parity. -/
theorem sign_fix (h2 : p ≠ 2) (u y : Int) (hy : 0 ≤ y ∧ y < p) (y' : Int) (e : y' = if sgn0 u = sgn0 y then y else subMod p y p) :
    (0 ≤ y' ∧ y' < p) ∧ (y' : ZMod p) ^ 2 = (y : ZMod p) ^ 2 ∧ (y' ≠ 0 → y' % 2 = u % 2) := by
  have hodd : p % 2 = 1 := (Nat.Prime.eq_two_or_odd (Fact.out : p.Prime)).resolve_left h2
  unfold sgn0 at e
  split at e
  · rename_i h
    rw [e]
    refine ⟨hy, rfl, fun _ => ?_⟩
    simp only [ne_eq, decide_not, Bool.not_eq_eq_eq_not, Bool.not_not] at h
    have : (u % 2 = 0) ↔ (y % 2 = 0) := by
      constructor
      · intro h1; have := h; simp only [h1, decide_true] at this; exact of_decide_eq_true this.symm
      · intro h1; have := h; simp only [h1, decide_true] at this; exact of_decide_eq_true this
    omega
  · rename_i h
    rw [e]
    refine ⟨mod_range _, ?_, ?_⟩
    · rw [cast_sub]
      push_cast
      rw [ZMod.natCast_self]
      ring
    · intro hne
      have hy0 : y ≠ 0 := by
        rintro rfl
        apply hne
        unfold subMod
        rw [Int.sub_zero, Int.emod_self]
      have : subMod p y p = p - y := Int.emod_eq_of_lt (by omega) (by omega)
      rw [this]
      simp only [ne_eq, decide_not, Bool.not_eq_eq_eq_not, Bool.not_not] at h
      have : ¬ ((u % 2 = 0) ↔ (y % 2 = 0)) := by
        intro hiff
        apply h
        simp only [hiff]
      omega

/-- C104. For every context meeting the conditions of the RFC and every non-empty buffer, `MapToCurveSSWU` does not throw and gives the point of the simplified SWU map:
reduced coordinates, the x coordinate of the RFC, on the curve, with the y of the parity of `u`. -/
theorem C104_sswu {c : Ctx} (hc : Suite c p) (ubuf : Bytes) (hne : ubuf ≠ []) :
    ∃ x y, mapToCurveSSWU c ubuf = some (x, y) ∧
      Rfc.Sswu p (c.aux! "a" : Int) (c.aux! "b" : Int) (c.aux! "z" : Int) (beNat ubuf) x y := by
  have h2 : p ≠ 2 := by have := hc.h34; omega
  suffices H : ∀ r, mapToCurveSSWU c ubuf = r → ∃ x y, r = some (x, y) ∧
      Rfc.Sswu p (c.aux! "a" : Int) (c.aux! "b" : Int) (c.aux! "z" : Int) (beNat ubuf) x y from H _ rfl
  intro r h
  have hlen : ¬ (ubuf.length = 0) := fun h => hne (List.eq_nil_of_length_eq_zero h)
  unfold mapToCurveSSWU at h
  rw [if_neg hlen, hc.aux_p] at h
  have hUc : ((beNat ubuf : Int) : ZMod p) = ((beNat ubuf : ℕ) : ZMod p) := Int.cast_natCast _
  generalize hA : c.aux! "a" = A at h ⊢
  generalize hB : c.aux! "b" = B at h ⊢
  generalize hZ : c.aux! "z" = Z at h ⊢
  have hA0 := hc.hA
  have hB0 := hc.hB
  have hZ0 := hc.hZ
  have hG := hc.hG
  rw [hA] at hA0
  rw [hB] at hB0
  rw [hZ] at hZ0
  rw [hA, hB, hZ] at hG
  have hz : (Z : ZMod p) ≠ 0 := by intro h0; rw [h0] at hZ0; exact hZ0 ⟨0, by ring⟩
  extract_lets u a1 t t2 n n1 w3 e d ww dd add k1 k2 d3 bd g xt yt at h
  set U : ZMod p := ((beNat ubuf : ℕ) : ZMod p) with hU
  have cu : (u : ZMod p) = U := hUc
  have ct : (t : ZMod p) = Z * U ^ 2 := by
    show ((mulMod (mulMod u u p) Z p : Int) : ZMod p) = _
    rw [cast_mul, cast_mul, cu]
    ring
  have cn : (n : ZMod p) = Z ^ 2 * U ^ 4 + Z * U ^ 2 := by
    show ((addMod (mulMod t t p) t p : Int) : ZMod p) = _
    rw [cast_add, cast_mul, ct]
    ring
  have cw : (w3 : ZMod p) = B * (n + 1) := by
    show ((mulMod (addMod n 1 p) B p : Int) : ZMod p) = _
    rw [cast_mul, cast_add]
    push_cast
    ring
  have hn0 : n = 0 ↔ (n : ZMod p) = 0 := by
    constructor
    · intro h0
      rw [h0, Int.cast_zero]
    · intro h0
      have := Vss.eq_of_cast (mod_range (p := p) (t2 + t)) (b := 0) (by rw [Int.cast_zero]; exact h0)
      rw [Int.zero_emod] at this
      exact this
  have ce : (e : ZMod p) = if (n : ZMod p) = 0 then (Z : ZMod p) else -n := by
    show (((if n ≠ 0 then subMod p n p else Z : Int)) : ZMod p) = _
    by_cases h0 : n = 0
    · rw [if_neg (not_not.mpr h0), if_pos (hn0.mp h0)]
    · rw [if_pos h0, if_neg (fun h => h0 (hn0.mpr h)), cast_sub]
      push_cast
      rw [ZMod.natCast_self]
      ring
  have e0 : (e : ZMod p) ≠ 0 := by
    rw [ce]
    split
    · exact hz
    · rename_i h0
      exact neg_ne_zero.mpr h0
  have cd : (d : ZMod p) = e * A := by
    show ((mulMod e A p : Int) : ZMod p) = _
    rw [cast_mul]
  have d0 : (d : ZMod p) ≠ 0 := by
    rw [cd]
    exact mul_ne_zero e0 hA0
  have cd3 : (d3 : ZMod p) = (d : ZMod p) ^ 3 := by
    show ((mulMod (mulMod d d p) d p : Int) : ZMod p) = _
    rw [cast_mul, cast_mul]
    ring
  have cg : (g : ZMod p) = (w3 : ZMod p) ^ 3 + A * w3 * (d : ZMod p) ^ 2 + B * (d : ZMod p) ^ 3 := by
    have e1 : (g : ZMod p) = k2 + bd := cast_add _ _
    have e2 : (k2 : ZMod p) = k1 * w3 := cast_mul _ _
    have e3 : (k1 : ZMod p) = ww + add := cast_add _ _
    have e4 : (ww : ZMod p) = w3 * w3 := cast_mul _ _
    have e5 : (add : ZMod p) = A * dd := cast_mul _ _
    have e6 : (dd : ZMod p) = d * d := cast_mul _ _
    have e7 : (bd : ZMod p) = B * d3 := cast_mul _ _
    rw [e1, e2, e3, e4, e5, e6, e7, cd3]
    ring
  set X1 : ZMod p := (w3 : ZMod p) / d with hX1
  have hq : (g : ZMod p) / d3 = X1 ^ 3 + A * X1 + B := by
    rw [cg, cd3, hX1]
    field_simp
  have hspec : X1 = if Z ^ 2 * U ^ 4 + Z * U ^ 2 = 0 then (B : ZMod p) / (Z * A) else -B / A * (1 + (Z ^ 2 * U ^ 4 + Z * U ^ 2)⁻¹) := by
    rw [hX1, cw, cd, ce, cn]
    by_cases h0 : (Z : ZMod p) ^ 2 * U ^ 4 + Z * U ^ 2 = 0
    · rw [if_pos h0, if_pos h0, h0]
      ring
    · rw [if_neg h0, if_neg h0]
      generalize (Z : ZMod p) ^ 2 * U ^ 4 + Z * U ^ 2 = N at h0 ⊢
      field_simp
  have d30 : (d3 : ZMod p) ≠ 0 := by
    rw [cd3]
    exact pow_ne_zero _ d0
  obtain ⟨b, y1, es, hy1, hb, hsq⟩ := sqrtRatio_eq hc g d3 d30
  rw [hq] at hb hsq
  rw [hZ] at hsq
  rcases invertMod_cases (p := p) d with ⟨h0, -⟩ | ⟨-, i, ei, hi⟩
  · exact absurd h0 d0
  rw [es, Option.bind_some, ei] at h
  have hX : Rfc.sswuX (A : ZMod p) B Z U = if b = true then X1 else Z * U ^ 2 * X1 := by
    unfold Rfc.sswuX
    simp only
    have hspec' : (if (Z : ZMod p) ^ 2 * U ^ 4 + Z * U ^ 2 = 0 then (B : ZMod p) / (Z * A) else -B / A * (1 + (Z ^ 2 * U ^ 4 + Z * U ^ 2)⁻¹)) = X1 := by
      rw [hspec]
    by_cases h00 : (Z : ZMod p) ^ 2 * U ^ 4 + Z * U ^ 2 = 0
    all_goals simp only [h00, if_true, if_false] at hspec' ⊢
    all_goals rw [hspec']
    all_goals by_cases hs : IsSquare (X1 ^ 3 + A * X1 + B)
    all_goals first | rw [if_pos hs, if_pos (hb.mpr hs)] | rw [if_neg hs, if_neg (fun h => hs (hb.mp h))]
  cases b with
  | true =>
    simp only [Option.map_some, if_true] at h hsq
    obtain ⟨f1, f2, f3⟩ := sign_fix h2 u y1 hy1 _ rfl
    have cx : ((mulMod w3 i p : Int) : ZMod p) = X1 := by rw [cast_mul, hi, hX1, div_eq_mul_inv]
    refine ⟨_, _, h.symm, mod_range _, f1, ?_, ?_, f3⟩
    · rw [cx, hX, if_pos rfl]
    · rw [f2, cx, hsq]
  | false =>
    have hns : ¬ IsSquare (X1 ^ 3 + A * X1 + B) := fun hs => by have := hb.mpr hs; cases this
    simp only [Option.map_some, Bool.false_eq_true, if_false] at h hsq
    have hyr : 0 ≤ mulMod yt y1 p ∧ mulMod yt y1 p < p := mod_range _
    obtain ⟨f1, f2, f3⟩ := sign_fix h2 u (mulMod yt y1 p) hyr _ rfl
    have cx : ((mulMod xt i p : Int) : ZMod p) = Z * U ^ 2 * X1 := by
      show ((mulMod (mulMod t w3 p) i p : Int) : ZMod p) = _
      rw [cast_mul, cast_mul, hi, hX1, ct, div_eq_mul_inv]
      ring
    have cy : ((mulMod yt y1 p : Int) : ZMod p) = Z * U ^ 2 * U * y1 := by
      show ((mulMod (mulMod t u p) y1 p : Int) : ZMod p) = _
      rw [cast_mul, cast_mul, ct, cu]
    refine ⟨_, _, h.symm, mod_range _, f1, ?_, ?_, f3⟩
    · rw [cx, hX, if_neg (by decide)]
    · rw [f2, cx, cy]
      -- the exceptional case has a square value, so the denominator is not zero here
      have hne0 : (Z : ZMod p) ^ 2 * U ^ 4 + Z * U ^ 2 ≠ 0 := by
        intro h0
        apply hns
        obtain ⟨x, hx, hxs⟩ := hG
        have : X1 = x := by
          rw [hspec, if_pos h0, ← hx]
          field_simp
        rw [this]
        exact hxs
      have hX1' : A * (Z ^ 2 * U ^ 4 + Z * U ^ 2) * X1 = -B * (Z ^ 2 * U ^ 4 + Z * U ^ 2 + 1) := by
        rw [hspec, if_neg hne0]
        generalize (Z : ZMod p) ^ 2 * U ^ 4 + Z * U ^ 2 = N at hne0 ⊢
        field_simp
      have hexp : ((Z : ZMod p) * U ^ 2 * U * y1) ^ 2 = Z ^ 2 * U ^ 6 * (y1 : ZMod p) ^ 2 := by ring
      rw [hexp, hsq]
      linear_combination ((Z : ZMod p) * U ^ 2 - 1) * hX1'

end
end Yacl.Ecc.H2C
