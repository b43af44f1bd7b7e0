import Verif.Ecc.NistHash

/-! Curve25519: the Elligator 2 map, and point addition, doubling and cofactor clearing on `y² = x³ + A x² + x`. -/
namespace Yacl.Ecc.H2C
open Vss (addMod subMod mulMod invertMod cast_mod cast_add cast_sub cast_mul mod_range invertMod_cases eq_of_cast)
open BlockCipher (Byte Bytes beNat beBytes)

namespace Rfc

/-- `(x, y)` is what the Elligator 2 map (RFC 9380, 6.7.1, with Z = 2, K = 1) gives for `u` on the curve `y² = x³ + J x² + x`:
`x1 = -J / (1 + 2 u²)`; when `x1` is the coordinate of a point, that point with odd y, else the point with x coordinate `-x1 - J` and even y. -/
def Elligator (p : ℕ) (J : ZMod p) (u x y : ℕ) : Prop :=
  x < p ∧ y < p ∧ 1 + 2 * (u : ZMod p) ^ 2 ≠ 0 ∧ ∀ x1 : ZMod p, x1 * (1 + 2 * (u : ZMod p) ^ 2) = -J →
    (IsSquare (x1 ^ 3 + J * x1 ^ 2 + x1) → (x : ZMod p) = x1 ∧ (y ≠ 0 → y % 2 = 1)) ∧
    (¬ IsSquare (x1 ^ 3 + J * x1 ^ 2 + x1) → (x : ZMod p) = -x1 - J ∧ y % 2 = 0) ∧
    (y : ZMod p) ^ 2 = (x : ZMod p) ^ 3 + J * (x : ZMod p) ^ 2 + x

end Rfc

/-- The conditions on the constants of the Elligator map. -/
structure Elli (c : Ctx) (p : ℕ) : Prop where
  hp : c.at? "p" = some (p : Int)
  h58 : p % 8 = 5
  c4 : c.aux! "c4" = ((p - 5) / 8 : ℕ)
  sm1 : ((c.aux! "sqrtm1" : Int) : ZMod p) ^ 2 = -1
  c2 : ((c.aux! "c2" : Int) : ZMod p) ^ 4 = -4
  two : ¬ IsSquare (2 : ZMod p)
  size : p ≤ 256 ^ c.keySize
  hA : ((c.aux! "a" : Int) : ZMod p) ^ 2 ≠ 4

theorem Elli.aux_p {c : Ctx} {p : ℕ} (h : Elli c p) : c.aux! "p" = p := by
  unfold Ctx.aux!
  have := h.hp
  unfold Ctx.at? at this
  rw [this]
  rfl

section
variable {p : ℕ} [Fact p.Prime]

theorem pad_of {k : ℕ} (hk : p ≤ 256 ^ k) {v : ℤ} (hv : 0 ≤ v ∧ v < p) : toBytesPad k v = some (beBytes k v.toNat) := by
  unfold toBytesPad
  exact if_pos (lt_of_lt_of_le (by omega) hk)

theorem den_ne (h : ¬ IsSquare (2 : ZMod p)) {s : ZMod p} (hs : s ^ 2 = -1) (u : ZMod p) : 1 + 2 * u ^ 2 ≠ 0 := by
  intro h0
  have hu : u ≠ 0 := by rintro rfl; simp at h0
  apply h
  refine ⟨s / u, ?_⟩
  field_simp
  linear_combination h0 - hs

/-- The candidate root, times a fourth root of unity. -/
theorem root_core (h58 : p % 8 = 5) (N D : ZMod p) : ((D ^ 7 * N) ^ ((p - 5) / 8) * (D ^ 3 * N)) ^ 2 * D = N * (D ^ 7 * N) ^ ((p - 1) / 4) := by
  have e : (p - 1) / 4 = (p - 5) / 8 * 2 + 1 := by omega
  rw [e, pow_succ (D ^ 7 * N), pow_mul (D ^ 7 * N)]
  ring

theorem root_unit (h58 : p % 8 = 5) (N D : ZMod p) (hN : N ≠ 0) (hD : D ≠ 0) :
    (IsSquare (N / D) → (D ^ 7 * N) ^ ((p - 1) / 4) = 1 ∨ (D ^ 7 * N) ^ ((p - 1) / 4) = -1) ∧
    (¬ IsSquare (N / D) → ((D ^ 7 * N) ^ ((p - 1) / 4)) ^ 2 = -1) := by
  have hw : D ^ 7 * N ≠ 0 := mul_ne_zero (pow_ne_zero _ hD) hN
  have hsq : IsSquare (D ^ 7 * N) ↔ IsSquare (N / D) := by
    have e : D ^ 7 * N = N / D * (D ^ 4) ^ 2 := by field_simp
    rw [e]
    constructor
    · rintro ⟨r, hr⟩
      refine ⟨r / D ^ 4, ?_⟩
      have hd4 : D ^ 4 ≠ 0 := pow_ne_zero _ hD
      generalize N / D = q at hr ⊢
      generalize D ^ 4 = d at hr hd4 ⊢
      field_simp
      linear_combination hr
    · rintro ⟨r, hr⟩
      exact ⟨r * D ^ 4, by rw [hr]; ring⟩
  have e2 : ((D ^ 7 * N) ^ ((p - 1) / 4)) ^ 2 = (D ^ 7 * N) ^ (p / 2) := by rw [← pow_mul]; congr 1; omega
  constructor
  · intro h
    have h1 := (ZMod.euler_criterion p hw).mp (hsq.mpr h)
    rw [← e2] at h1
    exact sq_eq_one_iff_of_ne_zero_aux h1
  · intro h
    rw [e2]
    exact (ZMod.pow_div_two_eq_neg_one_or_one p hw).resolve_left fun h1 => h (hsq.mp ((ZMod.euler_criterion p hw).mpr h1))
where
  sq_eq_one_iff_of_ne_zero_aux {a : ZMod p} (h : a ^ 2 = 1) : a = 1 ∨ a = -1 := sq_eq_one_iff_of_ne_zero h
  sq_eq_one_iff_of_ne_zero {a : ZMod p} (h : a ^ 2 = 1) : a = 1 ∨ a = -1 := by
    have : (a - 1) * (a + 1) = 0 := by linear_combination h
    rcases mul_eq_zero.mp this with h | h
    · exact Or.inl (sub_eq_zero.mp h)
    · exact Or.inr (eq_neg_of_add_eq_zero_left h)

/-- The choices of the roots in the map. -/
theorem elli_core (h58 : p % 8 = 5) (N D u s c2 y : ZMod p) (hD : D ≠ 0) (hs : s ^ 2 = -1) (hc : c2 ^ 4 = -4)
    (hy : y = (D ^ 7 * N) ^ ((p - 5) / 8) * (D ^ 3 * N)) :
    (IsSquare (N / D) → y ^ 2 * D = N ∨ (y * s) ^ 2 * D = N) ∧
    (¬ IsSquare (N / D) → y ^ 2 * D ≠ N ∧ (y * s) ^ 2 * D ≠ N ∧
      ((y * u * c2) ^ 2 * D = N * (2 * u ^ 2) ∨ (y * u * c2 * s) ^ 2 * D = N * (2 * u ^ 2))) := by
  have h20 : (2 : ZMod p) ≠ 0 := by
    intro h0
    have : ((2 : ℕ) : ZMod p) = 0 := by exact_mod_cast h0
    rw [ZMod.natCast_eq_zero_iff] at this
    have := (Nat.prime_dvd_prime_iff_eq (Fact.out : p.Prime) Nat.prime_two).mp this
    omega
  have hcore := root_core h58 N D
  rw [← hy] at hcore
  by_cases hN : N = 0
  · subst hN
    have hy0 : y = 0 := by rw [hy]; ring
    subst hy0
    refine ⟨fun _ => Or.inl (by ring), fun h => absurd ⟨0, by ring⟩ h⟩
  obtain ⟨u1, u2⟩ := root_unit h58 N D hN hD
  generalize (D ^ 7 * N) ^ ((p - 1) / 4) = e at hcore u1 u2
  refine ⟨fun h => ?_, fun h => ?_⟩
  · rcases u1 h with h1 | h1
    · left; rw [hcore, h1, mul_one]
    · right; linear_combination s ^ 2 * hcore + N * e * hs - N * h1
  · have h1 := u2 h
    have hn1 : (1 : ZMod p) ≠ -1 := by
      intro h0
      apply h20
      linear_combination h0
    refine ⟨?_, ?_, ?_⟩
    · intro h2
      rw [hcore] at h2
      have : e = 1 := mul_left_cancel₀ hN (by rw [h2, mul_one])
      rw [this] at h1
      exact hn1 (by linear_combination h1)
    · intro h2
      have : N * (-e) = N * 1 := by linear_combination h2 - s ^ 2 * hcore - N * e * hs
      have h3 : e = -1 := by linear_combination -(mul_left_cancel₀ hN this)
      rw [h3] at h1
      exact hn1 (by linear_combination h1)
    · have h3 : (e * c2 ^ 2 - 2) * (e * c2 ^ 2 + 2) = 0 := by linear_combination c2 ^ 4 * h1 - hc
      rcases mul_eq_zero.mp h3 with h4 | h4
      · left; linear_combination u ^ 2 * c2 ^ 2 * hcore + N * u ^ 2 * h4
      · right; linear_combination u ^ 2 * c2 ^ 2 * s ^ 2 * hcore + N * e * u ^ 2 * c2 ^ 2 * hs - N * u ^ 2 * h4

/-- The sign of the result. -/
theorem elli_sign (h2 : p % 2 = 1) (e3 : Bool) (y : ℤ) (hy : 0 ≤ y ∧ y < p) :
    let y' := if e3 ^^ sgn0 y then -y else y
    let y'' := if y' < 0 then addMod y' p p else y'
    (0 ≤ y'' ∧ y'' < p) ∧ (y'' : ZMod p) ^ 2 = (y : ZMod p) ^ 2 ∧ (e3 = true → y'' ≠ 0 → y'' % 2 = 1) ∧ (e3 = false → y'' % 2 = 0) := by
  intro y' y''
  have hy' : y' = -y ∧ (e3 ^^ sgn0 y) = true ∨ y' = y ∧ (e3 ^^ sgn0 y) = false := by
    by_cases h : (e3 ^^ sgn0 y) = true
    · exact Or.inl ⟨if_pos h, h⟩
    · exact Or.inr ⟨if_neg h, by simpa using h⟩
  have hs : sgn0 y = decide (y % 2 = 1) := by
    unfold sgn0
    rcases Int.emod_two_eq_zero_or_one y with h | h <;> simp [h]
  have hp0 : 0 < (p : ℤ) := by exact_mod_cast (Fact.out : p.Prime).pos
  rcases hy' with ⟨e1, e2⟩ | ⟨e1, e2⟩
  · by_cases h0 : y = 0
    · have : y'' = 0 := by
        show (if y' < 0 then addMod y' p p else y') = 0
        rw [e1, h0]
        rfl
      rw [this, h0]
      rw [h0] at e2
      refine ⟨⟨le_refl _, hp0⟩, rfl, fun _ h => absurd rfl h, fun _ => rfl⟩
    · have hv : y'' = p - y := by
        show (if y' < 0 then addMod y' p p else y') = _
        rw [e1, if_pos (by omega)]
        show (-y + p) % (p : ℤ) = _
        rw [Int.emod_eq_of_lt (by omega) (by omega)]
        ring
      refine ⟨by omega, ?_, ?_, ?_⟩
      · rw [hv]; push_cast; rw [ZMod.natCast_self]; ring
      · rintro rfl -
        rw [hs] at e2
        have : ¬ (y % 2 = 1) := by simpa using e2
        omega
      · rintro rfl
        rw [hs] at e2
        have : y % 2 = 1 := by simpa using e2
        omega
  · have hv : y'' = y := by
      show (if y' < 0 then addMod y' p p else y') = _
      rw [e1, if_neg (by omega)]
    rw [hv]
    refine ⟨hy, rfl, ?_, ?_⟩
    · rintro rfl -
      rw [hs] at e2
      have : y % 2 = 1 := by simpa using e2
      exact this
    · rintro rfl
      rw [hs] at e2
      have : ¬ (y % 2 = 1) := by simpa using e2
      omega

/-- C104. `MapToCurveG2` is the Elligator 2 map for every non-empty buffer, and does not throw. -/
theorem C104_elligator {c : Ctx} (hc : Elli c p) (ubuf : Bytes) (hne : ubuf ≠ []) :
    ∃ x y, mapToCurveG2 c ubuf = some (beBytes c.keySize x, beBytes c.keySize y) ∧
      Rfc.Elligator p ((c.aux! "a" : Int) : ZMod p) (beNat ubuf) x y := by
  have h2 : p % 2 = 1 := by have := hc.h58; omega
  suffices H : ∀ r, mapToCurveG2 c ubuf = r → ∃ x y, r = some (beBytes c.keySize x, beBytes c.keySize y) ∧
      Rfc.Elligator p ((c.aux! "a" : Int) : ZMod p) (beNat ubuf) x y from H _ rfl
  intro r h
  have hlen : ¬ (ubuf.length = 0) := fun h => hne (List.eq_nil_of_length_eq_zero h)
  unfold mapToCurveG2 at h
  rw [if_neg hlen, hc.aux_p] at h
  have hUc : ((beNat ubuf : Int) : ZMod p) = ((beNat ubuf : ℕ) : ZMod p) := Int.cast_natCast _
  have hsm := hc.sm1
  have hc2 := hc.c2
  have hc4 := hc.c4
  generalize hA : c.aux! "a" = A at h ⊢
  generalize hC2 : c.aux! "c2" = C2 at h hc2
  generalize hC4 : c.aux! "c4" = C4 at h hc4
  generalize hS : c.aux! "sqrtm1" = S at h hsm
  extract_lets u u2 t d x1n d2 D g1 g2 g3 N D2 D4 D6 D9 W w y11 y12 v1 v2 y1 x2n y2a y21 y22 gx2 v3 v4 y2 v5 v6 e3 xn y e4 y' y'' at h
  set U : ZMod p := ((beNat ubuf : ℕ) : ZMod p) with hU
  have cu : (u : ZMod p) = U := hUc
  have ct : (t : ZMod p) = 2 * U ^ 2 := by
    have e1 : (t : ZMod p) = u2 * (2 : ℤ) := cast_mul _ _
    have e2 : (u2 : ZMod p) = u * u := cast_mul _ _
    rw [e1, e2, cu]
    push_cast
    ring
  have cd : (d : ZMod p) = 1 + 2 * U ^ 2 := by
    have e1 : (d : ZMod p) = t + (1 : ℤ) := cast_add _ _
    rw [e1, ct]
    push_cast
    ring
  have hd0 : 1 + 2 * U ^ 2 ≠ 0 := den_ne hc.two hsm U
  have d0 : (d : ZMod p) ≠ 0 := by rw [cd]; exact hd0
  have cx1 : (x1n : ZMod p) = -A := Int.cast_neg _
  have cD : (D : ZMod p) = (d : ZMod p) ^ 3 := by
    have e1 : (D : ZMod p) = d2 * d := cast_mul _ _
    have e2 : (d2 : ZMod p) = d * d := cast_mul _ _
    rw [e1, e2]
    ring
  have D0 : (D : ZMod p) ≠ 0 := by rw [cD]; exact pow_ne_zero _ d0
  have cN : (N : ZMod p) = (A * (d - 1) * -A + (d : ZMod p) ^ 2) * -A := by
    have e1 : (N : ZMod p) = g3 * x1n := cast_mul _ _
    have e2 : (g3 : ZMod p) = g2 + d2 := cast_add _ _
    have e3 : (g2 : ZMod p) = g1 * x1n := cast_mul _ _
    have e4 : (g1 : ZMod p) = A * t := cast_mul _ _
    have e5 : (d2 : ZMod p) = d * d := cast_mul _ _
    rw [e1, e2, e3, e4, e5, cx1, cd, ct]
    ring
  have cy : (y11 : ZMod p) = ((D : ZMod p) ^ 7 * N) ^ ((p - 5) / 8) * ((D : ZMod p) ^ 3 * N) := by
    have e1 : (y11 : ZMod p) = w * D9 := cast_mul _ _
    have e2 : (w : ZMod p) = (W : ZMod p) ^ C4.toNat := cast_pow _ _
    have e3 : (W : ZMod p) = D4 * D9 := cast_mul _ _
    have e4 : (D9 : ZMod p) = D6 * N := cast_mul _ _
    have e5 : (D6 : ZMod p) = D2 * D := cast_mul _ _
    have e6 : (D4 : ZMod p) = D2 * D2 := cast_mul _ _
    have e7 : (D2 : ZMod p) = D * D := cast_mul _ _
    rw [e1, e2, e3, e4, e5, e6, e7, hc4, Int.toNat_natCast]
    congr 1
    · congr 1
      ring
    · ring
  obtain ⟨k1, k2⟩ := elli_core hc.h58 (N : ZMod p) D U S C2 y11 D0 hsm hc2 cy
  have rN : 0 ≤ N ∧ N < p := mod_range _
  have rg : 0 ≤ gx2 ∧ gx2 < p := mod_range _
  have cv2 : (v2 : ZMod p) = (y11 : ZMod p) ^ 2 * D := by
    have e1 : (v2 : ZMod p) = v1 * D := cast_mul _ _
    have e2 : (v1 : ZMod p) = y11 * y11 := cast_mul _ _
    rw [e1, e2]; ring
  have cy12 : (y12 : ZMod p) = y11 * S := cast_mul _ _
  have q1 : v2 = N ↔ (y11 : ZMod p) ^ 2 * D = N := by
    rw [← cv2]
    exact ⟨fun h => by rw [h], fun h => emod_inj (mod_range _) rN h⟩
  have cv6 : (v6 : ZMod p) = (y1 : ZMod p) ^ 2 * D := by
    have e1 : (v6 : ZMod p) = v5 * D := cast_mul _ _
    have e2 : (v5 : ZMod p) = y1 * y1 := cast_mul _ _
    rw [e1, e2]; ring
  have q3 : e3 = true ↔ (y1 : ZMod p) ^ 2 * D = N := by
    rw [← cv6]
    have : e3 = true ↔ v6 = N := decide_eq_true_iff
    rw [this]
    exact ⟨fun h => by rw [h], fun h => emod_inj (mod_range _) rN h⟩
  have cv4 : (v4 : ZMod p) = (y21 : ZMod p) ^ 2 * D := by
    have e1 : (v4 : ZMod p) = v3 * D := cast_mul _ _
    have e2 : (v3 : ZMod p) = y21 * y21 := cast_mul _ _
    rw [e1, e2]; ring
  have cg2 : (gx2 : ZMod p) = N * (2 * U ^ 2) := by
    have e1 : (gx2 : ZMod p) = N * t := cast_mul _ _
    rw [e1, ct]
  have cy21 : (y21 : ZMod p) = y11 * U * C2 := by
    have e1 : (y21 : ZMod p) = y2a * C2 := cast_mul _ _
    have e2 : (y2a : ZMod p) = y11 * u := cast_mul _ _
    rw [e1, e2, cu]
  have cy22 : (y22 : ZMod p) = y11 * U * C2 * S := by
    have e1 : (y22 : ZMod p) = y21 * S := cast_mul _ _
    rw [e1, cy21]
  have q2 : v4 = gx2 ↔ (y11 * U * C2 : ZMod p) ^ 2 * D = N * (2 * U ^ 2) := by
    rw [← cg2, ← cy21, ← cv4]
    exact ⟨fun h => by rw [h], fun h => emod_inj (mod_range _) rg h⟩
  have ry1 : 0 ≤ y1 ∧ y1 < p := by
    show 0 ≤ (if v2 = N then y11 else y12) ∧ (if v2 = N then y11 else y12) < p
    split
    · exact mod_range _
    · exact mod_range _
  have ry2 : 0 ≤ y2 ∧ y2 < p := by
    show 0 ≤ (if v4 = gx2 then y21 else y22) ∧ (if v4 = gx2 then y21 else y22) < p
    split
    · exact mod_range _
    · exact mod_range _
  have ry : 0 ≤ y ∧ y < p := by
    show 0 ≤ (if e3 then y1 else y2) ∧ (if e3 then y1 else y2) < p
    split
    · exact ry1
    · exact ry2
  obtain ⟨f1, f2, f3, f4⟩ := elli_sign h2 e3 y ry
  have hND : ∀ x1 : ZMod p, x1 * (1 + 2 * U ^ 2) = -A → x1 = -A / d ∧ (N : ZMod p) / D = x1 ^ 3 + A * x1 ^ 2 + x1 := by
    intro x1 hx1
    have e1 : x1 = -A / d := by rw [eq_div_iff d0, cd]; exact hx1
    refine ⟨e1, ?_⟩
    rw [e1, cN, cD]
    field_simp
    ring
  have hx0 : (-A / (d : ZMod p)) * (1 + 2 * U ^ 2) = -A := by rw [← cd]; field_simp
  have hq := (hND _ hx0).2
  have he3 : e3 = true ↔ IsSquare ((N : ZMod p) / D) := by
    rw [q3]
    constructor
    · intro h3
      by_contra hns
      obtain ⟨n1, n2, -⟩ := k2 hns
      have : (y1 : ZMod p) = y11 ∨ (y1 : ZMod p) = y11 * S := by
        show (((if v2 = N then y11 else y12 : ℤ)) : ZMod p) = _ ∨ (((if v2 = N then y11 else y12 : ℤ)) : ZMod p) = _
        split
        · left; rfl
        · right; exact cy12
      rcases this with e | e
      · rw [e] at h3; exact n1 h3
      · rw [e] at h3; exact n2 h3
    · intro hs
      show (((if v2 = N then y11 else y12 : ℤ)) : ZMod p) ^ 2 * D = N
      split
      · rename_i hv; exact q1.mp hv
      · rename_i hv
        rw [cy12]
        exact (k1 hs).resolve_left fun h => hv (q1.mpr h)
  rcases invertMod_cases (p := p) d with ⟨h0, -⟩ | ⟨-, i, ei, hi⟩
  · exact absurd h0 d0
  rw [ei, Option.bind_some] at h
  have rx : 0 ≤ mulMod xn i p ∧ mulMod xn i p < p := mod_range _
  have rx' : ((mulMod xn i p).toNat : ℤ) = mulMod xn i p := Int.toNat_of_nonneg rx.1
  have ry'' : (y''.toNat : ℤ) = y'' := Int.toNat_of_nonneg f1.1
  have cx : (((mulMod xn i p).toNat : ℕ) : ZMod p) = (xn : ZMod p) / d := by
    have : (((mulMod xn i p).toNat : ℤ) : ZMod p) = (xn : ZMod p) / d := by rw [rx', cast_mul, hi, div_eq_mul_inv]
    rw [Int.cast_natCast] at this
    exact this
  have cyy : ((y''.toNat : ℕ) : ZMod p) ^ 2 = (y : ZMod p) ^ 2 := by
    have : ((y''.toNat : ℤ) : ZMod p) ^ 2 = (y : ZMod p) ^ 2 := by rw [ry'']; exact f2
    rw [Int.cast_natCast] at this
    exact this
  have hh : r = some (beBytes c.keySize (mulMod xn i p).toNat, beBytes c.keySize y''.toNat) := by
    rw [← h]
    show (toBytesPad c.keySize (mulMod xn i p)).bind _ = _
    rw [pad_of hc.size rx, Option.bind_some, pad_of hc.size f1, Option.map_some]
  have f1' : 0 ≤ y'' ∧ y'' < p := f1
  have f3' : e3 = true → y'' ≠ 0 → y'' % 2 = 1 := f3
  have f4' : e3 = false → y'' % 2 = 0 := f4
  refine ⟨_, _, hh, by omega, by omega, hd0, fun x1 hx1 => ?_⟩
  obtain ⟨ex1, eN⟩ := hND x1 hx1
  rw [← eN, ← he3]
  refine ⟨fun h3 => ⟨?_, fun hne => ?_⟩, fun h3 => ⟨?_, ?_⟩, ?_⟩
  · rw [cx]
    show ((if e3 = true then x1n else x2n : ℤ) : ZMod p) / d = x1
    rw [if_pos h3, cx1, ex1]
  · have := f3' h3 (by omega)
    omega
  · rw [cx]
    show ((if e3 = true then x1n else x2n : ℤ) : ZMod p) / d = _
    have e1 : (x2n : ZMod p) = x1n * t := cast_mul _ _
    rw [if_neg h3, e1, cx1, ct, ex1]
    have : (2 : ZMod p) * U ^ 2 = d - 1 := by rw [cd]; ring
    rw [this]
    field_simp
    ring
  · have := f4' (by simpa using h3)
    omega
  · rw [cyy, cx]
    by_cases h3 : e3 = true
    · have e1 : (xn : ZMod p) = -A := by
        show ((if e3 = true then x1n else x2n : ℤ) : ZMod p) = _
        rw [if_pos h3, cx1]
      have e2 : (y : ZMod p) = y1 := by
        show ((if e3 = true then y1 else y2 : ℤ) : ZMod p) = _
        rw [if_pos h3]
      rw [e1, e2, ← ex1, ← eN, eq_div_iff D0]
      exact q3.mp h3
    · have e0 : (x2n : ZMod p) = x1n * t := cast_mul _ _
      have e1 : (xn : ZMod p) = -A * (2 * U ^ 2) := by
        show ((if e3 = true then x1n else x2n : ℤ) : ZMod p) = _
        rw [if_neg h3, e0, cx1, ct]
      have e2 : (y : ZMod p) = y2 := by
        show ((if e3 = true then y1 else y2 : ℤ) : ZMod p) = _
        rw [if_neg h3]
      obtain ⟨-, -, hor⟩ := k2 (fun hs => h3 (he3.mpr hs))
      have e4 : (y2 : ZMod p) ^ 2 * D = N * (2 * U ^ 2) := by
        show (((if v4 = gx2 then y21 else y22 : ℤ)) : ZMod p) ^ 2 * D = _
        split
        · rename_i hv
          rw [cy21]
          exact q2.mp hv
        · rename_i hv
          rw [cy22]
          exact hor.resolve_left fun h => hv (q2.mpr h)
      have e5 : (2 : ZMod p) * U ^ 2 = d - 1 := by rw [cd]; ring
      rw [e5, cN] at e4
      rw [e2, e1, e5]
      apply mul_right_cancel₀ D0
      rw [e4, cD]
      field_simp
      ring

end

end Yacl.Ecc.H2C
