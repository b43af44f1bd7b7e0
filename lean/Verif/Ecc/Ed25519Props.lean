import Verif.Ecc.Ed25519Model
import Mathlib.NumberTheory.LegendreSymbol.QuadraticReciprocity
import Mathlib.Tactic.LinearCombination
import Mathlib.Tactic.FieldSimp
import Mathlib.Tactic.Ring
import Mathlib.Tactic.Abel

/-!
# C122: the Ed25519 backends compute in the curve group
-/

namespace Verif.Ecc.Ed25519

variable {p : Nat} {P : Type} [AddCommGroup P]

/-! ## Specification -/

/-- The curve: a group whose elements have coordinates. -/
structure Curve (p : Nat) (P : Type) where
  x : P → ZMod p
  y : P → ZMod p
  gen : P

/-- `q` represents the point `a`. -/
def Rep (C : Curve p P) (q : P3 p) (a : P) : Prop :=
  q.Z ≠ 0 ∧ q.X = C.x a * q.Z ∧ q.Y = C.y a * q.Z ∧ q.X * q.Y = q.Z * q.T

/-- The encoding of RFC 8032: y, and the parity of x in the top bit. -/
def enc (C : Curve p P) (a : P) : Nat := (C.y a).val + 2 ^ 255 * ((C.x a).val % 2)

/-- The twisted Edwards curve `-x² + y² = 1 + d·x²·y²` with a generator of odd
order `n`, and what the libraries document about their functions. -/
structure Ok (L : Lib p) (C : Curve p P) : Prop where
  prime : p.Prime
  mod8 : p % 8 = 5
  small : p ≤ 2 ^ 255
  d_ne : L.d ≠ -1
  on_curve : ∀ a, -C.x a ^ 2 + C.y a ^ 2 = 1 + L.d * C.x a ^ 2 * C.y a ^ 2
  surj : ∀ u v : ZMod p, -u ^ 2 + v ^ 2 = 1 + L.d * u ^ 2 * v ^ 2 → ∃ a, C.x a = u ∧ C.y a = v
  inj : ∀ a b, C.x a = C.x b → C.y a = C.y b → a = b
  x_zero : C.x 0 = 0
  y_zero : C.y 0 = 1
  x_neg : ∀ a, C.x (-a) = -C.x a
  y_neg : ∀ a, C.y (-a) = C.y a
  n_odd : L.n % 2 = 1
  n_gt : 1 < L.n
  n_gen : L.n • C.gen = 0
  add_rep : ∀ q r a b, Rep C q a → Rep C r b → Rep C (L.add q r) (a + b)
  sub_rep : ∀ q r a b, Rep C q a → Rep C r b → Rep C (L.sub q r) (a - b)
  mulBase_rep : ∀ k, 0 < k → k < L.n → Rep C (L.mulBase k) (k • C.gen)
  mul_rep : ∀ k q a, 0 < k → k < L.n → Rep C q a → Rep C (L.mul k q) (k • a)
  tobytes_len : ∀ q, (L.tobytes q).length = 32
  tobytes_val : ∀ q a, Rep C q a → leVal (L.tobytes q) = enc C a
  frombytes_rep : ∀ b a, b.length = 32 → leVal b = enc C a →
    (L.frombytes b).2 = true ∧ Rep C (L.frombytes b).1 a
  sameLimbs_sound : ∀ a b c e, L.sameLimbs a b c e = true → a * b = c * e

/-- What a program means in the group. -/
def grp (C : Curve p P) : Ex → P
  | .gen => C.gen
  | .mulBase k => k • C.gen
  | .add a b => grp C a + grp C b
  | .sub a b => grp C a - grp C b
  | .double a => (2 : Int) • grp C a
  | .negate a => -grp C a
  | .mul a k => k • grp C a
  | .mulDoubleBase k1 k2 a => k1 • C.gen + k2 • grp C a
  | .viaAffine a => grp C a
  | .viaBytes a => grp C a
  | .viaCompressed a => grp C a

/-! ## Lemmas -/

theorem two_torsion {L : Lib p} {C : Curve p P} (h : Ok L C) {a : P} (hx : C.x a = 0) : a + a = 0 := by
  have : -a = a := h.inj _ _ (by rw [h.x_neg, hx, neg_zero]) (h.y_neg a)
  nth_rewrite 1 [← this]
  exact neg_add_cancel a

theorem zero_of_x {L : Lib p} {C : Curve p P} (h : Ok L C) {a : P} (hn : L.n • a = 0) (hx : C.x a = 0) : a = 0 := by
  have h2 := two_torsion h hx
  obtain ⟨m, hm⟩ : ∃ m, L.n = m * 2 + 1 := ⟨L.n / 2, by have := h.n_odd; omega⟩
  rw [hm, add_smul, mul_smul, two_nsmul, h2, smul_zero, zero_add, one_smul] at hn
  exact hn

theorem isInfinity_iff {C : Curve p P} {q : P3 p} {a : P} (hp : p.Prime) (hr : Rep C q a) :
    isInfinity q = true ↔ C.x a = 0 := by
  haveI : Fact p.Prime := ⟨hp⟩
  obtain ⟨hz, hX, _, _⟩ := hr
  unfold isInfinity
  rw [Bool.or_eq_true, decide_eq_true_iff, decide_eq_true_iff]
  constructor
  · rintro (h | h)
    · rw [hX] at h; exact (mul_eq_zero.mp h).resolve_right hz
    · exact absurd h hz
  · intro h; left; rw [hX, h, zero_mul]

theorem inf_rep {L : Lib p} {C : Curve p P} (h : Ok L C) : Rep C (inf L) 0 := by
  have h1 := h.mulBase_rep 1 (by omega) h.n_gt
  have := h.sub_rep _ _ _ _ h1 h1
  rw [sub_self] at this
  exact this

theorem scalar_lt {L : Lib p} (hn : 0 < L.n) (k : Int) : scalar L k < L.n := by
  unfold scalar
  have h1 := Int.emod_lt_of_pos k (show (0 : Int) < L.n by omega)
  omega

theorem scalar_smul {L : Lib p} (hn : 0 < L.n) (k : Int) {a : P} (ha : L.n • a = 0) : scalar L k • a = k • a := by
  unfold scalar
  have h0 := Int.emod_nonneg k (show (L.n : Int) ≠ 0 by omega)
  have e : ((k % L.n).toNat : Int) • a = k • a := by
    rw [Int.toNat_of_nonneg h0]
    have e2 : k • a = (L.n * (k / L.n) + k % L.n) • a := by rw [Int.mul_ediv_add_emod]
    rw [e2, add_smul, mul_comm, mul_smul, natCast_zsmul, ha, smul_zero, zero_add]
  rw [← natCast_zsmul]
  exact e

theorem n_smul_zsmul {L : Lib p} (k : Int) {a : P} (ha : L.n • a = 0) : L.n • (k • a) = 0 := by
  rw [smul_comm, ha, smul_zero]

theorem mulBase_ok {L : Lib p} {C : Curve p P} (h : Ok L C) (k : Int) : Rep C (mulBase L k) (k • C.gen) := by
  have hn : 0 < L.n := by have := h.n_gt; omega
  have hs := scalar_smul hn k h.n_gen
  unfold mulBase
  split
  · next h0 => rw [h0, zero_smul] at hs; rw [← hs]; exact inf_rep h
  · next h0 => rw [← hs]; exact h.mulBase_rep _ (by omega) (scalar_lt hn k)

theorem mul_ok {L : Lib p} {C : Curve p P} (h : Ok L C) (q : P3 p) (a : P) (hr : Rep C q a) (ha : L.n • a = 0) (k : Int) :
    Rep C (mul L q k) (k • a) := by
  have hn : 0 < L.n := by have := h.n_gt; omega
  have hs := scalar_smul hn k ha
  unfold mul
  split
  · next h0 =>
    rw [Bool.or_eq_true, decide_eq_true_iff] at h0
    have : k • a = 0 := by
      rcases h0 with h0 | h0
      · rw [h0, zero_smul] at hs; exact hs.symm
      · rw [zero_of_x h ha ((isInfinity_iff h.prime hr).mp h0), smul_zero]
    rw [this]; exact inf_rep h
  · next h0 =>
    rw [Bool.or_eq_true, decide_eq_true_iff] at h0
    rw [← hs]
    exact h.mul_rep _ _ _ (by omega) (scalar_lt hn k) hr

theorem negate_ok {L : Lib p} {C : Curve p P} (h : Ok L C) (q : P3 p) (a : P) (hr : Rep C q a) :
    Rep C (negate q) (-a) := by
  unfold negate
  split
  · next h0 =>
    have hx := (isInfinity_iff h.prime hr).mp h0
    have : -a = a := h.inj _ _ (by rw [h.x_neg, hx, neg_zero]) (h.y_neg a)
    rw [this]; exact hr
  · obtain ⟨h1, h2, h3, h4⟩ := hr
    refine ⟨neg_ne_zero.mpr h1, ?_, ?_, ?_⟩
    · rw [h.x_neg, neg_mul_neg]; exact h2
    · rw [h.y_neg, mul_neg, h3]
    · show q.X * -q.Y = -q.Z * q.T
      rw [mul_neg, neg_mul, h4]

theorem getAffine_ok {C : Curve p P} (hp : p.Prime) {q : P3 p} {a : P} (hr : Rep C q a) :
    getAffine q = (((C.x a).val : Int), ((C.y a).val : Int)) := by
  haveI : Fact p.Prime := ⟨hp⟩
  obtain ⟨h1, h2, h3, _⟩ := hr
  unfold getAffine
  rw [h2, h3, mul_assoc, mul_assoc, mul_inv_cancel₀ h1, mul_one, mul_one]

theorem feOf_nat {v : Nat} (h : v < 2 ^ 255) : (feOf (v : Int) : Option (ZMod p)) = some (v : ZMod p) := by
  unfold feOf
  rw [Int.natAbs_natCast, if_pos, Nat.mod_eq_of_lt h]
  calc v < 2 ^ 255 := h
    _ ≤ 2 ^ 256 := Nat.pow_le_pow_right (by norm_num) (by norm_num)

/-- Coordinates of a curve point are accepted. -/
theorem copyAffine_nat {L : Lib p} {C : Curve p P} (h : Ok L C) {u v : Nat} (hu : u < 2 ^ 255) (hv : v < 2 ^ 255)
    (hc : -(u : ZMod p) ^ 2 + (v : ZMod p) ^ 2 = 1 + L.d * (u : ZMod p) ^ 2 * (v : ZMod p) ^ 2) :
    ∃ q a, copyAffine L u v = some q ∧ Rep C q a ∧ C.x a = u ∧ C.y a = v := by
  haveI : Fact p.Prime := ⟨h.prime⟩
  obtain ⟨a, h1, h2⟩ := h.surj u v hc
  refine ⟨⟨u, v, 1, u * v⟩, a, ?_, ⟨one_ne_zero, by simp [h1], by simp [h2], by simp⟩, h1, h2⟩
  unfold copyAffine
  rw [feOf_nat hu, feOf_nat hv]
  have : isInCurveGroup L ⟨(u : ZMod p), v, 1, u * v⟩ = true := by
    unfold isInCurveGroup isOnCurve
    rw [Bool.or_eq_true]
    right
    rw [decide_eq_true_iff]
    simp only [one_pow, mul_one]
    linear_combination hc
  simp [this]

theorem val_lt {p : Nat} (hp : p.Prime) (hs : p ≤ 2 ^ 255) (u : ZMod p) : u.val < 2 ^ 255 := by
  haveI : NeZero p := ⟨hp.ne_zero⟩
  exact lt_of_lt_of_le (ZMod.val_lt u) hs

theorem copyAffine_ok {L : Lib p} {C : Curve p P} (h : Ok L C) (a : P) :
    ∃ q, copyAffine L ((C.x a).val : Int) ((C.y a).val : Int) = some q ∧ Rep C q a := by
  haveI : NeZero p := ⟨h.prime.ne_zero⟩
  have hc := h.on_curve a
  obtain ⟨q, b, h1, h2, h3, h4⟩ := copyAffine_nat h (val_lt h.prime h.small (C.x a)) (val_lt h.prime h.small (C.y a))
    (by rw [ZMod.natCast_zmod_val, ZMod.natCast_zmod_val]; exact hc)
  rw [ZMod.natCast_zmod_val] at h3 h4
  have := h.inj _ _ h3 h4
  subst this
  exact ⟨q, h1, h2⟩

/-! ### Square roots -/

theorem two_pow {p : Nat} (hp : p.Prime) (h8 : p % 8 = 5) : (2 : ZMod p) ^ (p / 2) = -1 := by
  haveI : Fact p.Prime := ⟨hp⟩
  have hp2 : p ≠ 2 := by omega
  have h2 : (2 : ZMod p) ≠ 0 := by
    intro h
    have : ((2 : Nat) : ZMod p) = 0 := by exact_mod_cast h
    rw [ZMod.natCast_eq_zero_iff] at this
    have := Nat.le_of_dvd (by norm_num) this
    have := hp.two_le
    omega
  have hns : ¬ IsSquare (2 : ZMod p) := by
    rw [ZMod.exists_sq_eq_two_iff hp2]; omega
  rcases ZMod.pow_div_two_eq_neg_one_or_one p h2 with h | h
  · exact absurd ((ZMod.euler_criterion p h2).mpr h) hns
  · exact h

/-- `sqrt` finds a root of every square. -/
theorem sqrt_ok {p : Nat} (hp : p.Prime) (h8 : p % 8 = 5) (x2 : Int) (r : ZMod p) (hr : r ^ 2 = (x2 : ZMod p)) :
    ∃ s : ZMod p, sqrt p x2 = some s.val ∧ s ^ 2 = (x2 : ZMod p) := by
  haveI : Fact p.Prime := ⟨hp⟩
  obtain ⟨k, hk⟩ : ∃ k, p = 8 * k + 5 := ⟨p / 8, by omega⟩
  have e1 : (p + 3) / 8 = k + 1 := by omega
  have e2 : (p - 1) / 4 = 2 * k + 1 := by omega
  have e3 : p / 2 = 4 * k + 2 := by omega
  set a : ZMod p := (x2 : ZMod p) with ha
  have h2 := two_pow hp h8
  rw [e3] at h2
  have h2' : ((2 : ZMod p) ^ (2 * k + 1)) ^ 2 = -1 := by rw [← pow_mul, ← h2]; congr 1; ring
  have hor : a * a ^ (2 * k + 1) = a ∨ a * a ^ (2 * k + 1) = -a := by
    by_cases h0 : a = 0
    · left; rw [h0]; simp
    · have hr0 : r ≠ 0 := by intro h; apply h0; rw [← hr, h]; simp
      have : a ^ (2 * k + 1) = r ^ (p / 2) := by rw [← hr, ← pow_mul, e3]; congr 1; ring
      rw [this]
      rcases ZMod.pow_div_two_eq_neg_one_or_one p hr0 with h | h <;> rw [h] <;> simp
  have hs : a ^ (k + 1) * a ^ (k + 1) = a * a ^ (2 * k + 1) := by
    rw [← pow_add, ← pow_succ']; congr 1; ring
  unfold sqrt
  rw [← ha, e1, e2]
  dsimp only
  by_cases hc : a ^ (k + 1) * a ^ (k + 1) - a = 0
  · rw [if_pos hc, if_pos hc]
    exact ⟨_, rfl, by rw [pow_two]; exact sub_eq_zero.mp hc⟩
  · rw [if_neg hc]
    have hneg : a ^ (k + 1) * a ^ (k + 1) = -a := by
      rcases hor with h | h
      · exact absurd (by rw [hs, h, sub_self]) hc
      · rw [hs, h]
    have hfin : a ^ (k + 1) * 2 ^ (2 * k + 1) * (a ^ (k + 1) * 2 ^ (2 * k + 1)) = a := by
      linear_combination (2 ^ (2 * k + 1)) ^ 2 * hneg - a * h2'
    rw [if_pos (by rw [hfin, sub_self])]
    exact ⟨_, rfl, by rw [pow_two]; exact hfin⟩

/-- A root `sqrt` returns is one. -/
theorem sqrt_sound {p : Nat} (hp : p.Prime) (x2 : Int) (s : Nat) (h : sqrt p x2 = some s) :
    s < p ∧ (s : ZMod p) ^ 2 = (x2 : ZMod p) := by
  haveI : NeZero p := ⟨hp.ne_zero⟩
  unfold sqrt at h
  extract_lets x x' at h
  clear_value x'
  split at h
  · next hx =>
    have h := Option.some.inj h
    rw [← h, ZMod.natCast_zmod_val, pow_two]
    exact ⟨ZMod.val_lt _, sub_eq_zero.mp hx⟩
  · cases h

/-! ### Decompression -/

theorem invertMod_some {p : Nat} (hp : p.Prime) {a : Int} (h : (a : ZMod p) ≠ 0) :
    invertMod p a = some (((a : ZMod p))⁻¹).val := by
  unfold invertMod
  rw [if_pos]
  rw [← Int.isCoprime_iff_gcd_eq_one]
  have hp' : Prime (p : Int) := Nat.prime_iff_prime_int.mp hp
  rw [isCoprime_comm]
  refine (hp'.coprime_iff_not_dvd).mpr ?_
  rwa [← ZMod.intCast_zmod_eq_zero_iff_dvd]

theorem invertMod_sound {p : Nat} (hp : p.Prime) {a : Int} {i : Nat} (h : invertMod p a = some i) :
    (a : ZMod p) ≠ 0 ∧ (i : ZMod p) = ((a : ZMod p))⁻¹ := by
  haveI : Fact p.Prime := ⟨hp⟩
  haveI : NeZero p := ⟨hp.ne_zero⟩
  unfold invertMod at h
  split at h
  · next hg =>
    have h := Option.some.inj h
    refine ⟨?_, by rw [← h, ZMod.natCast_zmod_val]⟩
    rw [Ne, ZMod.intCast_zmod_eq_zero_iff_dvd]
    intro hd
    have : (p : Int) ∣ 1 := by
      rw [← Int.isCoprime_iff_gcd_eq_one] at hg
      exact (hg.isUnit_of_dvd' hd dvd_rfl).dvd
    have := Int.eq_one_of_dvd_one (by omega) this
    have := hp.two_le
    omega
  · cases h

/-- What a successful decompression has computed. -/
theorem copyBytes_sound {L : Lib p} {C : Curve p P} (h : Ok L C) (b : List UInt8) (hb : leVal b < 2 ^ 256) (q : P3 p)
    (hq : copyBytes L b = some q) :
    leVal b % 2 ^ 255 < p ∧ ∃ a, Rep C q a ∧ C.y a = ((leVal b % 2 ^ 255 : Nat) : ZMod p) ∧
      ((C.x a).val % 2 = leVal b / 2 ^ 255 ∨ C.x a = 0) := by
  haveI : Fact p.Prime := ⟨h.prime⟩
  haveI : NeZero p := ⟨h.prime.ne_zero⟩
  unfold copyBytes at hq
  have hsign : leVal b / 2 ^ 255 < 2 := by
    rw [Nat.div_lt_iff_lt_mul (Nat.two_pow_pos _)]
    calc leVal b < 2 ^ 256 := hb
      _ = 2 * 2 ^ 255 := by rw [← pow_succ']
  have hp2 : p % 2 = 1 := by have := h.mod8; omega
  generalize leVal b / 2 ^ 255 = sign at hq hsign ⊢
  have hylt : leVal b % 2 ^ 255 < 2 ^ 255 := Nat.mod_lt _ (Nat.two_pow_pos _)
  generalize leVal b % 2 ^ 255 = y at hq hylt ⊢
  dsimp only at hq
  by_cases hy : y < p
  swap
  · rw [if_pos hy] at hq; cases hq
  rw [if_neg (not_not.mpr hy)] at hq
  refine ⟨hy, ?_⟩
  cases hi : invertMod p ((L.d.val : Int) * ((y : Int) * y) + 1) with
  | none => rw [hi] at hq; cases hq
  | some i =>
    rw [hi] at hq
    obtain ⟨h1, h2⟩ := invertMod_sound h.prime hi
    have hcast : (((L.d.val : Int) * ((y : Int) * y) + 1 : Int) : ZMod p) = L.d * (y : ZMod p) ^ 2 + 1 := by
      push_cast
      rw [ZMod.natCast_zmod_val]
      ring
    rw [hcast] at h1 h2
    replace hq : (if ((y : Int) * y - 1) * i = 0 then if sign = 0 then copyAffine L 0 y else none
      else (sqrt p (((y : Int) * y - 1) * i)).bind fun x =>
        copyAffine L (if x % 2 ≠ sign then (p : Int) - x else x) y) = some q := hq
    have hx2 : ((((y : Int) * y - 1) * i : Int) : ZMod p) = ((y : ZMod p) ^ 2 - 1) * (L.d * (y : ZMod p) ^ 2 + 1)⁻¹ := by
      push_cast
      rw [h2]
      ring
    generalize ((y : Int) * y - 1) * i = x2 at hq hx2
    -- a root of `x2` gives a curve point
    have hcurve : ∀ u : ZMod p, u ^ 2 = (x2 : ZMod p) → -u ^ 2 + (y : ZMod p) ^ 2 = 1 + L.d * u ^ 2 * (y : ZMod p) ^ 2 := by
      intro u hu
      rw [hx2] at hu
      have : u ^ 2 * (L.d * (y : ZMod p) ^ 2 + 1) = (y : ZMod p) ^ 2 - 1 := by
        rw [hu, mul_assoc, inv_mul_cancel₀ h1, mul_one]
      linear_combination -this
    by_cases hz : x2 = 0
    · rw [if_pos hz] at hq
      by_cases hs : sign = 0
      · rw [if_pos hs] at hq
        obtain ⟨q', a, e1, e2, e3, e4⟩ := copyAffine_nat h (u := 0) (v := y) (Nat.two_pow_pos _) hylt
          (by simpa [hz] using hcurve 0 (by simp [hz]))
        rw [show ((0 : Nat) : Int) = 0 from rfl, hq] at e1
        have e1 := Option.some.inj e1
        subst e1
        exact ⟨a, e2, e4, Or.inr (by simpa using e3)⟩
      · rw [if_neg hs] at hq; cases hq
    · rw [if_neg hz] at hq
      cases hx : sqrt p x2 with
      | none => rw [hx] at hq; cases hq
      | some s =>
        rw [hx] at hq
        obtain ⟨s1, s2⟩ := sqrt_sound h.prime x2 s hx
        replace hq : copyAffine L (if s % 2 ≠ sign then (p : Int) - s else s) y = some q := hq
        by_cases hpar : s % 2 ≠ sign
        · rw [if_pos hpar] at hq
          by_cases h0 : s = 0
          · subst h0
            -- `x = p`
            have hcp : copyAffine L (p : Int) y = some q := by simpa using hq
            rcases Nat.lt_or_ge p (2 ^ 255) with hlt | hge
            · obtain ⟨q', a, e1, e2, e3, e4⟩ := copyAffine_nat h (u := p) (v := y) hlt hylt
                (hcurve _ (by rw [← s2]; simp))
              rw [hcp] at e1
              have e1 := Option.some.inj e1
              subst e1
              exact ⟨a, e2, e4, Or.inr (by simpa using e3)⟩
            · have := h.small
              have he : p = 2 ^ 255 := le_antisymm this hge
              exfalso
              rw [he] at hp2
              norm_num at hp2
          · have hle : p - s < 2 ^ 255 := by have := h.small; omega
            have hcast2 : ((p - s : Nat) : ZMod p) = -(s : ZMod p) := by
              rw [Nat.cast_sub (by omega)]; simp
            rw [show ((p : Int) - s) = ((p - s : Nat) : Int) by omega] at hq
            obtain ⟨q', a, e1, e2, e3, e4⟩ := copyAffine_nat h (u := p - s) (v := y) hle hylt
              (hcurve _ (by rw [hcast2, neg_sq]; exact s2))
            rw [hq] at e1
            have e1 := Option.some.inj e1
            subst e1
            refine ⟨a, e2, e4, Or.inl ?_⟩
            rw [e3, ZMod.val_natCast, Nat.mod_eq_of_lt (show p - s < p by omega)]
            omega
        · rw [if_neg hpar] at hq
          have hle : s < 2 ^ 255 := by have := h.small; omega
          obtain ⟨q', a, e1, e2, e3, e4⟩ := copyAffine_nat h (u := s) (v := y) hle hylt (hcurve _ s2)
          rw [hq] at e1
          have e1 := Option.some.inj e1
          subst e1
          refine ⟨a, e2, e4, Or.inl ?_⟩
          rw [e3, ZMod.val_natCast, Nat.mod_eq_of_lt s1]
          omega

/-- Decompression succeeds on the y coordinate of every curve point, with sign 0
when the integer quotient vanishes. -/
theorem copyBytes_some {L : Lib p} {C : Curve p P} (h : Ok L C) (b : List UInt8) (a : P) (hb : leVal b < 2 ^ 256)
    (hy : leVal b % 2 ^ 255 = (C.y a).val) (hs : (C.y a).val = 1 → leVal b / 2 ^ 255 = 0) :
    ∃ q, copyBytes L b = some q := by
  haveI : Fact p.Prime := ⟨h.prime⟩
  haveI : NeZero p := ⟨h.prime.ne_zero⟩
  have hc := h.on_curve a
  have hylt : (C.y a).val < p := ZMod.val_lt _
  have hycast : (((C.y a).val : Nat) : ZMod p) = C.y a := ZMod.natCast_zmod_val _
  have hden : L.d * C.y a ^ 2 + 1 ≠ 0 := by
    intro h0
    have h1 : C.y a ^ 2 = 1 := by linear_combination hc + C.x a ^ 2 * h0
    rw [h1, mul_one] at h0
    exact h.d_ne (eq_neg_of_add_eq_zero_left h0)
  have hsign : leVal b / 2 ^ 255 < 2 := by
    rw [Nat.div_lt_iff_lt_mul (Nat.two_pow_pos _)]
    calc leVal b < 2 ^ 256 := hb
      _ = 2 * 2 ^ 255 := by rw [← pow_succ']
  unfold copyBytes
  rw [hy]
  generalize leVal b / 2 ^ 255 = sign at hs hsign ⊢
  dsimp only
  rw [if_neg (not_not.mpr hylt)]
  have hcast : (((L.d.val : Int) * (((C.y a).val : Int) * (C.y a).val) + 1 : Int) : ZMod p) = L.d * C.y a ^ 2 + 1 := by
    push_cast
    rw [ZMod.natCast_zmod_val, hycast]
    ring
  have hi := invertMod_some h.prime (a := (L.d.val : Int) * (((C.y a).val : Int) * (C.y a).val) + 1) (by rw [hcast]; exact hden)
  rw [hi, hcast]
  set i := (L.d * C.y a ^ 2 + 1)⁻¹.val with hidef
  have hicast : (i : ZMod p) = (L.d * C.y a ^ 2 + 1)⁻¹ := by rw [hidef, ZMod.natCast_zmod_val]
  have hi0 : i ≠ 0 := by
    intro h0
    rw [h0] at hicast
    exact inv_ne_zero hden (by rw [← hicast]; simp)
  show ∃ q, (if (((C.y a).val : Int) * (C.y a).val - 1) * i = 0 then if sign = 0 then copyAffine L 0 (C.y a).val else none
      else (sqrt p ((((C.y a).val : Int) * (C.y a).val - 1) * i)).bind fun x =>
        copyAffine L (if x % 2 ≠ sign then (p : Int) - x else x) (C.y a).val) = some q
  have hx2 : (((((C.y a).val : Int) * (C.y a).val - 1) * i : Int) : ZMod p) = C.x a ^ 2 := by
    push_cast
    rw [hicast, hycast]
    rw [← div_eq_mul_inv, div_eq_iff hden]
    linear_combination hc
  by_cases hz : (((C.y a).val : Int) * (C.y a).val - 1) * i = 0
  · rw [if_pos hz]
    have hy1 : (C.y a).val = 1 := by
      have hi0' : (i : Int) ≠ 0 := by omega
      have : ((C.y a).val : Int) * (C.y a).val - 1 = 0 := (mul_eq_zero.mp hz).resolve_right hi0'
      nlinarith
    rw [if_pos (hs hy1)]
    have hx0 : C.x a ^ 2 = 0 := by rw [← hx2, hz]; simp
    have hx0 : C.x a = 0 := by simpa using hx0
    obtain ⟨q, hq, _⟩ := copyAffine_ok h a
    rw [hx0] at hq
    exact ⟨q, by simpa using hq⟩
  · rw [if_neg hz]
    obtain ⟨s, hs1, hs2⟩ := sqrt_ok h.prime h.mod8 _ (C.x a) hx2.symm
    rw [hs1]
    rw [hx2] at hs2
    show ∃ q, copyAffine L (if s.val % 2 ≠ sign then (p : Int) - s.val else s.val) (C.y a).val = some q
    have hslt : s.val < p := ZMod.val_lt _
    have hyb : (C.y a).val < 2 ^ 255 := val_lt h.prime h.small _
    have hplt : p < 2 ^ 255 := by
      rcases Nat.lt_or_ge p (2 ^ 255) with hlt | hge
      · exact hlt
      · have he : p = 2 ^ 255 := le_antisymm h.small hge
        have := h.mod8
        rw [he] at this
        norm_num at this
    by_cases hpar : s.val % 2 ≠ sign
    · rw [if_pos hpar, show ((p : Int) - s.val) = ((p - s.val : Nat) : Int) by omega]
      obtain ⟨q, _, e1, _⟩ := copyAffine_nat h (u := p - s.val) (v := (C.y a).val) (by omega) hyb (by
        rw [Nat.cast_sub (by omega), ZMod.natCast_zmod_val, hycast]
        simp only [CharP.cast_eq_zero, zero_sub, neg_sq]
        rw [hs2]; exact hc)
      exact ⟨q, e1⟩
    · rw [if_neg hpar]
      obtain ⟨q, _, e1, _⟩ := copyAffine_nat h (u := s.val) (v := (C.y a).val) (by omega) hyb (by
        rw [ZMod.natCast_zmod_val, hycast, hs2]; exact hc)
      exact ⟨q, e1⟩

theorem enc_lt {L : Lib p} {C : Curve p P} (h : Ok L C) (a : P) :
    enc C a < 2 ^ 256 ∧ enc C a % 2 ^ 255 = (C.y a).val ∧ enc C a / 2 ^ 255 = (C.x a).val % 2 := by
  have hy := val_lt h.prime h.small (C.y a)
  have hx : (C.x a).val % 2 < 2 := Nat.mod_lt _ (by norm_num)
  unfold enc
  refine ⟨?_, ?_, ?_⟩
  · have : (2 : Nat) ^ 256 = 2 * 2 ^ 255 := by rw [← pow_succ']
    rw [this]
    generalize (2 : Nat) ^ 255 = B at *
    nlinarith
  · rw [Nat.add_mul_mod_self_left, Nat.mod_eq_of_lt hy]
  · rw [Nat.add_mul_div_left _ _ (Nat.two_pow_pos _), Nat.div_eq_of_lt hy, zero_add]

theorem leVal_lt (b : List UInt8) : leVal b < 256 ^ b.length := by
  induction b with
  | nil => simp [leVal]
  | cons c b ih =>
    have := c.toNat_lt
    simp only [leVal, List.length_cons, pow_succ']
    omega

theorem leVal_lt32 {b : List UInt8} (h : b.length = 32) : leVal b < 2 ^ 256 := by
  have := leVal_lt b
  rw [h] at this
  calc leVal b < 256 ^ 32 := this
    _ = (2 ^ 8) ^ 32 := by norm_num
    _ = 2 ^ 256 := by rw [← pow_mul]

/-- Two square roots with the same parity are the same. -/
theorem root_parity {p : Nat} (hp : p.Prime) (h2 : p % 2 = 1) {u v : ZMod p} (hsq : u ^ 2 = v ^ 2)
    (hpar : u.val % 2 = v.val % 2) : u = v := by
  haveI : Fact p.Prime := ⟨hp⟩
  haveI : NeZero p := ⟨hp.ne_zero⟩
  rcases sq_eq_sq_iff_eq_or_eq_neg.mp hsq with h | h
  · exact h
  · by_cases hv : v = 0
    · rw [h, hv, neg_zero]
    · exfalso
      rw [h, ZMod.neg_val, if_neg hv] at hpar
      have := ZMod.val_lt v
      omega

theorem x_sq_of_y {L : Lib p} {C : Curve p P} (h : Ok L C) {a b : P} (hy : C.y a = C.y b) : C.x a ^ 2 = C.x b ^ 2 := by
  haveI : Fact p.Prime := ⟨h.prime⟩
  have ha := h.on_curve a
  have hb := h.on_curve b
  rw [← hy] at hb
  have hden : L.d * C.y a ^ 2 + 1 ≠ 0 := by
    intro h0
    have h1 : C.y a ^ 2 = 1 := by linear_combination ha + C.x a ^ 2 * h0
    rw [h1, mul_one] at h0
    exact h.d_ne (eq_neg_of_add_eq_zero_left h0)
  refine mul_right_cancel₀ hden ?_
  linear_combination hb - ha

theorem copyBytes_enc {L : Lib p} {C : Curve p P} (h : Ok L C) (b : List UInt8) (a : P) (hb : leVal b = enc C a) :
    ∃ q, copyBytes L b = some q ∧ Rep C q a := by
  haveI : Fact p.Prime := ⟨h.prime⟩
  haveI : NeZero p := ⟨h.prime.ne_zero⟩
  obtain ⟨h1, h2, h3⟩ := enc_lt h a
  have hx1 : (C.y a).val = 1 → C.x a = 0 := by
    intro hy
    have hy : C.y a = 1 := by rw [← ZMod.natCast_zmod_val (C.y a), hy]; simp
    have := x_sq_of_y h (a := a) (b := 0) (by rw [hy, h.y_zero])
    rw [h.x_zero] at this
    simpa using this
  obtain ⟨q, hq⟩ := copyBytes_some h b a (by rw [hb]; exact h1) (by rw [hb]; exact h2) (by
    intro hy; rw [hb, h3, hx1 hy]; simp)
  obtain ⟨_, c, hc1, hc2, hc3⟩ := copyBytes_sound h b (by rw [hb]; exact h1) q hq
  rw [hb, h2, ZMod.natCast_zmod_val] at hc2
  rw [hb, h3] at hc3
  have hsq := x_sq_of_y h hc2
  have hxc : C.x c = C.x a := by
    rcases hc3 with hc3 | hc3
    · exact root_parity h.prime (by have := h.mod8; omega) hsq hc3
    · rw [hc3] at hsq ⊢
      have : C.x a ^ 2 = 0 := by rw [← hsq]; simp
      exact (by simpa using this : C.x a = 0).symm
  have := h.inj _ _ hxc hc2
  subst this
  exact ⟨q, hq, hc1⟩

theorem deserialize_enc {L : Lib p} {C : Curve p P} (h : Ok L C) (b : List UInt8) (a : P) (hl : b.length = 32)
    (hb : leVal b = enc C a) : ∃ q, deserializeSodium L b = .ok q ∧ deserializeLib25519 L b = .ok q ∧ Rep C q a := by
  obtain ⟨h1, h2⟩ := h.frombytes_rep b a hl hb
  have ht : b.take 32 = b := by rw [← hl, List.take_length]
  refine ⟨(L.frombytes b).1, ?_, ?_, h2⟩
  · unfold deserializeSodium
    rw [if_neg (by omega), ht]
  · unfold deserializeLib25519
    rw [if_neg (by omega), ht, if_pos h1]

/-! ## Theorems -/

/-- **C122.** Every program built from the generator with base multiplications,
sums, differences, doublings, negations, multiplications and double
multiplications by any integers, conversions to coordinates and back, and
serialization and back, throws nothing and returns a representation of the point
of the group the program denotes.  Partial: the libraries' point functions are
assumed to do what they document. -/
theorem C122_programs_partial (L : Lib p) (C : Curve p P) (h : Ok L C) (e : Ex) :
    ∃ q, code L e = some q ∧ Rep C q (grp C e) ∧ L.n • grp C e = 0 := by
  induction e with
  | gen =>
    have := h.mulBase_rep 1 (by omega) h.n_gt
    rw [one_smul] at this
    exact ⟨_, rfl, this, h.n_gen⟩
  | mulBase k => exact ⟨_, rfl, mulBase_ok h k, n_smul_zsmul k h.n_gen⟩
  | add a b iha ihb =>
    obtain ⟨q, h1, h2, h3⟩ := iha
    obtain ⟨r, h4, h5, h6⟩ := ihb
    exact ⟨_, by simp [code, h1, h4] <;> rfl, h.add_rep _ _ _ _ h2 h5, by rw [grp, smul_add, h3, h6, add_zero]⟩
  | sub a b iha ihb =>
    obtain ⟨q, h1, h2, h3⟩ := iha
    obtain ⟨r, h4, h5, h6⟩ := ihb
    exact ⟨_, by simp [code, h1, h4] <;> rfl, h.sub_rep _ _ _ _ h2 h5, by rw [grp, smul_sub, h3, h6, sub_zero]⟩
  | double a iha =>
    obtain ⟨q, h1, h2, h3⟩ := iha
    exact ⟨_, by simp [code, h1] <;> rfl, by rw [grp, two_zsmul]; exact h.add_rep _ _ _ _ h2 h2, n_smul_zsmul _ h3⟩
  | negate a iha =>
    obtain ⟨q, h1, h2, h3⟩ := iha
    exact ⟨_, by simp [code, h1] <;> rfl, negate_ok h _ _ h2, by rw [grp, smul_neg, h3, neg_zero]⟩
  | mul a k iha =>
    obtain ⟨q, h1, h2, h3⟩ := iha
    exact ⟨_, by simp [code, h1] <;> rfl, mul_ok h _ _ h2 h3 k, n_smul_zsmul _ h3⟩
  | mulDoubleBase k1 k2 a iha =>
    obtain ⟨q, h1, h2, h3⟩ := iha
    refine ⟨_, by simp [code, h1] <;> rfl, h.add_rep _ _ _ _ (mulBase_ok h k1) (mul_ok h _ _ h2 h3 k2), ?_⟩
    rw [grp, smul_add, n_smul_zsmul _ h.n_gen, n_smul_zsmul _ h3, add_zero]
  | viaAffine a iha =>
    obtain ⟨q, h1, h2, h3⟩ := iha
    obtain ⟨r, h4, h5⟩ := copyAffine_ok h (grp C a)
    refine ⟨r, ?_, h5, h3⟩
    have := getAffine_ok h.prime h2
    simp [code, h1, this, h4]
  | viaBytes a iha =>
    obtain ⟨q, h1, h2, h3⟩ := iha
    obtain ⟨r, _, h4, h5⟩ := deserialize_enc h (serialize L q) (grp C a) (h.tobytes_len q) (h.tobytes_val q _ h2)
    refine ⟨r, ?_, h5, h3⟩
    simp [code, h1, h4]
  | viaCompressed a iha =>
    obtain ⟨q, h1, h2, h3⟩ := iha
    obtain ⟨r, h4, h5⟩ := copyBytes_enc h (serialize L q) (grp C a) (h.tobytes_val q _ h2)
    refine ⟨r, ?_, h5, h3⟩
    simp [code, h1, h4]

/-- **C122.** On points of the generated group the comparison of lib25519 decides
equality; libsodium's answers yes only on equal points, and exactly on equal points
if the library's products have unique limbs. -/
theorem C122_equal (L : Lib p) (C : Curve p P) (h : Ok L C) (q r : P3 p) (a b : P) (hq : Rep C q a) (hr : Rep C r b)
    (ha : L.n • a = 0) (hb : L.n • b = 0) :
    (pointEqual q r = true ↔ a = b) ∧
    (pointEqualSodium L q r = true → a = b) ∧
    ((∀ u v w z, u * v = w * z → L.sameLimbs u v w z = true) → (pointEqualSodium L q r = true ↔ a = b)) := by
  haveI : Fact p.Prime := ⟨h.prime⟩
  have hiq := isInfinity_iff h.prime hq
  have hir := isInfinity_iff h.prime hr
  have hinf : (isInfinity q && isInfinity r) = true → a = b := by
    intro hi
    rw [Bool.and_eq_true] at hi
    rw [zero_of_x h ha (hiq.mp hi.1), zero_of_x h hb (hir.mp hi.2)]
  have cx : q.X * r.Z = q.Z * r.X ↔ C.x a = C.x b := by
    obtain ⟨z1, e1, _, _⟩ := hq
    obtain ⟨z2, e2, _, _⟩ := hr
    rw [e1, e2]
    constructor
    · intro e
      exact mul_right_cancel₀ (mul_ne_zero z1 z2) (by linear_combination e)
    · intro e; rw [e]; ring
  have cy : q.Y * r.Z = q.Z * r.Y ↔ C.y a = C.y b := by
    obtain ⟨z1, _, e1, _⟩ := hq
    obtain ⟨z2, _, e2, _⟩ := hr
    rw [e1, e2]
    constructor
    · intro e
      exact mul_right_cancel₀ (mul_ne_zero z1 z2) (by linear_combination e)
    · intro e; rw [e]; ring
  have back : a = b → q.X * r.Z = q.Z * r.X ∧ q.Y * r.Z = q.Z * r.Y := fun e => ⟨cx.mpr (by rw [e]), cy.mpr (by rw [e])⟩
  have sod : pointEqualSodium L q r = true → a = b := by
    intro e
    unfold pointEqualSodium at e
    rw [Bool.or_eq_true] at e
    rcases e with e | e
    · exact hinf e
    · rw [Bool.and_eq_true, decide_eq_true_iff] at e
      exact h.inj _ _ (cx.mp (h.sameLimbs_sound _ _ _ _ e.1)) (cy.mp e.2)
  refine ⟨⟨?_, ?_⟩, sod, fun hu => ⟨sod, ?_⟩⟩
  · intro e
    unfold pointEqual at e
    rw [Bool.or_eq_true] at e
    rcases e with e | e
    · exact hinf e
    · rw [Bool.and_eq_true, decide_eq_true_iff, decide_eq_true_iff] at e
      exact h.inj _ _ (cx.mp e.1) (cy.mp e.2)
  · intro e
    obtain ⟨e1, e2⟩ := back e
    simp [pointEqual, e1, e2]
  · intro e
    obtain ⟨e1, e2⟩ := back e
    simp [pointEqualSodium, hu _ _ _ _ e1, e2]

/-- **C122.** Whatever the representation: the coordinates returned are those of
the point, equal points have equal hashes, and only the neutral element is at
infinity among the points of the generated group. -/
theorem C122_queries (L : Lib p) (C : Curve p P) (h : Ok L C) (q : P3 p) (a : P) (hq : Rep C q a) :
    getAffine q = (((C.x a).val : Int), ((C.y a).val : Int)) ∧
    (∀ r f, Rep C r a → hashPoint f q = hashPoint f r) ∧
    (L.n • a = 0 → (isInfinity q = true ↔ a = 0)) ∧
    isInCurveGroup L q = true := by
  haveI : Fact p.Prime := ⟨h.prime⟩
  refine ⟨getAffine_ok h.prime hq, ?_, ?_, ?_⟩
  · intro r f hr
    obtain ⟨z1, e1, _, _⟩ := hq
    obtain ⟨z2, e2, _, _⟩ := hr
    have : q.X * q.Z⁻¹ = r.X * r.Z⁻¹ := by
      rw [e1, e2, mul_assoc, mul_assoc, mul_inv_cancel₀ z1, mul_inv_cancel₀ z2]
    unfold hashPoint
    rw [this]
  · intro ha
    rw [isInfinity_iff h.prime hq]
    exact ⟨zero_of_x h ha, fun e => by rw [e, h.x_zero]⟩
  · obtain ⟨_, e1, e2, _⟩ := hq
    unfold isInCurveGroup isOnCurve
    rw [Bool.or_eq_true, decide_eq_true_iff]
    right
    rw [e1, e2]
    linear_combination q.Z ^ 4 * h.on_curve a

/-- **C122.** Decompression: 32 bytes that encode a curve point give that point,
and bytes that are accepted give a curve point with the y coordinate they contain
and, unless its x is 0, the parity they contain.  Partial: RFC 8032 also rejects
the sign bit with x = 0, see `C122_sign_violated`. -/
theorem C122_decompress_partial (L : Lib p) (C : Curve p P) (h : Ok L C) (b : List UInt8) (hl : b.length = 32) :
    (∀ a, leVal b = enc C a → ∃ q, copyBytes L b = some q ∧ Rep C q a) ∧
    (∀ q, copyBytes L b = some q → leVal b % 2 ^ 255 < p ∧
      ∃ a, Rep C q a ∧ ((leVal b = enc C a) ∨ (C.x a = 0 ∧ leVal b = enc C a + 2 ^ 255))) := by
  haveI : Fact p.Prime := ⟨h.prime⟩
  haveI : NeZero p := ⟨h.prime.ne_zero⟩
  refine ⟨fun a ha => copyBytes_enc h b a ha, fun q hq => ?_⟩
  have hlt := leVal_lt32 hl
  obtain ⟨h1, a, h2, h3, h4⟩ := copyBytes_sound h b hlt q hq
  refine ⟨h1, a, h2, ?_⟩
  have hyv : (C.y a).val = leVal b % 2 ^ 255 := by rw [h3, ZMod.val_natCast, Nat.mod_eq_of_lt h1]
  have hdm : leVal b = leVal b % 2 ^ 255 + 2 ^ 255 * (leVal b / 2 ^ 255) := (Nat.mod_add_div _ _).symm
  rcases h4 with h4 | h4
  · left
    unfold enc
    rw [hyv, h4]
    exact hdm
  · have hs : leVal b / 2 ^ 255 < 2 := by
      rw [Nat.div_lt_iff_lt_mul (Nat.two_pow_pos _)]
      calc leVal b < 2 ^ 256 := hlt
        _ = 2 * 2 ^ 255 := by rw [← pow_succ']
    have he : enc C a = leVal b % 2 ^ 255 := by unfold enc; rw [hyv, h4]; simp
    rcases (by omega : leVal b / 2 ^ 255 = 0 ∨ leVal b / 2 ^ 255 = 1) with hz | hz
    · left
      rw [he]
      rw [hz, Nat.mul_zero, Nat.add_zero] at hdm
      exact hdm
    · right
      refine ⟨h4, ?_⟩
      rw [he]
      rw [hz, Nat.mul_one] at hdm
      exact hdm

/-- **C122.** `CopyPoint` of coordinates returns a point of the curve with these
coordinates or throws.  Partial: with x = 0 nothing is checked, see
`C122_off_curve_violated`; the coordinates are taken without sign and bit 255, see
`C122_coordinates_violated`. -/
theorem C122_copy_partial (L : Lib p) (C : Curve p P) (h : Ok L C) (x y : Nat) (hx : x < 2 ^ 255) (hy : y < 2 ^ 255)
    (hx0 : (x : ZMod p) ≠ 0) :
    (∀ q, copyAffine L x y = some q → ∃ a, C.x a = x ∧ C.y a = y ∧ Rep C q a) ∧
    (copyAffine L x y = none → ∀ a, ¬ (C.x a = x ∧ C.y a = y)) := by
  haveI : Fact p.Prime := ⟨h.prime⟩
  have hc : ∀ q, copyAffine L x y = some q ↔
      isOnCurve L ⟨(x : ZMod p), y, 1, x * y⟩ = true ∧ q = ⟨(x : ZMod p), y, 1, x * y⟩ := by
    intro q
    unfold copyAffine
    rw [feOf_nat hx, feOf_nat hy]
    have hi : isInfinity ⟨(x : ZMod p), y, 1, x * y⟩ = false := by
      simp only [isInfinity, hx0, decide_false, Bool.false_or, decide_eq_false_iff_not]
      exact one_ne_zero
    simp only [Option.bind_eq_bind, Option.bind_some, isInCurveGroup, hi, Bool.false_or]
    by_cases hon : isOnCurve L ⟨(x : ZMod p), y, 1, x * y⟩ = true
    · simp only [hon, if_true, true_and, Option.some.injEq]
      exact eq_comm
    · simp [hon]
  constructor
  · intro q hq
    obtain ⟨h1, rfl⟩ := (hc q).mp hq
    unfold isOnCurve at h1
    have h1 := of_decide_eq_true h1
    obtain ⟨a, e1, e2⟩ := h.surj (x : ZMod p) (y : ZMod p) (by
      simp only [one_pow, mul_one] at h1
      linear_combination h1)
    exact ⟨a, e1, e2, one_ne_zero, by simp [e1], by simp [e2], by simp⟩
  · rintro hn a ⟨e1, e2⟩
    have := (hc ⟨(x : ZMod p), y, 1, x * y⟩).mpr ⟨by
      unfold isOnCurve
      rw [decide_eq_true_iff, ← e1, ← e2]
      linear_combination h.on_curve a, rfl⟩
    rw [hn] at this
    cases this

/-! ## Violations -/

/-- The point of order two, `(0, -1)`. -/
theorem order_two {L : Lib p} {C : Curve p P} (h : Ok L C) : ∃ t : P, t ≠ 0 ∧ C.x t = 0 ∧ C.y t = -1 := by
  haveI : Fact p.Prime := ⟨h.prime⟩
  obtain ⟨t, h1, h2⟩ := h.surj 0 (-1) (by ring)
  refine ⟨t, ?_, h1, h2⟩
  intro h0
  rw [h0, h.y_zero] at h2
  have hp : p ≠ 2 := by have := h.mod8; omega
  haveI : Fact (2 < p) := ⟨by have := h.prime.two_le; omega⟩
  exact (ZMod.neg_one_ne_one (n := p)) h2.symm

/-- **C122, violated.** The point `(0, -1)` is taken for the point at infinity: it
compares equal to it, and multiplying it by 1 gives the point at infinity. -/
theorem C122_order_two_violated (L : Lib p) (C : Curve p P) (h : Ok L C) :
    ∃ t : P, t ≠ 0 ∧ ∀ q r, Rep C q t → Rep C r 0 →
      isInfinity q = true ∧ pointEqual q r = true ∧ pointEqualSodium L q r = true ∧ Rep C (mul L q 1) 0 := by
  obtain ⟨t, h1, h2, h3⟩ := order_two h
  refine ⟨t, h1, fun q r hq hr => ?_⟩
  have i1 := (isInfinity_iff h.prime hq).mpr h2
  have i2 := (isInfinity_iff h.prime hr).mpr h.x_zero
  refine ⟨i1, by simp [pointEqual, i1, i2], by simp [pointEqualSodium, i1, i2], ?_⟩
  unfold mul
  simp only [i1, Bool.or_true, if_true]
  exact inf_rep h

/-- **C122, violated.** A point with a component of small order is multiplied by
the scalar modulo `n`: `Mul(P, n)` is the point at infinity although `n·P` is not. -/
theorem C122_cofactor_violated (L : Lib p) (C : Curve p P) (h : Ok L C) (a : P) (ha : L.n • a ≠ 0) (q : P3 p) :
    Rep C (mul L q L.n) 0 ∧ (L.n : Int) • a ≠ 0 := by
  refine ⟨?_, by rw [natCast_zsmul]; exact ha⟩
  unfold mul
  have : scalar L L.n = 0 := by unfold scalar; simp
  simp only [this, decide_true, Bool.true_or, if_true]
  exact inf_rep h

/-- **C122, violated.** Any pair `(0, y)` passes the check of `CopyPoint` that
coordinates are on the curve. -/
theorem C122_off_curve_violated (L : Lib p) (C : Curve p P) (h : Ok L C) (y : Nat) (hy : y < 2 ^ 255)
    (h1 : (y : ZMod p) ^ 2 ≠ 1) :
    ∃ q, copyAffine L 0 y = some q ∧ isInCurveGroup L q = true ∧ ∀ a, ¬ Rep C q a := by
  haveI : Fact p.Prime := ⟨h.prime⟩
  have e0 : (feOf 0 : Option (ZMod p)) = some 0 := by
    have := feOf_nat (p := p) (v := 0) (Nat.two_pow_pos _)
    simpa using this
  have hin : isInCurveGroup L ⟨(0 : ZMod p), y, 1, 0 * y⟩ = true := by simp [isInCurveGroup, isInfinity]
  refine ⟨⟨0, y, 1, 0 * y⟩, ?_, hin, ?_⟩
  · unfold copyAffine
    rw [e0, feOf_nat hy]
    simp [hin, isInCurveGroup, isInfinity]
  · rintro a ⟨_, e1, e2, _⟩
    have hc := h.on_curve a
    simp only [mul_one] at e1 e2
    rw [← e1, ← e2] at hc
    apply h1
    linear_combination hc

/-- **C122, violated.** `CopyPoint` drops the sign of a coordinate and its bit 255:
`(-x, y)` and `(x + 2^255, y)` are taken for `(x, y)`. -/
theorem C122_coordinates_violated (L : Lib p) (x : Nat) (hx : x < 2 ^ 255) (y : Int) :
    copyAffine L (-(x : Int)) y = copyAffine L x y ∧ copyAffine L ((x + 2 ^ 255 : Nat) : Int) y = copyAffine L x y := by
  have e1 : (feOf (-(x : Int)) : Option (ZMod p)) = feOf (x : Int) := by unfold feOf; rw [Int.natAbs_neg]
  have e2 : (feOf ((x + 2 ^ 255 : Nat) : Int) : Option (ZMod p)) = feOf (x : Int) := by
    rw [feOf_nat hx]
    unfold feOf
    rw [Int.natAbs_natCast, Nat.add_mod_right, Nat.mod_eq_of_lt hx, if_pos]
    have : (2 : Nat) ^ 256 = 2 ^ 255 + 2 ^ 255 := by rw [← two_mul, ← pow_succ']
    rw [this]
    exact Nat.add_lt_add_right hx _
  exact ⟨by unfold copyAffine; rw [e1], by unfold copyAffine; rw [e2]⟩

/-- **C122, violated.** The bytes of `y = -1` with the sign bit set, which RFC 8032
rejects, are decompressed to `(0, -1)`. -/
theorem C122_sign_violated (L : Lib p) (C : Curve p P) (h : Ok L C) (b : List UInt8)
    (hb : leVal b = (p - 1) + 2 ^ 255) :
    ∃ q a, copyBytes L b = some q ∧ Rep C q a ∧ ∀ a, leVal b ≠ enc C a := by
  haveI : Fact p.Prime := ⟨h.prime⟩
  haveI : NeZero p := ⟨h.prime.ne_zero⟩
  obtain ⟨t, h1, h2, h3⟩ := order_two h
  have hp := h.prime.two_le
  have hsm := h.small
  have hmod : leVal b % 2 ^ 255 = p - 1 := by
    rw [hb, Nat.add_mod_right, Nat.mod_eq_of_lt (by omega)]
  have hdiv : leVal b / 2 ^ 255 = 1 := by
    rw [hb, Nat.add_div_right _ (Nat.two_pow_pos _), Nat.div_eq_of_lt (by omega)]
  have hlt : leVal b < 2 ^ 256 := by
    have : (2 : Nat) ^ 256 = 2 ^ 255 + 2 ^ 255 := by rw [← two_mul, ← pow_succ']
    rw [hb, this]; omega
  have hyv : (C.y t).val = p - 1 := by
    rw [h3]
    obtain ⟨k, hk⟩ : ∃ k, p = k + 1 := ⟨p - 1, by omega⟩
    subst hk
    rw [ZMod.val_neg_one]; rfl
  have h8 := h.mod8
  obtain ⟨q, hq⟩ := copyBytes_some h b t hlt (by rw [hmod, hyv]) (by intro h'; rw [hyv] at h'; omega)
  obtain ⟨_, a, ha1, _⟩ := copyBytes_sound h b hlt q hq
  refine ⟨q, a, hq, ha1, ?_⟩
  intro c hc
  obtain ⟨_, c2, c3⟩ := enc_lt h c
  rw [← hc, hmod] at c2
  rw [← hc, hdiv] at c3
  have hyc : C.y c = C.y t := by
    rw [← ZMod.natCast_zmod_val (C.y c), ← c2, ← hyv, ZMod.natCast_zmod_val]
  have := x_sq_of_y h hyc
  rw [h2] at this
  have hx0 : C.x c = 0 := by simpa using this
  rw [hx0] at c3
  simp at c3

/-- **C122, violated.** libsodium's `DeserializePoint` returns a point for bytes
the library rejects, and both backends read 32 bytes of a shorter buffer. -/
theorem C122_deserialize_violated (L : Lib p) (b : List UInt8) :
    (32 ≤ b.length → (L.frombytes (b.take 32)).2 = false →
      deserializeSodium L b = .ok (L.frombytes (b.take 32)).1 ∧ deserializeLib25519 L b = .throws) ∧
    (b.length < 32 → deserializeSodium L b = .outOfBounds ∧ deserializeLib25519 L b = .outOfBounds) := by
  constructor
  · intro hl hf
    unfold deserializeSodium deserializeLib25519
    rw [if_neg (by omega), if_neg (by omega), hf]
    exact ⟨rfl, rfl⟩
  · intro hl
    unfold deserializeSodium deserializeLib25519
    rw [if_pos hl, if_pos hl]
    exact ⟨rfl, rfl⟩

end Verif.Ecc.Ed25519
