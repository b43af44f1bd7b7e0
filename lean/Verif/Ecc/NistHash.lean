import Verif.Ecc.Sswu

namespace Yacl.Ecc.H2C
open Vss (addMod subMod mulMod invertMod cast_mod cast_add cast_sub cast_mul mod_range invertMod_cases eq_of_cast)
open BlockCipher (Byte Bytes beNat beBytes)
open Yacl.Ecc (AffinePoint Params Represents Valid curve)

section
variable {p : ℕ} [Fact p.Prime]

theorem emod_congr {a b : ℤ} (h : (a : ZMod p) = b) : a % (p : ℤ) = b % (p : ℤ) := (ZMod.intCast_eq_intCast_iff _ _ _).mp h

theorem inv_congr {a b : ℤ} (h : (a : ZMod p) = b) : invertMod a p = invertMod b p := by
  rcases invertMod_cases (p := p) a with ⟨h1, e1⟩ | ⟨h1, i, e1, c1⟩ <;> rcases invertMod_cases (p := p) b with ⟨h2, e2⟩ | ⟨h2, j, e2, c2⟩
  · rw [e1, e2]
  · exact absurd (h ▸ h1) h2
  · exact absurd (h.symm ▸ h2) h1
  · have r1 : 0 ≤ i ∧ i < p := by
      unfold invertMod at e1
      split at e1
      · rw [← Option.some.inj e1]; exact mod_range _
      · cases e1
    have r2 : 0 ≤ j ∧ j < p := by
      unfold invertMod at e2
      split at e2
      · rw [← Option.some.inj e2]; exact mod_range _
      · cases e2
    rw [e1, e2]
    have : i = j % p := eq_of_cast r1 (by rw [c1, c2, h])
    rw [this, Int.emod_eq_of_lt r2.1 r2.2]

theorem emod_inj {a b : ℤ} (ha : 0 ≤ a ∧ a < p) (hb : 0 ≤ b ∧ b < p) (h : (a : ZMod p) = b) : a = b := by
  have := eq_of_cast ha h
  rwa [Int.emod_eq_of_lt hb.1 hb.2] at this

/-- The addition for curves with coefficient -3 is the one of the affine group. -/
theorem nistAdd_eq (C : Params) (hp : C.p = p) (hA : (C.A : ZMod p) = -3) (P Q : AffinePoint) : nistAdd P Q p = add C P Q := by
  unfold nistAdd add isInfinity
  rw [hp]
  by_cases h1 : P.x = 0 ∧ P.y = 0
  · simp only [h1, and_self, if_true, decide_true]
  by_cases h2 : Q.x = 0 ∧ Q.y = 0
  · simp only [h1, h2, and_self, if_true, if_false, decide_true, decide_false, Bool.false_eq_true]
  simp only [h1, h2, if_false, decide_false, Bool.false_eq_true]
  by_cases h3 : P.x = Q.x
  · by_cases h4 : P.y = Q.y
    · simp only [h3, h4, and_self, if_true, ne_eq, not_true_eq_false, and_false, if_false]
      rcases invertMod_cases (p := p) (Q.y * 2) with ⟨-, e⟩ | ⟨-, i, e, -⟩
      · rw [e]; rfl
      · rw [e]
        have el : (Q.x * Q.x * 3 - 3) * i % (p : ℤ) = mulMod (Q.x ^ 2 * 3 + C.A) i p := by
          unfold mulMod
          apply emod_congr
          push_cast
          rw [hA]
          ring
        simp only [Option.map_some, el, subMod]
        show some _ = some _
        have e1 : ∀ l x y : ℤ, l * l - x - y = l ^ 2 - (x + y) := fun l x y => by ring
        rw [e1]
    · simp only [h3, h4, and_false, if_false, sub_self, if_true, ne_eq, not_false_eq_true, and_self]
      rfl
  · have h5 : ¬ (Q.x - P.x = 0) := fun h => h3 (by omega)
    simp only [h3, false_and, if_false, h5]
    have ei : invertMod (Q.x - P.x) p = invertMod (subMod Q.x P.x p) p := inv_congr (by rw [cast_sub]; push_cast; rfl)
    rw [ei]
    rcases invertMod_cases (p := p) (subMod Q.x P.x p) with ⟨-, e⟩ | ⟨-, i, e, -⟩
    · rw [e]; rfl
    · rw [e]
      simp only [Option.map_some, mulMod, subMod]
      show some _ = some _
      have e1 : ∀ l x y : ℤ, l * l - x - y = l ^ 2 - (x + y) := fun l x y => by ring
      rw [e1]

end

/-- A curve of the NIST shape with the constants of a context: coefficient -3, not singular, no point with y = 0. -/
structure Nist (c : Ctx) (p : ℕ) : Prop extends Suite c p where
  m3 : ((c.aux! "a" : Int) : ZMod p) = -3
  elliptic : (curve p (c.aux! "a") (c.aux! "b")).Δ ≠ 0
  no_root : ∀ x : ZMod p, x ^ 3 + (c.aux! "a" : Int) * x + (c.aux! "b" : Int) ≠ 0
  size : p ≤ 256 ^ c.keySize
  key_pos : 0 < c.keySize

section
variable {p : ℕ} [Fact p.Prime] {c : Ctx}

def params (c : Ctx) (p : ℕ) : Params := ⟨c.aux! "a", c.aux! "b", ⟨0, 0⟩, p, 0⟩

theorem Nist.valid (h : Nist c p) : Valid (params c p) p := ⟨rfl, h.elliptic, h.hB⟩

/-- `Q` is the point the simplified SWU map of the RFC gives for the field element `u`. -/
def IsSswu (p : ℕ) [Fact p.Prime] (c : Ctx) (u : ℕ) (Q : (curve p (c.aux! "a") (c.aux! "b")).Point) : Prop :=
  ∃ x y : ℤ, Rfc.Sswu p (c.aux! "a" : Int) (c.aux! "b" : Int) (c.aux! "z" : Int) u x y ∧ ∃ h, Q = .some (x : ZMod p) (y : ZMod p) h

/-- There is exactly one such point. -/
theorem sswu_unique (hc : Nist c p) (u : ℕ) (Q Q' : (curve p (c.aux! "a") (c.aux! "b")).Point) (h : IsSswu p c u Q) (h' : IsSswu p c u Q') : Q = Q' := by
  obtain ⟨x, y, ⟨hx, hy, ex, ey, py⟩, hn, rfl⟩ := h
  obtain ⟨x', y', ⟨hx', hy', ex', ey', py'⟩, hn', rfl⟩ := h'
  have e1 : x = x' := emod_inj hx hx' (by rw [ex, ex'])
  subst e1
  have hodd : p % 2 = 1 := by have := hc.h34; omega
  have hsq : ((y : ZMod p) - y') * (y + y') = 0 := by linear_combination ey - ey'
  have e2 : y = y' := by
    rcases mul_eq_zero.mp hsq with h | h
    · exact emod_inj hy hy' (sub_eq_zero.mp h)
    · have hs : (((y + y' : ℤ)) : ZMod p) = 0 := by push_cast; exact h
      rw [ZMod.intCast_zmod_eq_zero_iff_dvd] at hs
      by_cases h0 : y = 0
      · subst h0
        rw [zero_add] at hs
        have := Int.eq_zero_of_dvd_of_nonneg_of_lt hy'.1 hy'.2 hs
        exact this.symm
      · by_cases h0' : y' = 0
        · subst h0'
          rw [add_zero] at hs
          exact absurd (Int.eq_zero_of_dvd_of_nonneg_of_lt hy.1 hy.2 hs) h0
        · obtain ⟨k, hk⟩ := hs
          have hy1 : 0 < y + y' := by omega
          have hy2 : y + y' < p * 2 := by omega
          have hp0 : (0 : ℤ) < p := by exact_mod_cast (Fact.out : p.Prime).pos
          have k0 : 0 < k := by
            by_contra hk0
            have := mul_nonpos_of_nonneg_of_nonpos hp0.le (not_lt.mp hk0)
            omega
          have k2 : k < 2 := lt_of_mul_lt_mul_left (hk ▸ hy2) hp0.le
          have hk1 : k = 1 := by omega
          subst hk1
          have := py h0
          have := py' h0'
          omega
  subst e2
  rfl

theorem sswu_point (hc : Nist c p) (ubuf : Bytes) (hne : ubuf ≠ []) :
    ∃ q Q, mapToCurveSSWU c ubuf = some q ∧ IsSswu p c (beNat ubuf) Q ∧ Represents (A := c.aux! "a") (B := c.aux! "b") (⟨q.1, q.2⟩ : AffinePoint) Q := by
  obtain ⟨x, y, e, hs⟩ := C104_sswu hc.toSuite ubuf hne
  have heq : (curve p (c.aux! "a") (c.aux! "b")).Equation (x : ZMod p) (y : ZMod p) := by
    rw [WeierstrassCurve.Affine.equation_iff]
    simp only [curve]
    linear_combination hs.2.2.2.1
  have hns : (curve p (c.aux! "a") (c.aux! "b")).Nonsingular (x : ZMod p) (y : ZMod p) :=
    WeierstrassCurve.Affine.equation_iff_nonsingular_of_Δ_ne_zero hc.elliptic |>.mp heq
  exact ⟨(x, y), .some _ _ hns, e, ⟨x, y, hs, hns, rfl⟩, hs.1, hs.2.1, rfl, rfl⟩

theorem no_order_two (hc : Nist c p) (Q : (curve p (c.aux! "a") (c.aux! "b")).Point) (h0 : Q ≠ 0) (h : Q + Q = 0) : False := by
  cases Q with
  | zero => exact h0 rfl
  | some x y hn =>
    have h1 := eq_neg_of_add_eq_zero_left h
    rw [WeierstrassCurve.Affine.Point.neg_some] at h1
    simp only [WeierstrassCurve.Affine.Point.some.injEq, true_and] at h1
    have hneg : (curve p (c.aux! "a") (c.aux! "b")).negY x y = -y := by simp [curve, WeierstrassCurve.Affine.negY]
    rw [hneg] at h1
    have h2 : (2 : ZMod p) ≠ 0 := by
      intro h2
      have : ((2 : ℕ) : ZMod p) = 0 := by exact_mod_cast h2
      rw [ZMod.natCast_eq_zero_iff] at this
      have := (Nat.prime_dvd_prime_iff_eq (Fact.out : p.Prime) Nat.prime_two).mp this
      have := hc.h34
      omega
    have hy : y = 0 := by
      have : (2 : ZMod p) * y = 0 := by linear_combination h1
      exact (mul_eq_zero.mp this).resolve_left h2
    have heq := (WeierstrassCurve.Affine.equation_iff _ _).mp hn.1
    simp only [curve] at heq
    rw [hy] at heq
    exact hc.no_root x (by linear_combination -heq)

/-- C104. `HashToCurve` of the NIST curves: for every message, every tag of 16 to 255 bytes and every request within the bounds of the RFC, it does not throw and returns
the sum of the two points that the simplified SWU map gives for the two field elements of the RFC (0, 0 when the sum is the point at infinity). All other tags are refused. -/
theorem C104_hash_to_curve (hc : Nist c p) (l : ℕ) (msg dst : Bytes) :
    (Accepts c dst (2 * l) →
      ∃ Q0 Q1 R, IsSswu p c ((Rfc.field c.hash.fn c.hash.size c.sInBytes p l msg dst 2).getD 0 0) Q0 ∧
        IsSswu p c ((Rfc.field c.hash.fn c.hash.size c.sInBytes p l msg dst 2).getD 1 0) Q1 ∧
        hashToCurve c l msg dst = some R ∧ Represents R (Q0 + Q1)) ∧
    (¬ (16 ≤ dst.length ∧ dst.length ≤ 255) → hashToCurve c l msg dst = none) := by
  have hpos : 0 < p := (Fact.out : p.Prime).pos
  refine ⟨fun hacc => ?_, fun h => if_neg h⟩
  unfold hashToCurve
  rw [if_pos ⟨hacc.2.2.1, hacc.2.2.2⟩, C104_field c p hc.hp hpos hc.size, if_pos hacc, Option.bind_some]
  have hf : ∃ v0 v1, Rfc.field c.hash.fn c.hash.size c.sInBytes p l msg dst 2 = [v0, v1] ∧ v0 < p ∧ v1 < p :=
    ⟨_, _, rfl, Nat.mod_lt _ hpos, Nat.mod_lt _ hpos⟩
  obtain ⟨v0, v1, hf, l0, l1⟩ := hf
  rw [hf]
  simp only [List.map_cons, List.map_nil, List.getD_cons_zero, List.getD_cons_succ]
  have hne : ∀ v, beBytes c.keySize v ≠ [] := by
    intro v h
    have := congrArg List.length h
    rw [BlockCipher.beBytes_length, List.length_nil] at this
    have := hc.key_pos
    omega
  obtain ⟨q, Q, e1, s1, r1⟩ := sswu_point hc _ (hne v0)
  obtain ⟨r, R, e2, s2, r2⟩ := sswu_point hc _ (hne v1)
  rw [beNat_pad _ _ (lt_of_lt_of_le l0 hc.size)] at s1
  rw [beNat_pad _ _ (lt_of_lt_of_le l1 hc.size)] at s2
  rw [e1, Option.bind_some, e2, Option.bind_some, hc.hp, Option.bind_some, nistAdd_eq (params c p) rfl hc.m3]
  rcases C96_add hc.valid r1 r2 with ⟨h1, h2, h3, -⟩ | ⟨-, S, e3, r3⟩
  · exact absurd h3 (fun h3 => no_order_two hc Q h2 h3)
  · exact ⟨Q, R, S, s1, s2, e3, r3⟩

/-- C104. `EncodeToCurve` of the NIST curves returns the point of the one field element. -/
theorem C104_encode_to_curve (hc : Nist c p) (l : ℕ) (msg dst : Bytes) (hacc : Accepts c dst (1 * l)) :
    ∃ Q R, IsSswu p c ((Rfc.field c.hash.fn c.hash.size c.sInBytes p l msg dst 1).getD 0 0) Q ∧
      encodeToCurve c l msg dst = some R ∧ Represents R Q := by
  have hpos : 0 < p := (Fact.out : p.Prime).pos
  unfold encodeToCurve
  rw [if_pos ⟨hacc.2.2.1, hacc.2.2.2⟩, C104_field c p hc.hp hpos hc.size, if_pos hacc, Option.bind_some]
  have hf : ∃ v0, Rfc.field c.hash.fn c.hash.size c.sInBytes p l msg dst 1 = [v0] ∧ v0 < p := ⟨_, rfl, Nat.mod_lt _ hpos⟩
  obtain ⟨v0, hf, l0⟩ := hf
  rw [hf]
  simp only [List.map_cons, List.map_nil, List.getD_cons_zero]
  have hne : beBytes c.keySize v0 ≠ [] := by
    intro h
    have := congrArg List.length h
    rw [BlockCipher.beBytes_length, List.length_nil] at this
    have := hc.key_pos
    omega
  obtain ⟨q, Q, e1, s1, r1⟩ := sswu_point hc _ hne
  rw [beNat_pad _ _ (lt_of_lt_of_le l0 hc.size)] at s1
  rw [e1]
  exact ⟨Q, _, s1, rfl, r1⟩

end

/-! ### Cubics without roots -/

/-- Arithmetic modulo `x³ = m x + k` on triples of coefficients. -/
def mul3 (p m k : ℕ) (a b : ℕ × ℕ × ℕ) : ℕ × ℕ × ℕ :=
  let c3 := a.2.1 * b.2.2 + a.2.2 * b.2.1
  let c4 := a.2.2 * b.2.2
  ((a.1 * b.1 + k * c3) % p, (a.1 * b.2.1 + a.2.1 * b.1 + m * c3 + k * c4) % p, (a.1 * b.2.2 + a.2.1 * b.2.1 + a.2.2 * b.1 + m * c4) % p)

def pw3 (p m k : ℕ) : ℕ → ℕ × ℕ × ℕ → ℕ → ℕ × ℕ × ℕ
  | 0, _, _ => (1, 0, 0)
  | f + 1, a, e => if e % 2 = 1 then mul3 p m k a (pw3 p m k f (mul3 p m k a a) (e / 2)) else pw3 p m k f (mul3 p m k a a) (e / 2)

def ev3 {p : ℕ} (r : ZMod p) (a : ℕ × ℕ × ℕ) : ZMod p := (a.1 : ZMod p) + a.2.1 * r + a.2.2 * r ^ 2

theorem ev3_mul {p : ℕ} (m k : ℕ) (r : ZMod p) (h : r ^ 3 = m * r + k) (a b : ℕ × ℕ × ℕ) : ev3 r (mul3 p m k a b) = ev3 r a * ev3 r b := by
  unfold ev3 mul3
  simp only [ZMod.natCast_mod]
  push_cast
  linear_combination (-(a.2.1 : ZMod p) * b.2.2 - a.2.2 * b.2.1 - a.2.2 * b.2.2 * r) * h

theorem ev3_pow {p : ℕ} (m k : ℕ) (r : ZMod p) (h : r ^ 3 = m * r + k) (f : ℕ) (a : ℕ × ℕ × ℕ) (e : ℕ) (hf : e < 2 ^ f) :
    ev3 r (pw3 p m k f a e) = ev3 r a ^ e := by
  induction f generalizing a e with
  | zero =>
    have : e = 0 := by rw [pow_zero] at hf; omega
    subst this
    simp [pw3, ev3]
  | succ f ih =>
    have hk : e / 2 < 2 ^ f := by rw [pow_succ] at hf; omega
    unfold pw3
    split
    · rename_i h1
      rw [ev3_mul m k r h, ih _ _ hk, ev3_mul m k r h, ← pow_two, ← pow_mul, ← pow_succ', show 2 * (e / 2) + 1 = e by omega]
    · rename_i h1
      rw [ih _ _ hk, ev3_mul m k r h, ← pow_two, ← pow_mul, show 2 * (e / 2) = e by omega]

/-- A certificate that `x³ = m x + k` has no solution modulo `p`: `x^p - x` has an inverse. -/
theorem no_root_of {p : ℕ} [Fact p.Prime] (m k : ℕ) (inv q : ℕ × ℕ × ℕ) (hq : pw3 p m k (Nat.log2 p + 1) (0, 1, 0) p = q)
    (hinv : mul3 p m k inv (q.1, q.2.1 + (p - 1), q.2.2) = (1, 0, 0)) (r : ZMod p) : r ^ 3 ≠ m * r + k := by
  intro h
  have h1 := ev3_pow m k r h (Nat.log2 p + 1) (0, 1, 0) p Nat.lt_log2_self
  rw [hq] at h1
  have h2 : ev3 r (0, 1, 0) = r := by simp [ev3]
  rw [h2, ZMod.pow_card] at h1
  have h3 := congrArg (ev3 r) hinv
  rw [ev3_mul m k r h] at h3
  have hp1 : ((p - 1 : ℕ) : ZMod p) = -1 := by
    rw [Nat.cast_sub (Fact.out : p.Prime).one_le, ZMod.natCast_self, Nat.cast_one, zero_sub]
  have h4 : ev3 r (q.1, q.2.1 + (p - 1), q.2.2) = 0 := by
    unfold ev3 at h1 ⊢
    push_cast
    rw [hp1]
    linear_combination h1
  rw [h4, mul_zero] at h3
  have h5 : ev3 r (1, 0, 0) = 1 := by simp [ev3]
  rw [h5] at h3
  exact zero_ne_one h3

end Yacl.Ecc.H2C
