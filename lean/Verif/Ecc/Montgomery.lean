import Verif.Ecc.XOnly
import Verif.Vss.Props
import Mathlib.FieldTheory.IsAlgClosed.AlgebraicClosure
import Mathlib.FieldTheory.Finite.Basic
import Mathlib.Data.Nat.Size

/-! The X25519 style group of yacl/crypto/ecc/toy/montgomery.cc: scalar multiplication by the Montgomery ladder on
x-coordinates.  Property C97.

`MPInt` is `Int`; `MulMod`, `PowMod` are least residues (C89); `SetBit`/`GetBit` act on the absolute value (C88). -/
namespace Yacl.Ecc.Mont
open Vss (mulMod mod_range cast_mod)

/-! ### Model -/

/-- toy/common.h `CurveParam`, the fields the group uses. -/
structure Params where
  A : Int
  p : Int
  n : Int

/-- montgomery.cc L42 `a24_` (the quotient of positive numbers). -/
def a24 (C : Params) : Int := (C.A - 2) / 4

/-- mpx_set_bit (tommath_ext_features.cc L482-498) on the absolute value. -/
def setBit (m i : Nat) (b : Bool) : Nat := if b then m ||| 2 ^ i else m ^^^ (m &&& 2 ^ i)

/-- montgomery.cc L31-37 `MaskScalar255`, on the absolute value. -/
def maskScalar (m : Nat) : Nat :=
  setBit (setBit (setBit (setBit (setBit m 0 false) 1 false) 2 false) 255 false) 254 true

/-- montgomery.cc L39 `MaskPoint255`; the sign is kept. -/
def maskPoint (x : Int) : Int := if x < 0 then -(setBit x.natAbs 255 false : Nat) else (setBit x.natAbs 255 false : Nat)

/-- The local variables of the loop, montgomery.cc L72-76. -/
structure St where
  x2 : Int
  z2 : Int
  x3 : Int
  z3 : Int
  swap : Bool
deriving DecidableEq

/-- montgomery.cc L58-62 `cswap`. -/
def cswap (swap : Bool) (a b : Int) : Int × Int :=
  let dummy := (if swap then 1 else 0) * (a - b)
  (a - dummy, b + dummy)

/-- montgomery.cc L80-84: the conditional swaps at the head of an iteration. -/
def swapStep (kt : Bool) (s : St) : St :=
  let sw := xor s.swap kt
  let (x2, x3) := cswap sw s.x2 s.x3
  let (z2, z3) := cswap sw s.z2 s.z3
  ⟨x2, z2, x3, z3, kt⟩

/-- montgomery.cc L86-98: the arithmetic of an iteration. -/
def arith (C : Params) (x1 : Int) (s : St) : St :=
  let A := s.x2 + s.z2
  let AA := mulMod A A C.p
  let B := s.x2 - s.z2
  let BB := mulMod B B C.p
  let E := AA - BB
  let C' := s.x3 + s.z3
  let D := s.x3 - s.z3
  let DA := mulMod D A C.p
  let CB := mulMod C' B C.p
  { x3 := (DA + CB) ^ 2 % C.p
    z3 := mulMod x1 ((DA - CB) ^ 2) C.p
    x2 := mulMod AA BB C.p
    z2 := mulMod E (AA + a24 C * E) C.p
    swap := s.swap }

/-- montgomery.cc L79-99: the loop over the bits `t - 1, …, 0`. -/
def loop (C : Params) (x1 : Int) (scalar : Nat) : Nat → St → St
  | 0, s => s
  | t + 1, s => loop C x1 scalar t (arith C x1 (swapStep (scalar.testBit t) s))

/-- montgomery.cc L64-105 `Mul`; a point is its x-coordinate. -/
def mul (C : Params) (point k : Int) : Int :=
  let scalar := maskScalar k.natAbs
  let x1 := maskPoint point
  let s := loop C x1 scalar (Nat.size C.p.natAbs) ⟨1, 0, x1, 1, false⟩
  let (x2, _) := cswap s.swap s.x2 s.x3
  let (z2, _) := cswap s.swap s.z2 s.z3
  mulMod x2 (z2 ^ (C.p - 2).toNat % C.p) C.p

/-- montgomery.cc L107-109 `Negate`. -/
def negate (C : Params) (point : Int) : Int := mul C point (C.n - 1)

/-- montgomery.cc L206-209 `IsInCurveGroup`. -/
def isInCurveGroup (C : Params) (x : Int) : Bool := !decide (x < 0) && decide (x < C.p)

/-- montgomery.cc L211-213 `IsInfinity`. -/
def isInfinity (x : Int) : Bool := x = 0

/-! ### Specification -/

/-- A supported curve. -/
structure Valid (C : Params) (p : ℕ) : Prop where
  hp : C.p = p
  odd : p ≠ 2
  size : Nat.size p = 255
  a24 : 4 ∣ C.A - 2
  elliptic : (C.A : ZMod p) ^ 2 ≠ 4

/-- The scalar X25519 uses for `k`: bits 0, 1, 2 cleared, bit 254 set, nothing above. -/
def clamp (k : Int) : Nat := 2 ^ 254 + 8 * (k.natAbs / 8 % 2 ^ 251)

/-! ### The masks -/

theorem testBit_setBit (m i j : Nat) (b : Bool) : (setBit m i b).testBit j = if j = i then b else m.testBit j := by
  unfold setBit
  by_cases h : j = i
  · subst h
    cases b <;> simp
  · cases b <;> simp [h, Nat.testBit_two_pow, Ne.symm h]

theorem maskScalar_mod (m : Nat) : maskScalar m % 2 ^ 255 = 2 ^ 254 + 8 * (m / 8 % 2 ^ 251) := by
  apply Nat.eq_of_testBit_eq
  intro j
  have e : 2 ^ 254 + 8 * (m / 8 % 2 ^ 251) = 2 ^ 254 ||| (m / 2 ^ 3 % 2 ^ 251) <<< 3 := by
    rw [Nat.shiftLeft_eq]
    have hlt : (m / 2 ^ 3 % 2 ^ 251) * 2 ^ 3 < 2 ^ 254 := by
      have := Nat.mod_lt (m / 2 ^ 3) (Nat.two_pow_pos 251)
      calc (m / 2 ^ 3 % 2 ^ 251) * 2 ^ 3 < 2 ^ 251 * 2 ^ 3 := Nat.mul_lt_mul_of_pos_right this (by norm_num)
        _ = 2 ^ 254 := by rw [← pow_add]
    have h1 := Nat.two_pow_add_eq_or_of_lt hlt 1
    rw [mul_one] at h1
    rw [← h1, mul_comm]
    norm_num
  rw [e]
  simp only [maskScalar, testBit_setBit, Nat.testBit_mod_two_pow, Nat.testBit_or, Nat.testBit_two_pow,
    Nat.testBit_shiftLeft, Nat.testBit_div_two_pow]
  by_cases h254 : j = 254
  · subst h254; simp
  · rw [if_neg h254]
    by_cases h3 : j < 3
    · have : j = 0 ∨ j = 1 ∨ j = 2 := by omega
      rcases this with rfl | rfl | rfl <;> simp
    · by_cases hb : j < 255
      · have h1 : j ≠ 255 := by omega
        have h2 : j ≠ 0 := by omega
        have h4 : j ≠ 1 := by omega
        have h5 : j ≠ 2 := by omega
        have h6 : 254 ≠ j := fun h => h254 h.symm
        have h7 : 3 ≤ j := by omega
        have h8 : j - 3 < 251 := by omega
        simp [h1, h2, h4, h5, h6, h7, h8, hb, show j - 3 + 3 = j by omega, show 3 + (j - 3) = j by omega]
      · have h6 : 254 ≠ j := fun h => h254 h.symm
        simp [hb, h6, show ¬ (j - 3 < 251) by omega]

/-- A reduced coordinate is not changed by the mask. -/
theorem maskPoint_of_lt {x : Int} (h : 0 ≤ x) (h' : x < 2 ^ 255) : maskPoint x = x := by
  unfold maskPoint
  rw [if_neg (by omega)]
  have : setBit x.natAbs 255 false = x.natAbs := by
    apply Nat.eq_of_testBit_eq
    intro j
    rw [testBit_setBit]
    by_cases hj : j = 255
    · rw [if_pos hj, hj]
      symm
      apply Nat.testBit_lt_two_pow
      zify
      rw [abs_of_nonneg h]
      exact h'
    · rw [if_neg hj]
  rw [this]
  omega

/-! ### The loop -/

/-- The two running points, in order. -/
def fst (s : St) : Int × Int := if s.swap then (s.x3, s.z3) else (s.x2, s.z2)
def snd (s : St) : Int × Int := if s.swap then (s.x2, s.z2) else (s.x3, s.z3)

theorem swapStep_eq (b : Bool) (s : St) : swapStep b s = if b then ⟨(snd s).1, (snd s).2, (fst s).1, (fst s).2, true⟩ else
    ⟨(fst s).1, (fst s).2, (snd s).1, (snd s).2, false⟩ := by
  obtain ⟨x2, z2, x3, z3, sw⟩ := s
  cases b <;> cases sw <;> simp [swapStep, cswap, fst, snd]

theorem final_eq (s : St) : ((cswap s.swap s.x2 s.x3).1, (cswap s.swap s.z2 s.z3).1) = fst s := by
  obtain ⟨x2, z2, x3, z3, sw⟩ := s
  cases sw <;> simp [cswap, fst]

section Field
variable {p : ℕ} [Fact p.Prime] {C : Params} {K : Type*} [Field K] [DecidableEq K] {f : ZMod p →+* K}

/-- The residue of an integer in the field `K`. -/
def φ {p : ℕ} {K : Type*} [Field K] (f : ZMod p →+* K) : Int →+* K := f.comp (Int.castRingHom (ZMod p))

omit [DecidableEq K] in
theorem φ_mod (a : Int) : φ f (a % p) = φ f a := by
  change f ((a % p : Int) : ZMod p) = f (a : ZMod p)
  rw [cast_mod]

omit [DecidableEq K] in
theorem φ_mulMod (a b : Int) : φ f (mulMod a b p) = φ f a * φ f b := by
  unfold mulMod; rw [φ_mod, map_mul]

omit [DecidableEq K] in
theorem φ_eq (a : Int) : φ f a = f a := rfl

omit [DecidableEq K] in
theorem two_ne (f : ZMod p →+* K) (h : p ≠ 2) : (2 : K) ≠ 0 := by
  have h2 : (2 : ZMod p) ≠ 0 := by
    intro e
    have : ((2 : ℕ) : ZMod p) = 0 := by exact_mod_cast e
    rw [ZMod.natCast_eq_zero_iff] at this
    exact h ((Nat.prime_dvd_prime_iff_eq Fact.out Nat.prime_two).1 this)
  have := (map_ne_zero f).2 h2
  rwa [map_ofNat] at this

omit [DecidableEq K] in
theorem A_ne (hC : Valid C p) : (φ f C.A) ^ 2 ≠ 4 := by
  intro h
  apply hC.elliptic
  apply f.injective
  rw [map_pow, ← φ_eq, h, map_ofNat]

/-- One iteration: the first pair is doubled, the second is the sum. -/
theorem arith_rel (hC : Valid C p) {D : (curve (φ f C.A)).Point} {x1 : Int} (hx : φ f x1 ≠ 0)
    (hD : ∃ y h, D = .some (φ f x1) y h) {P Q : (curve (φ f C.A)).Point} (hPQ : Q - P = D ∨ P - Q = D) {s : St}
    (hP : XRel P (φ f s.x2) (φ f s.z2)) (hQ : XRel Q (φ f s.x3) (φ f s.z3)) :
    XRel (P + P) (φ f (arith C x1 s).x2) (φ f (arith C x1 s).z2) ∧
    XRel (P + Q) (φ f (arith C x1 s).x3) (φ f (arith C x1 s).z3) := by
  have h2 : (2 : K) ≠ 0 := two_ne f hC.odd
  have hA := A_ne (f := f) hC
  have ha : φ f (a24 C) * 4 = φ f C.A - 2 := by
    have : a24 C * 4 = C.A - 2 := Int.ediv_mul_cancel hC.a24
    have := congrArg (φ f) this
    simpa using this
  obtain ⟨y, h, rfl⟩ := hD
  refine ⟨?_, ?_⟩
  · have := xdbl h2 hA hP
    unfold arith
    simp only [hC.hp, φ_mulMod, map_add, map_sub, map_mul]
    convert this using 1
    · ring
    · linear_combination (φ f s.x2 * φ f s.z2 * φ f s.x2 * φ f s.z2 * 4) * ha
  · have := xadd h2 hA h hx hPQ hP hQ
    unfold arith
    simp only [hC.hp, φ_mulMod, map_add, map_sub, map_mul, φ_mod, map_pow]
    convert this using 1
    · ring
    · ring

/-- The ladder invariant: the two points are `m D` and `(m + 1) D`. -/
theorem loop_rel (hC : Valid C p) {D : (curve (φ f C.A)).Point} {x1 : Int} (hx : φ f x1 ≠ 0)
    (hD : ∃ y h, D = .some (φ f x1) y h) (scalar t : Nat) {m : ℕ} {s : St}
    (h1 : XRel (m • D) (φ f (fst s).1) (φ f (fst s).2))
    (h2 : XRel ((m + 1) • D) (φ f (snd s).1) (φ f (snd s).2)) :
    XRel ((2 ^ t * m + scalar % 2 ^ t) • D) (φ f (fst (loop C x1 scalar t s)).1) (φ f (fst (loop C x1 scalar t s)).2) := by
  induction t generalizing m s with
  | zero => simpa [loop, Nat.mod_one] using h1
  | succ t ih =>
    have hmod : scalar % 2 ^ (t + 1) = 2 ^ t * (if scalar.testBit t then 1 else 0) + scalar % 2 ^ t := by
      rw [Nat.mod_pow_succ, Nat.testBit_eq_decide_div_mod_eq]
      rcases Nat.mod_two_eq_zero_or_one (scalar / 2 ^ t) with h | h <;> rw [h] <;> simp <;> omega
    rw [loop, swapStep_eq, hmod]
    have hdiff : (m + 1) • D - m • D = D := by rw [add_nsmul, one_nsmul]; abel
    cases hb : scalar.testBit t with
    | false =>
      obtain ⟨r1, r2⟩ := arith_rel hC hx hD (P := m • D) (Q := (m + 1) • D) (Or.inl hdiff)
        (s := ⟨(fst s).1, (fst s).2, (snd s).1, (snd s).2, false⟩) h1 h2
      have := ih (m := 2 * m) (s := arith C x1 ⟨(fst s).1, (fst s).2, (snd s).1, (snd s).2, false⟩)
        (by rw [two_mul, add_nsmul]; exact r1)
        (by rw [show 2 * m + 1 = m + (m + 1) by omega, add_nsmul]; exact r2)
      simp only [Bool.false_eq_true, if_false]
      convert this using 2
      ring
    | true =>
      obtain ⟨r1, r2⟩ := arith_rel hC hx hD (P := (m + 1) • D) (Q := m • D) (Or.inr hdiff)
        (s := ⟨(snd s).1, (snd s).2, (fst s).1, (fst s).2, true⟩) h2 h1
      have := ih (m := 2 * m + 1) (s := arith C x1 ⟨(snd s).1, (snd s).2, (fst s).1, (fst s).2, true⟩)
        (by rw [show 2 * m + 1 = (m + 1) + m by omega, add_nsmul]; exact r2)
        (by rw [show 2 * m + 1 + 1 = (m + 1) + (m + 1) by omega, add_nsmul]; exact r1)
      simp only [if_true]
      convert this using 2
      ring

/-- A zero denominator tells that the multiple is the point at infinity. -/
theorem loop_order (hC : Valid C p) {D : (curve (φ f C.A)).Point} {x1 : Int} (hx : φ f x1 ≠ 0)
    (hD : ∃ y h, D = .some (φ f x1) y h) (scalar t : Nat) (hlt : scalar % 2 ^ t = scalar)
    (hz : (fst (loop C x1 scalar t ⟨1, 0, x1, 1, false⟩)).2 = 0) : scalar • D = 0 := by
  have h := loop_rel (f := f) hC hx hD scalar t (m := 0) (s := ⟨1, 0, x1, 1, false⟩)
    (by rw [zero_nsmul]; exact ⟨by simp [fst], by simp [fst]⟩)
    (by rw [zero_add, one_nsmul]; obtain ⟨y, h, rfl⟩ := hD; exact ⟨by simp [snd], by simp [snd]⟩)
  rw [hz, map_zero, mul_zero, zero_add, hlt] at h
  revert h
  generalize scalar • D = R
  cases R with
  | zero => exact fun _ => rfl
  | some a b c => exact fun h => absurd rfl h.1

/-- With the base x-coordinate 0 both denominators vanish after one iteration. -/
theorem loop_zero (hp : C.p = p) {x1 : Int} (hx : φ f x1 = 0) (scalar t : Nat) {s : St}
    (h : φ f s.x3 = 0 ∧ φ f s.z3 = 0 ∧ φ f s.z2 = 0 ∨ φ f s.x2 = 0 ∧ φ f s.z2 = 0 ∧ φ f s.z3 = 0) :
    φ f (fst (loop C x1 scalar t s)).2 = 0 := by
  induction t generalizing s with
  | zero => unfold loop fst; rcases h with h | h <;> cases s.swap <;> simp [h]
  | succ t ih =>
    rw [loop]
    apply ih
    have hz3 : ∀ s, φ f (arith C x1 s).z3 = 0 := by
      intro s; unfold arith; simp only [hp, φ_mulMod, hx, zero_mul]
    have hz : ∀ s : St, φ f s.z2 = 0 → φ f (arith C x1 s).z2 = 0 := by
      intro s hs
      unfold arith; simp only [hp, φ_mulMod, map_add, map_sub, hs]; ring
    have hx2 : ∀ s : St, φ f s.z2 = 0 → φ f s.x2 = 0 → φ f (arith C x1 s).x2 = 0 := by
      intro s hs hs'
      unfold arith; simp only [hp, φ_mulMod, map_add, map_sub, hs, hs']; ring
    have hx3 : ∀ s : St, φ f s.z2 = 0 → φ f s.z3 = 0 → (φ f s.x2 = 0 ∨ φ f s.x3 = 0) → φ f (arith C x1 s).x3 = 0 := by
      intro s h1 h2 h3
      unfold arith; simp only [hp, φ_mulMod, φ_mod, map_pow, map_add, map_sub, h1, h2]
      rcases h3 with h | h <;> rw [h] <;> ring
    left
    rw [swapStep_eq]
    have e : φ f (fst s).2 = 0 ∧ φ f (snd s).2 = 0 ∧ (φ f (fst s).1 = 0 ∨ φ f (snd s).1 = 0) := by
      unfold fst snd
      rcases h with ⟨h1, h2, h3⟩ | ⟨h1, h2, h3⟩ <;> cases s.swap <;> simp [h1, h2, h3]
    cases scalar.testBit t
    · exact ⟨hx3 _ e.1 e.2.1 e.2.2, hz3 _, hz _ e.1⟩
    · exact ⟨hx3 _ e.2.1 e.1 e.2.2.symm, hz3 _, hz _ e.2.1⟩

/-- The first iteration with base x-coordinate 0. -/
theorem loop_zero_start (hp : C.p = p) {x1 : Int} (hx : φ f x1 = 0) (scalar t : Nat) :
    φ f (fst (loop C x1 scalar (t + 1) ⟨1, 0, x1, 1, false⟩)).2 = 0 := by
  rw [loop]
  apply loop_zero hp hx
  left
  rw [swapStep_eq]
  cases scalar.testBit t
  · simp [arith, fst, snd, hp, φ_mulMod, φ_mod, hx, -eq_intCast]
  · simp [arith, fst, snd, hp, φ_mulMod, φ_mod, hx, -eq_intCast]

/-- The last line of `Mul`: division, with 0 for a zero denominator. -/
theorem final_div (hp : C.p = p) (hp2 : p ≠ 2) (X Z : Int) :
    φ f (mulMod X (Z ^ (C.p - 2).toNat % C.p) C.p) = φ f X * (φ f Z)⁻¹ := by
  rw [hp, φ_mulMod, φ_mod, map_pow]
  congr 1
  have hge := (Fact.out : p.Prime).two_le
  have h3 : p - 2 ≠ 0 := by omega
  have e : ((p : Int) - 2).toNat = p - 2 := by omega
  rw [e]
  by_cases hZ : φ f Z = 0
  · rw [hZ, inv_zero, zero_pow h3]
  · apply eq_inv_of_mul_eq_one_left
    rw [← pow_succ, show p - 2 + 1 = p - 1 by omega, φ_eq, ← map_pow, ZMod.pow_card_sub_one_eq_one, map_one]
    intro h
    apply hZ
    rw [φ_eq, h, map_zero]

/-- C97: the product of any integer x-coordinate by `k` is the x-coordinate of the multiple by the clamped scalar, for
every point of the curve with that x-coordinate (after clearing bit 255), in any field extension. -/
theorem C97_ladder_any (hC : Valid C p) (point k : Int) (D : (curve (φ f C.A)).Point) (hD : D ≠ 0)
    (hxD : xcoord D = φ f (maskPoint point)) :
    φ f (mul C point k) = xcoord (clamp k • D) ∧ 0 ≤ mul C point k ∧ mul C point k < p := by
  refine ⟨?_, by unfold mul; simp only [hC.hp]; exact mod_range _⟩
  generalize hm : maskPoint point = x at hxD
  cases D with
  | zero => exact absurd rfl hD
  | some x' y' h' =>
    have hx' : x' = φ f x := hxD
    subst hx'
    have hfe := final_eq (loop C x (maskScalar k.natAbs) 255 ⟨1, 0, x, 1, false⟩)
    have e : φ f (mul C point k) = φ f (fst (loop C x (maskScalar k.natAbs) 255 ⟨1, 0, x, 1, false⟩)).1 *
        (φ f (fst (loop C x (maskScalar k.natAbs) 255 ⟨1, 0, x, 1, false⟩)).2)⁻¹ := by
      rw [← final_div hC.hp hC.odd, ← hfe]
      unfold mul
      rw [hm, show C.p.natAbs = p by rw [hC.hp]; rfl, hC.size]
    rw [e]
    by_cases h0 : φ f x = 0
    · rw [loop_zero_start hC.hp h0, inv_zero, mul_zero]
      have hy : y' = 0 := by
        have := eqn h'
        rw [h0, zero_mul] at this
        exact pow_eq_zero_iff (two_ne_zero) |>.1 this
      have hdd : WeierstrassCurve.Affine.Point.some (φ f x) y' h' + WeierstrassCurve.Affine.Point.some (φ f x) y' h' = 0 :=
        WeierstrassCurve.Affine.Point.add_self_of_Y_eq (by rw [negY_eq, hy, neg_zero])
      have : clamp k • WeierstrassCurve.Affine.Point.some (φ f x) y' h' = 0 := by
        have : clamp k = 2 * (2 ^ 253 + 4 * (k.natAbs / 8 % 2 ^ 251)) := by
          unfold clamp
          rw [show (2 : ℕ) ^ 254 = 2 * 2 ^ 253 by rw [← pow_succ']]
          ring
        rw [this, mul_comm, mul_nsmul, two_nsmul, ← nsmul_add, hdd, nsmul_zero]
      rw [this]
      rfl
    · have h := loop_rel (f := f) hC h0 ⟨y', h', rfl⟩ (maskScalar k.natAbs) 255 (m := 0) (s := ⟨1, 0, x, 1, false⟩)
        (by rw [zero_nsmul]; exact ⟨by simp [fst], by simp [fst]⟩)
        (by rw [zero_add, one_nsmul]; exact ⟨by simp [snd], by simp [snd]⟩)
      rw [mul_zero, zero_add, maskScalar_mod] at h
      change XRel (clamp k • WeierstrassCurve.Affine.Point.some (φ f x) y' h') _ _ at h
      revert h
      generalize clamp k • WeierstrassCurve.Affine.Point.some (φ f x) y' h' = R
      cases R with
      | zero => intro h; rw [h.1, inv_zero, mul_zero]; rfl
      | some a b c => intro h; rw [h.2, mul_assoc, mul_inv_cancel₀ h.1, mul_one]; rfl

theorem lt_two_pow (hC : Valid C p) {x : Int} (hx : x < p) : x < 2 ^ 255 := by
  have h := Nat.lt_size_self p
  rw [hC.size] at h
  have : (p : Int) < 2 ^ 255 := by exact_mod_cast h
  omega

/-- C97: the product of a reduced x-coordinate by `k` is the x-coordinate of the multiple by the clamped scalar, for every
point of the curve with that x-coordinate, in any field extension (so also for points of the twist); the x-coordinate of
the point at infinity is 0. -/
theorem C97_ladder (hC : Valid C p) {x : Int} (hx : 0 ≤ x ∧ x < p) (k : Int) (D : (curve (φ f C.A)).Point) (hD : D ≠ 0)
    (hxD : xcoord D = φ f x) :
    φ f (mul C x k) = xcoord (clamp k • D) ∧ 0 ≤ mul C x k ∧ mul C x k < p :=
  C97_ladder_any hC x k D hD (by rw [hxD, maskPoint_of_lt hx.1 (lt_two_pow hC hx.2)])

end Field

section Closure
variable {p : ℕ} [Fact p.Prime] {C : Params}

/-- Residues in the algebraic closure. -/
noncomputable abbrev ψ (p : ℕ) [Fact p.Prime] : Int →+* AlgebraicClosure (ZMod p) :=
  φ (algebraMap (ZMod p) (AlgebraicClosure (ZMod p)))

theorem ψ_inj {a b : Int} (ha : 0 ≤ a ∧ a < p) (hb : 0 ≤ b ∧ b < p) (h : ψ p a = ψ p b) : a = b := by
  have h1 : (a : ZMod p) = b := (algebraMap (ZMod p) (AlgebraicClosure (ZMod p))).injective h
  rw [ZMod.intCast_eq_intCast_iff] at h1
  have := h1.eq
  rwa [Int.emod_eq_of_lt ha.1 ha.2, Int.emod_eq_of_lt hb.1 hb.2] at this

/-- Every x-coordinate belongs to a point over the algebraic closure. -/
theorem lift (hC : Valid C p) (X : AlgebraicClosure (ZMod p)) :
    ∃ y h, xcoord (WeierstrassCurve.Affine.Point.some (W' := curve (ψ p C.A)) X y h) = X := by
  obtain ⟨y, hy⟩ := IsAlgClosed.exists_pow_nat_eq (X * (X ^ 2 + ψ p C.A * X + 1)) (n := 2) (by norm_num)
  refine ⟨y, ?_, rfl⟩
  have h2 : (2 : AlgebraicClosure (ZMod p)) ≠ 0 := two_ne (algebraMap (ZMod p) _) hC.odd
  have hA : (ψ p C.A) ^ 2 ≠ 4 := A_ne hC
  have hΔ : (curve (ψ p C.A)).Δ ≠ 0 := by
    have : (curve (ψ p C.A)).Δ = 2 ^ 4 * ((ψ p C.A) ^ 2 - 4) := by
      simp only [WeierstrassCurve.Δ, WeierstrassCurve.b₂, WeierstrassCurve.b₄, WeierstrassCurve.b₆, WeierstrassCurve.b₈, curve]
      ring
    rw [this]
    exact mul_ne_zero (pow_ne_zero 4 h2) (sub_ne_zero.2 hA)
  refine ((curve (ψ p C.A)).equation_iff_nonsingular_of_Δ_ne_zero hΔ).1 ?_
  rw [WeierstrassCurve.Affine.equation_iff]
  simp only [curve]
  linear_combination hy

theorem xcoord_neg {K : Type*} [Field K] {A : K} (P : (curve A).Point) : xcoord (-P) = xcoord P := by
  cases P <;> rfl

/-- Two points with the same x-coordinate, not infinity, are equal or opposite. -/
theorem eq_or_neg {K : Type*} [Field K] [DecidableEq K] {A x y : K} {h : (curve A).Nonsingular x y} {Q : (curve A).Point} (hQ : Q ≠ 0)
    (hx : xcoord Q = x) : Q = .some x y h ∨ Q = -.some x y h := by
  cases Q with
  | zero => exact absurd rfl hQ
  | some x' y' h' =>
    have hx' : x' = x := hx
    subst hx'
    have e1 := eqn h
    have e2 := eqn h'
    have : (y' - y) * (y' + y) = 0 := by linear_combination e2 - e1
    rcases mul_eq_zero.1 this with e | e
    · left
      have := sub_eq_zero.1 e
      subst this
      rfl
    · right
      have : y' = -y := by linear_combination e
      subst this
      rw [WeierstrassCurve.Affine.Point.neg_some]
      simp only [negY_eq]

open Classical in
/-- One multiplication after another multiplies the point by both clamped scalars. -/
theorem mul_mul (hC : Valid C p) {x : Int} (hx : 0 ≤ x ∧ x < p) (a b : Int) (D : (curve (ψ p C.A)).Point) (hD : D ≠ 0)
    (hxD : xcoord D = ψ p x) : ψ p (mul C (mul C x a) b) = xcoord (clamp b • clamp a • D) := by
  obtain ⟨h1, h2⟩ := C97_ladder (f := algebraMap (ZMod p) (AlgebraicClosure (ZMod p))) hC hx a D hD hxD
  obtain ⟨y, hns, hxc⟩ := lift hC (ψ p (mul C x a))
  obtain ⟨h3, -⟩ := C97_ladder (f := algebraMap (ZMod p) (AlgebraicClosure (ZMod p))) hC h2 b
    (.some _ y hns) (WeierstrassCurve.Affine.Point.some_ne_zero hns) hxc
  rw [show ψ p (mul C (mul C x a) b) = _ from h3]
  by_cases h0 : clamp a • D = 0
  · have hz : ψ p (mul C x a) = 0 := by rw [show ψ p (mul C x a) = _ from h1, h0]; rfl
    rw [h0, nsmul_zero]
    have hy : y = 0 := by
      have := eqn hns
      rw [hz, zero_mul] at this
      exact (pow_eq_zero_iff two_ne_zero).1 this
    have hdd : WeierstrassCurve.Affine.Point.some (ψ p (mul C x a)) y hns + .some (ψ p (mul C x a)) y hns = 0 :=
      WeierstrassCurve.Affine.Point.add_self_of_Y_eq (by rw [negY_eq, hy, neg_zero])
    have hc : clamp b = 2 * (2 ^ 253 + 4 * (b.natAbs / 8 % 2 ^ 251)) := by
      unfold clamp
      rw [show (2 : ℕ) ^ 254 = 2 * 2 ^ 253 by rw [← pow_succ']]
      ring
    rw [hc, mul_comm, mul_nsmul, two_nsmul, ← nsmul_add, hdd, nsmul_zero]
  · rcases eq_or_neg (h := hns) h0 h1.symm with e | e
    · rw [e]
    · rw [e, neg_nsmul, xcoord_neg]

/-- C97: Diffie and Hellman agree, for every base and every pair of keys. -/
theorem C97_dh (hC : Valid C p) {x : Int} (hx : 0 ≤ x ∧ x < p) (a b : Int) :
    mul C (mul C x a) b = mul C (mul C x b) a := by
  classical
  have rng : ∀ x k, 0 ≤ mul C x k ∧ mul C x k < p := by
    intro x k; unfold mul; simp only [hC.hp]; exact mod_range _
  obtain ⟨y, hns, hxc⟩ := lift hC (ψ p x)
  apply ψ_inj (rng _ _) (rng _ _)
  rw [mul_mul hC hx a b _ (WeierstrassCurve.Affine.Point.some_ne_zero hns) hxc,
    mul_mul hC hx b a _ (WeierstrassCurve.Affine.Point.some_ne_zero hns) hxc, ← mul_nsmul, ← mul_nsmul, mul_comm]

/-- C97: the members of the group are exactly the reduced x-coordinates, products are members, and every member is the
x-coordinate of a point over the algebraic closure (the curve or its twist). -/
theorem C97_membership (hC : Valid C p) (x : Int) :
    (isInCurveGroup C x = true ↔ 0 ≤ x ∧ x < p) ∧ (∀ k, isInCurveGroup C (mul C x k) = true) ∧
    ∃ D : (curve (ψ p C.A)).Point, D ≠ 0 ∧ xcoord D = ψ p x := by
  have key : ∀ x, isInCurveGroup C x = true ↔ 0 ≤ x ∧ x < p := by
    intro x; simp [isInCurveGroup, hC.hp]
  refine ⟨key x, fun k => ?_, ?_⟩
  · rw [key]; unfold mul; simp only [hC.hp]; exact mod_range _
  · obtain ⟨y, hns, hxc⟩ := lift hC (ψ p x)
    exact ⟨_, WeierstrassCurve.Affine.Point.some_ne_zero hns, hxc⟩

end Closure

end Yacl.Ecc.Mont
