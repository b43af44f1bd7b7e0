import Verif.Ecc.CudaField
import Verif.Ecc.Predefined

/-! Model of the point arithmetic the GPU code for SM2 uses (yacl/crypto/ecc/cuda/kernels/sm2_kernels.cu): Jacobian coordinates over the
limbs of `CudaField`.  No call in the file passes the same point as input and as output, so a function that writes its output
coordinate by coordinate is modelled as a function returning them. -/

namespace Yacl.Cuda

set_option linter.unusedSimpArgs false

/-- gpu_types.cuh `GpuJacobianPoint`. -/
structure Jac where
  X : Fe
  Y : Fe
  Z : Fe
deriving DecidableEq

/-- gpu_types.cuh `GpuAffinePoint`; (0, 0) is the point at infinity. -/
structure Aff where
  x : Fe
  y : Fe
deriving DecidableEq

/-- sm2_kernels.cu L515-524 `pointSetInfinity`, `pointIsInfinity`. -/
def jInf : Jac := ⟨fpOne, fpOne, fpZero⟩
def jIsInf (P : Jac) : Bool := fpIsZero P.Z

/-- sm2_kernels.cu L533-542 `affineToJacobian`. -/
def affineToJacobian (a : Aff) : Jac := if fpIsZero a.x && fpIsZero a.y then jInf else ⟨a.x, a.y, fpOne⟩

/-- sm2_kernels.cu L544-548 `pointNegate`. -/
def pointNegate (P : Jac) : Jac := ⟨P.X, fpNeg P.Y, P.Z⟩

/-- sm2_kernels.cu L1065-1116 `pointDouble`. -/
def pointDouble (P : Jac) : Jac :=
  if jIsInf P then jInf else
    let a := fpSqr P.X
    let b := fpSqr P.Y
    let c := fpSqr b
    let d := fpDouble (fpSub (fpSub (fpSqr (fpAdd P.X b)) a) c)
    let z4 := fpSqr (fpSqr P.Z)
    let e := fpTriple (fpSub a z4)
    let X3 := fpSub (fpSqr e) (fpDouble d)
    let Y3 := fpSub (fpMul e (fpSub d X3)) (fpDouble (fpDouble (fpDouble c)))
    ⟨X3, Y3, fpDouble (fpMul P.Y P.Z)⟩

/-- sm2_kernels.cu L1119-1206 `pointAdd`. -/
def pointAdd (P Q : Jac) : Jac :=
  if jIsInf P then Q else if jIsInf Q then P else
    let z1z1 := fpSqr P.Z
    let z2z2 := fpSqr Q.Z
    let u1 := fpMul P.X z2z2
    let u2 := fpMul Q.X z1z1
    let s1 := fpMul (fpMul P.Y Q.Z) z2z2
    let s2 := fpMul (fpMul Q.Y P.Z) z1z1
    let h := fpSub u2 u1
    if fpIsZero h then
      if fpIsZero (fpSub s2 s1) then pointDouble P else jInf
    else
      let i := fpSqr (fpDouble h)
      let j := fpMul h i
      let rr := fpDouble (fpSub s2 s1)
      let v := fpMul u1 i
      let X3 := fpSub (fpSub (fpSqr rr) j) (fpDouble v)
      let Y3 := fpSub (fpMul rr (fpSub v X3)) (fpDouble (fpMul s1 j))
      ⟨X3, Y3, fpMul (fpSub (fpSub (fpSqr (fpAdd P.Z Q.Z)) z1z1) z2z2) h⟩

/-- sm2_kernels.cu L1209-1281 `pointAddMixed`. -/
def pointAddMixed (P : Jac) (Q : Aff) : Jac :=
  if jIsInf P then affineToJacobian Q else
    let z1z1 := fpSqr P.Z
    let u2 := fpMul Q.x z1z1
    let s2 := fpMul (fpMul Q.y P.Z) z1z1
    let h := fpSub u2 P.X
    if fpIsZero h then
      if fpIsZero (fpSub s2 P.Y) then pointDouble P else jInf
    else
      let hh := fpSqr h
      let i := fpDouble (fpDouble hh)
      let j := fpMul h i
      let rr := fpDouble (fpSub s2 P.Y)
      let v := fpMul P.X i
      let X3 := fpSub (fpSub (fpSqr rr) j) (fpDouble v)
      let Y3 := fpSub (fpMul rr (fpSub v X3)) (fpDouble (fpMul P.Y j))
      ⟨X3, Y3, fpSub (fpSub (fpSqr (fpAdd P.Z h)) z1z1) hh⟩

/-- sm2_kernels.cu L1284-1289 `pointSub`. -/
def pointSub (P Q : Jac) : Jac := pointAdd P (pointNegate Q)

/-- sm2_kernels.cu L1327-1356 `pointEqual`. -/
def pointEqual (P Q : Jac) : Bool :=
  if jIsInf P && jIsInf Q then true
  else if jIsInf P || jIsInf Q then false
  else
    let z1z1 := fpSqr P.Z
    let z2z2 := fpSqr Q.Z
    if !fpEqual (fpMul P.X z2z2) (fpMul Q.X z1z1) then false
    else fpEqual (fpMul (fpMul P.Y Q.Z) z2z2) (fpMul (fpMul Q.Y P.Z) z1z1)

/-! ### Specification -/

/-- The curve of the predefined parameters of sm2 (C96). -/
def E : WeierstrassCurve.Affine (ZMod Pm) := Yacl.Ecc.curve Pm Yacl.Ecc.sm2.A Yacl.Ecc.sm2.B

/-- The Jacobian triple stands for the point `Q`: reduced coordinates; `x = X / Z²`, `y = Y / Z³`; `Z = 0` is the point at infinity. -/
def RepJ (j : Jac) (Q : E.Point) : Prop :=
  (j.X.Red ∧ j.Y.Red ∧ j.Z.Red) ∧
  match Q with
  | .zero => j.Z.dec = 0
  | .some x y _ => j.Z.dec ≠ 0 ∧ j.X.dec = x * j.Z.dec ^ 2 ∧ j.Y.dec = y * j.Z.dec ^ 3

/-- The pair of coordinates in Montgomery form stands for the point `Q`. -/
def RepA (a : Aff) (Q : E.Point) : Prop :=
  (a.x.Red ∧ a.y.Red) ∧
  match Q with
  | .zero => a.x.dec = 0 ∧ a.y.dec = 0
  | .some x y _ => a.x.dec = x ∧ a.y.dec = y

/-! ### Proof -/

section simps
variable {a b : Fe}
theorem r_mul (ha : a.Red) (hb : b.Red) : (fpMul a b).Red := (C148_mul a b ha hb).1
theorem d_mul (ha : a.Red) (hb : b.Red) : (fpMul a b).dec = a.dec * b.dec := (C148_mul a b ha hb).2
theorem r_sqr (ha : a.Red) : (fpSqr a).Red := (C148_sqr a ha).1
theorem d_sqr (ha : a.Red) : (fpSqr a).dec = a.dec ^ 2 := (C148_sqr a ha).2
theorem r_add (ha : a.Red) (hb : b.Red) : (fpAdd a b).Red := (C148_add a b ha hb).1
theorem d_add (ha : a.Red) (hb : b.Red) : (fpAdd a b).dec = a.dec + b.dec := (C148_add a b ha hb).2
theorem r_sub (ha : a.Red) (hb : b.Red) : (fpSub a b).Red := (C148_sub a b ha hb).1
theorem d_sub (ha : a.Red) (hb : b.Red) : (fpSub a b).dec = a.dec - b.dec := (C148_sub a b ha hb).2
theorem r_neg (ha : a.Red) : (fpNeg a).Red := (C148_neg a ha).1
theorem d_neg (ha : a.Red) : (fpNeg a).dec = -a.dec := (C148_neg a ha).2
theorem r_dbl (ha : a.Red) : (fpDouble a).Red := (C148_add a a ha ha).1
theorem d_dbl (ha : a.Red) : (fpDouble a).dec = 2 * a.dec := by rw [two_mul]; exact (C148_add a a ha ha).2
theorem r_tpl (ha : a.Red) : (fpTriple a).Red := r_add (r_dbl ha) ha
theorem d_tpl (ha : a.Red) : (fpTriple a).dec = 3 * a.dec := by
  rw [fpTriple, d_add (r_dbl ha) ha, d_dbl ha]; ring
theorem z_iff (ha : a.Red) : fpIsZero a = true ↔ a.dec = 0 := C148_zero a ha
end simps

/-- Closes the goals saying that the result of field operations is reduced. -/
macro "red" : tactic => `(tactic| (repeat' with_reducible first | assumption | apply r_mul | apply r_sqr | apply r_add | apply r_sub | apply r_neg | apply r_dbl | apply r_tpl))

/-- Reads the field operations as operations of the field. -/
macro "decode" : tactic => `(tactic| (simp (maxDischargeDepth := 60) only [*, r_mul, r_sqr, r_add, r_sub, r_neg, r_dbl, r_tpl, d_mul, d_dbl, d_sqr, d_add, d_sub, d_tpl, d_neg]))

section alg
variable {F : Type*} [Field F]

theorem dbl_x (x y z : F) (h2 : (2 : F) ≠ 0) (hy : y ≠ 0) :
    (3 * ((x * z ^ 2) ^ 2 - (z ^ 2) ^ 2)) ^ 2 - 2 * (2 * ((x * z ^ 2 + (y * z ^ 3) ^ 2) ^ 2 - (x * z ^ 2) ^ 2 - ((y * z ^ 3) ^ 2) ^ 2)) =
    (((3 * x ^ 2 - 3) / (2 * y)) ^ 2 - (x + x)) * (2 * (y * z ^ 3 * z)) ^ 2 := by
  field_simp
  ring

theorem dbl_y (x y z d c e X3 : F) (h2 : (2 : F) ≠ 0) (hy : y ≠ 0) (hd : d = 4 * x * y ^ 2 * z ^ 8) (hc : c = y ^ 4 * z ^ 12)
    (he : e = 3 * (x ^ 2 - 1) * z ^ 4) (hX : X3 = (((3 * x ^ 2 - 3) / (2 * y)) ^ 2 - (x + x)) * (2 * (y * z ^ 3 * z)) ^ 2) :
    e * (d - X3) - 2 * (2 * (2 * c)) =
    ((3 * x ^ 2 - 3) / (2 * y) * (x - (((3 * x ^ 2 - 3) / (2 * y)) ^ 2 - (x + x))) - y) * (2 * (y * z ^ 3 * z)) ^ 3 := by
  subst hd hc he hX
  field_simp
  ring

theorem slope_alg (x y : F) : (3 * x ^ 2 + 2 * 0 * x + -3 - 0 * y) / (y - -y) = (3 * x ^ 2 - 3) / (2 * y) := by
  congr 1 <;> ring

theorem add_alg {x1 x2 y1 y2 w u1 s1 h rr i Z3 l X3 : F} (hu : u1 = x1 * w ^ 2) (hs : s1 = y1 * w ^ 3) (hh : h = (x2 - x1) * w ^ 2)
    (hr : rr = 2 * (y2 - y1) * w ^ 3) (hi : i = 4 * h ^ 2) (hZ : Z3 = 2 * w * h) (hl : l * (x1 - x2) = y1 - y2)
    (hX : X3 = rr ^ 2 - h * i - 2 * (u1 * i)) :
    X3 = (l ^ 2 - (x1 + x2)) * Z3 ^ 2 ∧
    rr * (u1 * i - X3) - 2 * (s1 * (h * i)) = (l * (x1 - (l ^ 2 - (x1 + x2))) - y1) * Z3 ^ 3 := by
  have hy : y2 = y1 - l * (x1 - x2) := by linear_combination hl
  subst hu hs hr hi hX hZ hh hy
  constructor <;> ring

theorem slope_mul {x1 x2 y1 y2 : F} (h : x1 ≠ x2) : (y1 - y2) / (x1 - x2) * (x1 - x2) = y1 - y2 := div_mul_cancel₀ _ (sub_ne_zero.2 h)

theorem h_alg {x1 x2 z1 z2 : F} (h1 : z1 ≠ 0) (h2 : z2 ≠ 0) : x2 * z2 ^ 2 * z1 ^ 2 - x1 * z1 ^ 2 * z2 ^ 2 = 0 ↔ x1 = x2 := by
  have e : x2 * z2 ^ 2 * z1 ^ 2 - x1 * z1 ^ 2 * z2 ^ 2 = (x2 - x1) * (z1 ^ 2 * z2 ^ 2) := by ring
  rw [e, mul_eq_zero, or_iff_left (mul_ne_zero (pow_ne_zero _ h1) (pow_ne_zero _ h2)), sub_eq_zero, eq_comm]

theorem s_alg {y1 y2 z1 z2 : F} (h1 : z1 ≠ 0) (h2 : z2 ≠ 0) :
    y2 * z2 ^ 3 * z1 * z1 ^ 2 - y1 * z1 ^ 3 * z2 * z2 ^ 2 = 0 ↔ y1 = y2 := by
  have e : y2 * z2 ^ 3 * z1 * z1 ^ 2 - y1 * z1 ^ 3 * z2 * z2 ^ 2 = (y2 - y1) * (z1 ^ 3 * z2 ^ 3) := by ring
  rw [e, mul_eq_zero, or_iff_left (mul_ne_zero (pow_ne_zero _ h1) (pow_ne_zero _ h2)), sub_eq_zero, eq_comm]
end alg

theorem two_ne' : (2 : ZMod Pm) ≠ 0 := by
  have : ((2 : ℕ) : ZMod Pm) ≠ 0 := by rw [Ne, ZMod.natCast_eq_zero_iff]; decide +kernel
  exact_mod_cast this

theorem b_ne' : ((Yacl.Ecc.sm2.B : ℤ) : ZMod Pm) ≠ 0 := Yacl.Ecc.sm2_valid.b_ne

/-- The doubling formulas are those for the coefficient -3. -/
theorem a_eq : ((Yacl.Ecc.sm2.A : ℤ) : ZMod Pm) = -3 := by
  have h : ((Yacl.Ecc.sm2.A : ℤ) : ZMod Pm) = ((-3 : ℤ) : ZMod Pm) := by
    rw [ZMod.intCast_eq_intCast_iff_dvd_sub]; decide +kernel
  rw [h]; push_cast; rfl

theorem E_negY (x y : ZMod Pm) : E.negY x y = -y := Yacl.Ecc.negY_eq x y
theorem E_addX (x₁ x₂ l : ZMod Pm) : E.addX x₁ x₂ l = l ^ 2 - (x₁ + x₂) := Yacl.Ecc.addX_eq x₁ x₂ l
theorem E_addY (x₁ x₂ y₁ l : ZMod Pm) : E.addY x₁ x₂ y₁ l = l * (x₁ - (l ^ 2 - (x₁ + x₂))) - y₁ := by
  rw [WeierstrassCurve.Affine.addY, WeierstrassCurve.Affine.negAddY, E_negY, E_addX]; ring
theorem E_eqn {x y : ZMod Pm} (h : E.Nonsingular x y) : y ^ 2 = x ^ 3 - 3 * x + ((Yacl.Ecc.sm2.B : ℤ) : ZMod Pm) := by
  have := Yacl.Ecc.eqn h
  rw [a_eq] at this
  linear_combination this

theorem rep_inf : RepJ jInf 0 := ⟨⟨red_one, red_one, red_zero⟩, dec_zero⟩

theorem isInf_iff {j : Jac} {Q : E.Point} (h : RepJ j Q) : jIsInf j = true ↔ Q = 0 := by
  rw [jIsInf, z_iff h.1.2.2]
  cases Q with
  | zero => exact ⟨fun _ => rfl, fun _ => h.2⟩
  | some x y hh => exact ⟨fun e => absurd e h.2.1, fun e => absurd e (WeierstrassCurve.Affine.Point.some_ne_zero hh)⟩

/-- C148: doubling. -/
theorem C148_double {j : Jac} {Q : E.Point} (h : RepJ j Q) : RepJ (pointDouble j) (Q + Q) := by
  have hi := isInf_iff h
  unfold pointDouble
  cases Q with
  | zero =>
    rw [if_pos (hi.2 rfl)]
    exact rep_inf
  | some x y hh =>
    rw [if_neg (fun e => WeierstrassCurve.Affine.Point.some_ne_zero hh (hi.1 e))]
    obtain ⟨⟨hX, hY, hZ⟩, hz, hx, hy⟩ := h
    have t2 := two_ne'
    by_cases hy0 : y = 0
    · rw [WeierstrassCurve.Affine.Point.add_self_of_Y_eq (by rw [E_negY, hy0, neg_zero])]
      refine ⟨⟨?_, ?_, ?_⟩, ?_⟩
      · red
      · red
      · red
      simp only []
      rw [d_dbl (by red), d_mul hY hZ]
      rw [hy, hy0]; ring
    · have hne : y ≠ -y := by
        intro e
        apply hy0
        have : 2 * y = 0 := by linear_combination e
        exact (mul_eq_zero.1 this).resolve_left t2
      rw [WeierstrassCurve.Affine.Point.add_some (by rw [E_negY]; exact fun e => hne e.2)]
      have hs : E.slope x x y y = (3 * x ^ 2 - 3) / (2 * y) := by
        rw [WeierstrassCurve.Affine.slope_of_Y_ne rfl (by rw [E_negY]; exact hne), E_negY]
        simp only [E, Yacl.Ecc.curve]
        rw [a_eq]
        exact slope_alg x y
      refine ⟨⟨?_, ?_, ?_⟩, ?_, ?_, ?_⟩
      · red
      · red
      · red
      · simp only []
        rw [d_dbl (by red), d_mul hY hZ, hy]
        exact mul_ne_zero t2 (mul_ne_zero (mul_ne_zero hy0 (pow_ne_zero _ hz)) hz)
      · rw [E_addX, hs]
        decode
        rw [← dbl_x x y j.Z.dec t2 hy0]
      · rw [E_addY, hs]
        decode
        refine dbl_y x y j.Z.dec _ _ _ _ t2 hy0 (by ring) (by ring) (by ring) ?_
        rw [← dbl_x x y j.Z.dec t2 hy0]

theorem neg_of_X_eq {x y1 y2 : ZMod Pm} (h1 : E.Nonsingular x y1) (h2 : E.Nonsingular x y2) (h : y1 ≠ y2) : y1 = -y2 := by
  have e1 := E_eqn h1
  have e2 := E_eqn h2
  have : (y1 - y2) * (y1 + y2) = 0 := by linear_combination e1 - e2
  rcases mul_eq_zero.1 this with h' | h'
  · exact absurd (sub_eq_zero.1 h') h
  · linear_combination h'

/-- C148: addition, whatever the two points (equal, opposite, the point at infinity). -/
theorem C148_point_add {j k : Jac} {Q R : E.Point} (h : RepJ j Q) (h' : RepJ k R) : RepJ (pointAdd j k) (Q + R) := by
  have hi := isInf_iff h
  have hi' := isInf_iff h'
  unfold pointAdd
  cases Q with
  | zero =>
    rw [if_pos (hi.2 rfl), ← WeierstrassCurve.Affine.Point.zero_def, zero_add]
    exact h'
  | some x₁ y₁ h₁ =>
    rw [if_neg (fun e => WeierstrassCurve.Affine.Point.some_ne_zero h₁ (hi.1 e))]
    cases R with
    | zero =>
      rw [if_pos (hi'.2 rfl), ← WeierstrassCurve.Affine.Point.zero_def, add_zero]
      exact h
    | some x₂ y₂ h₂ =>
      rw [if_neg (fun e => WeierstrassCurve.Affine.Point.some_ne_zero h₂ (hi'.1 e))]
      have hd := C148_double h
      obtain ⟨⟨hX, hY, hZ⟩, hz, hx, hy⟩ := h
      obtain ⟨⟨hX', hY', hZ'⟩, hz', hx', hy'⟩ := h'
      have t2 := two_ne'
      have eh : (fpSub (fpMul k.X (fpSqr j.Z)) (fpMul j.X (fpSqr k.Z))).dec = x₂ * k.Z.dec ^ 2 * j.Z.dec ^ 2 - x₁ * j.Z.dec ^ 2 * k.Z.dec ^ 2 := by
        simp (maxDischargeDepth := 60) only [hX, hY, hZ, hX', hY', hZ', hx, hx', r_mul, r_sqr, d_mul, d_sqr, d_sub]
      have es : (fpSub (fpMul (fpMul k.Y j.Z) (fpSqr j.Z)) (fpMul (fpMul j.Y k.Z) (fpSqr k.Z))).dec =
          y₂ * k.Z.dec ^ 3 * j.Z.dec * j.Z.dec ^ 2 - y₁ * j.Z.dec ^ 3 * k.Z.dec * k.Z.dec ^ 2 := by
        simp (maxDischargeDepth := 60) only [hX, hY, hZ, hX', hY', hZ', hy, hy', r_mul, r_sqr, d_mul, d_sqr, d_sub]
      have rh : (fpSub (fpMul k.X (fpSqr j.Z)) (fpMul j.X (fpSqr k.Z))).Red := by red
      have rs : (fpSub (fpMul (fpMul k.Y j.Z) (fpSqr j.Z)) (fpMul (fpMul j.Y k.Z) (fpSqr k.Z))).Red := by red
      have zh := z_iff rh
      have zs := z_iff rs
      rw [eh, h_alg hz hz'] at zh
      rw [es, s_alg hz hz'] at zs
      simp only []
      by_cases hxx : x₁ = x₂
      · rw [if_pos (zh.2 hxx)]
        subst hxx
        by_cases hyy : y₁ = y₂
        · rw [if_pos (zs.2 hyy)]
          subst hyy
          exact hd
        · rw [if_neg (fun e => hyy (zs.1 e))]
          rw [WeierstrassCurve.Affine.Point.add_of_Y_eq rfl (by rw [E_negY]; exact neg_of_X_eq h₁ h₂ hyy)]
          exact rep_inf
      · rw [if_neg (fun e => hxx (zh.1 e))]
        rw [WeierstrassCurve.Affine.Point.add_some (fun e => hxx e.1)]
        have hs : E.slope x₁ x₂ y₁ y₂ = (y₁ - y₂) / (x₁ - x₂) := WeierstrassCurve.Affine.slope_of_X_ne hxx
        have hne : x₂ * k.Z.dec ^ 2 * j.Z.dec ^ 2 - x₁ * j.Z.dec ^ 2 * k.Z.dec ^ 2 ≠ 0 := fun e => hxx ((h_alg hz hz').1 e)
        have ru : (fpMul j.X (fpSqr k.Z)).Red := by red
        have eu : (fpMul j.X (fpSqr k.Z)).dec = x₁ * j.Z.dec ^ 2 * k.Z.dec ^ 2 := by
          simp (maxDischargeDepth := 60) only [hX, hZ', hx, r_sqr, d_mul, d_sqr]
        have rs1 : (fpMul (fpMul j.Y k.Z) (fpSqr k.Z)).Red := by red
        have es1 : (fpMul (fpMul j.Y k.Z) (fpSqr k.Z)).dec = y₁ * j.Z.dec ^ 3 * k.Z.dec * k.Z.dec ^ 2 := by
          simp (maxDischargeDepth := 60) only [hY, hZ', hy, r_sqr, r_mul, d_mul, d_sqr]
        generalize fpSub (fpMul k.X (fpSqr j.Z)) (fpMul j.X (fpSqr k.Z)) = h at *
        generalize fpSub (fpMul (fpMul k.Y j.Z) (fpSqr j.Z)) (fpMul (fpMul j.Y k.Z) (fpSqr k.Z)) = sd at *
        generalize fpMul j.X (fpSqr k.Z) = u1 at *
        generalize fpMul (fpMul j.Y k.Z) (fpSqr k.Z) = s1 at *
        have eZ : (fpMul (fpSub (fpSub (fpSqr (fpAdd j.Z k.Z)) (fpSqr j.Z)) (fpSqr k.Z)) h).dec = 2 * (j.Z.dec * k.Z.dec) * h.dec := by
          simp (maxDischargeDepth := 60) only [hZ, hZ', rh, r_sqr, r_sub, r_add, d_sub, d_add, d_mul, d_sqr]
          ring
        have key := add_alg (x1 := x₁) (x2 := x₂) (y1 := y₁) (y2 := y₂) (w := j.Z.dec * k.Z.dec) (u1 := u1.dec) (s1 := s1.dec) (h := h.dec)
          (rr := 2 * sd.dec) (i := (2 * h.dec) ^ 2) (Z3 := 2 * (j.Z.dec * k.Z.dec) * h.dec) (l := (y₁ - y₂) / (x₁ - x₂))
          (X3 := (2 * sd.dec) ^ 2 - h.dec * (2 * h.dec) ^ 2 - 2 * (u1.dec * (2 * h.dec) ^ 2))
          (by rw [eu]; ring) (by rw [es1]; ring) (by rw [eh]; ring) (by rw [es]; ring) (by ring) rfl (slope_mul hxx) rfl
        refine ⟨⟨?_, ?_, ?_⟩, ?_, ?_, ?_⟩
        · red
        · red
        · red
        · simp only []
          rw [eZ, eh]
          exact mul_ne_zero (mul_ne_zero t2 (mul_ne_zero hz hz')) hne
        · rw [E_addX, hs]
          simp only []
          rw [eZ, ← key.1]
          simp (maxDischargeDepth := 60) only [rs, rh, ru, rs1, r_sqr, r_sub, r_add, r_dbl, r_mul, d_sub, d_add, d_mul, d_sqr, d_dbl]
        · rw [E_addY, hs]
          simp only []
          rw [eZ, ← key.2]
          simp (maxDischargeDepth := 60) only [rs, rh, ru, rs1, r_sqr, r_sub, r_add, r_dbl, r_mul, d_sub, d_add, d_mul, d_sqr, d_dbl]

theorem C148_negate {j : Jac} {Q : E.Point} (h : RepJ j Q) : RepJ (pointNegate j) (-Q) := by
  obtain ⟨⟨hX, hY, hZ⟩, hq⟩ := h
  refine ⟨⟨hX, r_neg hY, hZ⟩, ?_⟩
  cases Q with
  | zero => exact hq
  | some x y hh =>
    rw [WeierstrassCurve.Affine.Point.neg_some]
    refine ⟨hq.1, hq.2.1, ?_⟩
    simp only [pointNegate]
    rw [d_neg hY, hq.2.2, E_negY, neg_mul]

theorem C148_point_sub {j k : Jac} {Q R : E.Point} (h : RepJ j Q) (h' : RepJ k R) : RepJ (pointSub j k) (Q - R) := by
  rw [sub_eq_add_neg]; exact C148_point_add h (C148_negate h')

/-- C148: an affine point enters the Jacobian form as the same point. -/
theorem C148_lift {a : Aff} {Q : E.Point} (h : RepA a Q) : RepJ (affineToJacobian a) Q := by
  obtain ⟨⟨hx, hy⟩, hq⟩ := h
  simp only [affineToJacobian, Bool.and_eq_true, z_iff hx, z_iff hy]
  cases Q with
  | zero => rw [if_pos hq]; exact rep_inf
  | some x y hh =>
    rw [if_neg]
    · refine ⟨⟨hx, hy, red_one⟩, ?_, ?_, ?_⟩
      · simp only []; rw [dec_one]; exact one_ne_zero
      · simp only []; rw [dec_one, hq.1, one_pow, mul_one]
      · simp only []; rw [dec_one, hq.2, one_pow, mul_one]
    · rintro ⟨e1, e2⟩
      have := E_eqn hh
      rw [← hq.1, ← hq.2, e1, e2] at this
      apply b_ne'
      linear_combination -this

/-- C148: adding an affine point other than the point at infinity. -/
theorem C148_mixed {j : Jac} {a : Aff} {Q R : E.Point} (h : RepJ j Q) (h' : RepA a R) (hR : R ≠ 0) : RepJ (pointAddMixed j a) (Q + R) := by
  have hi := isInf_iff h
  unfold pointAddMixed
  cases Q with
  | zero =>
    rw [if_pos (hi.2 rfl), ← WeierstrassCurve.Affine.Point.zero_def, zero_add]
    exact C148_lift h'
  | some x₁ y₁ h₁ =>
    rw [if_neg (fun e => WeierstrassCurve.Affine.Point.some_ne_zero h₁ (hi.1 e))]
    cases R with
    | zero => exact absurd rfl hR
    | some x₂ y₂ h₂ =>
      have hd := C148_double h
      obtain ⟨⟨hX, hY, hZ⟩, hz, hx, hy⟩ := h
      obtain ⟨⟨hX', hY'⟩, hx', hy'⟩ := h'
      have t2 := two_ne'
      have eh : (fpSub (fpMul a.x (fpSqr j.Z)) j.X).dec = x₂ * 1 ^ 2 * j.Z.dec ^ 2 - x₁ * j.Z.dec ^ 2 * 1 ^ 2 := by
        simp (maxDischargeDepth := 60) only [hX, hY, hZ, hX', hY', hx, hx', r_mul, r_sqr, d_mul, d_sqr, d_sub, one_pow, mul_one]
      have es : (fpSub (fpMul (fpMul a.y j.Z) (fpSqr j.Z)) j.Y).dec =
          y₂ * 1 ^ 3 * j.Z.dec * j.Z.dec ^ 2 - y₁ * j.Z.dec ^ 3 * 1 * 1 ^ 2 := by
        simp (maxDischargeDepth := 60) only [hX, hY, hZ, hX', hY', hy, hy', r_mul, r_sqr, d_mul, d_sqr, d_sub, one_pow, mul_one]
      have rh : (fpSub (fpMul a.x (fpSqr j.Z)) j.X).Red := by red
      have rs : (fpSub (fpMul (fpMul a.y j.Z) (fpSqr j.Z)) j.Y).Red := by red
      have zh := z_iff rh
      have zs := z_iff rs
      rw [eh, h_alg hz one_ne_zero] at zh
      rw [es, s_alg hz one_ne_zero] at zs
      simp only []
      by_cases hxx : x₁ = x₂
      · rw [if_pos (zh.2 hxx)]
        subst hxx
        by_cases hyy : y₁ = y₂
        · rw [if_pos (zs.2 hyy)]
          subst hyy
          exact hd
        · rw [if_neg (fun e => hyy (zs.1 e))]
          rw [WeierstrassCurve.Affine.Point.add_of_Y_eq rfl (by rw [E_negY]; exact neg_of_X_eq h₁ h₂ hyy)]
          exact rep_inf
      · rw [if_neg (fun e => hxx (zh.1 e))]
        rw [WeierstrassCurve.Affine.Point.add_some (fun e => hxx e.1)]
        have hs : E.slope x₁ x₂ y₁ y₂ = (y₁ - y₂) / (x₁ - x₂) := WeierstrassCurve.Affine.slope_of_X_ne hxx
        have hne : x₂ * 1 ^ 2 * j.Z.dec ^ 2 - x₁ * j.Z.dec ^ 2 * 1 ^ 2 ≠ 0 := fun e => hxx ((h_alg hz one_ne_zero).1 e)
        generalize fpSub (fpMul a.x (fpSqr j.Z)) j.X = h at *
        generalize fpSub (fpMul (fpMul a.y j.Z) (fpSqr j.Z)) j.Y = sd at *
        have eZ : (fpSub (fpSub (fpSqr (fpAdd j.Z h)) (fpSqr j.Z)) (fpSqr h)).dec = 2 * j.Z.dec * h.dec := by
          simp (maxDischargeDepth := 60) only [hZ, rh, r_sqr, r_sub, r_add, d_sub, d_add, d_mul, d_sqr]
          ring
        have key := add_alg (x1 := x₁) (x2 := x₂) (y1 := y₁) (y2 := y₂) (w := j.Z.dec) (u1 := j.X.dec) (s1 := j.Y.dec) (h := h.dec)
          (rr := 2 * sd.dec) (i := 2 * (2 * h.dec ^ 2)) (Z3 := 2 * j.Z.dec * h.dec) (l := (y₁ - y₂) / (x₁ - x₂))
          (X3 := (2 * sd.dec) ^ 2 - h.dec * (2 * (2 * h.dec ^ 2)) - 2 * (j.X.dec * (2 * (2 * h.dec ^ 2))))
          hx hy (by rw [eh]; ring) (by rw [es]; ring) (by ring) rfl (slope_mul hxx) rfl
        refine ⟨⟨?_, ?_, ?_⟩, ?_, ?_, ?_⟩
        · red
        · red
        · red
        · simp only []
          rw [eZ, eh]
          exact mul_ne_zero (mul_ne_zero t2 hz) hne
        · rw [E_addX, hs]
          simp only []
          rw [eZ, ← key.1]
          simp (maxDischargeDepth := 60) only [rs, rh, hX, hY, r_sqr, r_sub, r_add, r_dbl, r_mul, d_sub, d_add, d_mul, d_sqr, d_dbl]
        · rw [E_addY, hs]
          simp only []
          rw [eZ, ← key.2]
          simp (maxDischargeDepth := 60) only [rs, rh, hX, hY, r_sqr, r_sub, r_add, r_dbl, r_mul, d_sub, d_add, d_mul, d_sqr, d_dbl]

/-- C148: the comparison of two points. -/
theorem C148_point_equal {j k : Jac} {Q R : E.Point} (h : RepJ j Q) (h' : RepJ k R) : pointEqual j k = true ↔ Q = R := by
  have hi := isInf_iff h
  have hi' := isInf_iff h'
  unfold pointEqual
  cases Q with
  | zero =>
    rw [hi.2 rfl]
    cases R with
    | zero => rw [hi'.2 rfl]; simp
    | some x₂ y₂ h₂ =>
      have : jIsInf k = false := by
        rw [Bool.eq_false_iff]; exact fun e => WeierstrassCurve.Affine.Point.some_ne_zero h₂ (hi'.1 e)
      rw [this]; simp
  | some x₁ y₁ h₁ =>
    have n1 : jIsInf j = false := by
      rw [Bool.eq_false_iff]; exact fun e => WeierstrassCurve.Affine.Point.some_ne_zero h₁ (hi.1 e)
    rw [n1]
    cases R with
    | zero => rw [hi'.2 rfl]; simp
    | some x₂ y₂ h₂ =>
      have n2 : jIsInf k = false := by
        rw [Bool.eq_false_iff]; exact fun e => WeierstrassCurve.Affine.Point.some_ne_zero h₂ (hi'.1 e)
      rw [n2]
      obtain ⟨⟨hX, hY, hZ⟩, hz, hx, hy⟩ := h
      obtain ⟨⟨hX', hY', hZ'⟩, hz', hx', hy'⟩ := h'
      have e1 := C148_equal (fpMul j.X (fpSqr k.Z)) (fpMul k.X (fpSqr j.Z)) (by red) (by red)
      have e2 := C148_equal (fpMul (fpMul j.Y k.Z) (fpSqr k.Z)) (fpMul (fpMul k.Y j.Z) (fpSqr j.Z)) (by red) (by red)
      simp (maxDischargeDepth := 60) only [hX, hZ, hX', hZ', hx, hx', r_sqr, d_mul, d_sqr] at e1
      simp (maxDischargeDepth := 60) only [hY, hZ, hY', hZ', hy, hy', r_sqr, r_mul, d_mul, d_sqr] at e2
      rw [@eq_comm (ZMod Pm), ← @sub_eq_zero (ZMod Pm), h_alg hz hz'] at e1
      rw [@eq_comm (ZMod Pm), ← @sub_eq_zero (ZMod Pm), s_alg hz hz'] at e2
      simp only [Bool.false_and, Bool.or_false, Bool.false_eq_true, if_false, Bool.not_eq_true', WeierstrassCurve.Affine.Point.some.injEq]
      by_cases hxx : x₁ = x₂
      · rw [e1.2 hxx]
        simp only [Bool.true_eq_false, if_false, hxx, true_and]
        exact e2
      · have : fpEqual (fpMul j.X (fpSqr k.Z)) (fpMul k.X (fpSqr j.Z)) = false := by
          rw [Bool.eq_false_iff]; exact fun e => hxx (e1.1 e)
        rw [this]
        simp [hxx]

/-- sm2_kernels.cu L70-77 `kSm2Generator`. -/
def generator : Aff := ⟨⟨0x715A4589334C74C7, 0x8FE30BBFF2660BE1, 0x5F9904466A39C994, 0x32C4AE2C1F198119⟩,
  ⟨0x02DF32E52139F0A0, 0xD0A9877CC62A4740, 0x59BDCEE36B692153, 0xBC3736A2F4F6779C⟩⟩

/-- C148: the generator of the GPU code is the generator of the CPU code, a point of prime order. -/
theorem C148_generator : ∃ G : E.Point, Yacl.Ecc.Represents Yacl.Ecc.sm2.G G ∧ addOrderOf G = Yacl.Ecc.Nsm2 ∧ G ≠ 0 ∧
    RepA ⟨fpToMont generator.x, fpToMont generator.y⟩ G := by
  obtain ⟨G, hG, ho, -⟩ := Yacl.Ecc.C96_sm2_order
  obtain ⟨r1, d1⟩ := C148_toMont generator.x (by unfold Fe.Wf; decide)
  obtain ⟨r2, d2⟩ := C148_toMont generator.y (by unfold Fe.Wf; decide)
  have hne : G ≠ 0 := by
    rintro rfl
    rw [addOrderOf_zero] at ho
    exact absurd ho (by decide)
  refine ⟨G, hG, ho, hne, ⟨r1, r2⟩, ?_⟩
  obtain ⟨-, -, hm⟩ := hG
  cases G with
  | zero => exact absurd rfl hne
  | some x y hh =>
    obtain ⟨hx, hy⟩ := hm
    refine ⟨?_, ?_⟩
    · rw [d1, ← hx, show Yacl.Ecc.sm2.G.x = ((generator.x.val : ℕ) : ℤ) from by decide +kernel, Int.cast_natCast]
    · rw [d2, ← hy, show Yacl.Ecc.sm2.G.y = ((generator.y.val : ℕ) : ℤ) from by decide +kernel, Int.cast_natCast]

/-- The theorems of this file on the generator: a sum of two different points, a double, an opposite. -/
example : ∃ (G : E.Point) (j k : Jac), RepJ j G ∧ RepJ k (G + G) ∧ G ≠ 0 ∧ RepJ (pointAdd j k) (G + (G + G)) ∧ RepJ (pointSub j j) 0 := by
  obtain ⟨G, -, -, hne, h⟩ := C148_generator
  have hj := C148_lift h
  exact ⟨G, _, _, hj, C148_double hj, hne, C148_point_add hj (C148_double hj), by rw [← sub_self G]; exact C148_point_sub hj hj⟩

end Yacl.Cuda
