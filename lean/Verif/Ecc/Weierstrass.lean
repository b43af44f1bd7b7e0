import Verif.Vss.Props
import Mathlib.AlgebraicGeometry.EllipticCurve.Affine.Point
import Mathlib.Tactic.FieldSimp
import Mathlib.Tactic.ByContra

/-! The affine Weierstrass group of yacl/crypto/ecc/toy/weierstrass.cc with the derived operations of
yacl/crypto/ecc/group_sketch.cc and the double-and-add of yacl/math/mpint/mp_int.h.  Property C96.

`MPInt` is `Int`; `MulMod`, `SubMod`, `InvertMod` are those of `Vss`; `%` is the least residue (C89).  `none` is an
exception. -/
namespace Yacl.Ecc
open Vss (subMod mulMod invertMod invertMod_cases mod_range cast_mod cast_sub cast_mul)

/-! ### Model -/

/-- ec_point.h `AffinePoint`; `==` compares both coordinates (ec_point.cc L19-21). -/
structure AffinePoint where
  x : Int
  y : Int
deriving DecidableEq, Repr

/-- toy/common.h `CurveParam` (without the cofactor). -/
structure Params where
  A : Int
  B : Int
  G : AffinePoint
  p : Int
  n : Int

/-- weierstrass.cc L19 `kInfPoint`. -/
def inf : AffinePoint := ⟨0, 0⟩

/-- weierstrass.cc L172-174 `IsInfinity`. -/
def isInfinity (P : AffinePoint) : Bool := P.x = 0 ∧ P.y = 0

/-- weierstrass.cc L27-62 `Add`. -/
def add (C : Params) (P Q : AffinePoint) : Option AffinePoint :=
  if isInfinity P then some Q
  else if isInfinity Q then some P
  else if P.x = Q.x ∧ P.y ≠ Q.y then some inf
  else do
    let l ← if P.x = Q.x then (invertMod (P.y * 2) C.p).map fun i => mulMod (P.x ^ 2 * 3 + C.A) i C.p
      else (invertMod (subMod Q.x P.x C.p) C.p).map fun i => mulMod (Q.y - P.y) i C.p
    let x3 := subMod (l ^ 2) (P.x + Q.x) C.p
    let y3 := subMod (l * (P.x - x3)) P.y C.p
    pure ⟨x3, y3⟩

/-- weierstrass.cc L96-102 `Negate`. -/
def negate (C : Params) (P : AffinePoint) : AffinePoint := if isInfinity P then P else ⟨P.x, C.p - P.y⟩

/-- mp_int.h L402-408: `c` bits of a digit that is not the last. -/
def powDigit {T : Type} (comb : T → T → Option T) : Nat → Nat → T → T → Option (T × T)
  | 0, _, r, s => some (r, s)
  | c + 1, e, r, s =>
    (if e % 2 = 1 then comb r s else some r).bind fun r =>
    (comb s s).bind fun s =>
    powDigit comb c (e / 2) r s

/-- mp_int.h L413-421: the bits of the last digit; the first argument bounds their number. -/
def powLast {T : Type} (comb : T → T → Option T) : Nat → Nat → T → T → Option T
  | 0, _, r, _ => some r
  | c + 1, e, r, s =>
    if e = 0 then some r
    else
      (if e % 2 = 1 then comb r s else some r).bind fun r =>
      (if e / 2 ≠ 0 then comb s s else some s).bind fun s =>
      powLast comb c (e / 2) r s

/-- mp_int.h L400-421: the loop over the 60-bit digits. -/
def powLoop {T : Type} (comb : T → T → Option T) : List Nat → T → T → Option T
  | [], r, _ => some r
  | [e], r, s => powLast comb 60 (e % 2 ^ 60) r s
  | e :: es, r, s => do
    let (r, s) ← powDigit comb 60 e r s
    powLoop comb es r s

/-- mp_int.h L389-423 `SlowCustomPow` for a scalar that is not negative. -/
def slowCustomPow {T : Type} (comb : T → T → Option T) (identity base : T) (k : Nat) : Option T :=
  if k = 0 then some identity else powLoop comb (Nat.digits (2 ^ 60) k) identity base

/-- weierstrass.cc L70-94 `Mul`. -/
def mul (C : Params) (P : AffinePoint) (k : Int) : Option AffinePoint :=
  if isInfinity P then some inf
  else if k % C.n = 0 then some inf
  else (slowCustomPow (add C) inf P k.natAbs).map fun r => if k < 0 then negate C r else r

/-- weierstrass.cc L161-166 `IsInCurveGroup`. -/
def isInCurveGroup (C : Params) (P : AffinePoint) : Bool :=
  isInfinity P || decide ((P.y ^ 2 - P.x ^ 3 - C.A * P.x - C.B) % C.p = 0)

/-- group_sketch.cc L23-25 `Sub`. -/
def sub (C : Params) (P Q : AffinePoint) : Option AffinePoint := add C P (negate C Q)
/-- group_sketch.cc L31 `Double`. -/
def double (C : Params) (P : AffinePoint) : Option AffinePoint := mul C P 2
/-- group_sketch.cc L35-37 `MulBase`. -/
def mulBase (C : Params) (k : Int) : Option AffinePoint := mul C C.G k
/-- group_sketch.cc L43-46 `MulDoubleBase`. -/
def mulDoubleBase (C : Params) (s1 s2 : Int) (P : AffinePoint) : Option AffinePoint := do
  let a ← mulBase C s1
  let b ← mul C P s2
  add C a b
/-- group_sketch.cc L48-57 `Div`. -/
def div (C : Params) (P : AffinePoint) (k : Int) : Option AffinePoint :=
  if k = 0 then none
  else if 0 < k then (invertMod k C.n).bind fun i => mul C P i
  else (invertMod (-k) C.n).bind fun i => (mul C P i).map (negate C)

/-! ### Specification -/

/-- `y² = x³ + A x + B` over the integers modulo `p`. -/
def curve (p : ℕ) (A B : Int) : WeierstrassCurve.Affine (ZMod p) := ⟨0, 0, 0, (A : ZMod p), (B : ZMod p)⟩

/-- `P` is the representation of the point `Q` of the curve: reduced coordinates, and (0, 0) for the point at infinity. -/
def Represents {p : ℕ} {A B : Int} (P : AffinePoint) (Q : (curve p A B).Point) : Prop :=
  (0 ≤ P.x ∧ P.x < p) ∧ (0 ≤ P.y ∧ P.y < p) ∧
  match Q with
  | .zero => P = ⟨0, 0⟩
  | .some x y _ => (P.x : ZMod p) = x ∧ (P.y : ZMod p) = y

/-- A supported configuration: a prime, an elliptic curve that does not contain (0, 0). -/
structure Valid (C : Params) (p : ℕ) : Prop where
  hp : C.p = p
  elliptic : (curve p C.A C.B).Δ ≠ 0
  b_ne : (C.B : ZMod p) ≠ 0

/-! ### Double and add -/

section Pow
variable {T M : Type} [AddCommMonoid M]

/-- The outcome `o` represents `x`; `N` tells whether an exception is allowed. -/
def Good (Rep : T → M → Prop) (N : Prop) : Option T → M → Prop
  | some a, x => Rep a x
  | none, _ => N

variable {Rep : T → M → Prop} {N : Prop} {comb : T → T → Option T}

theorem good_bind {U : Type} {o : Option T} {x : M} (f : T → Option U) {R : Option U → Prop} (h : Good Rep N o x)
    (h0 : N → R none) (h1 : ∀ a, Rep a x → R (f a)) : R (o.bind f) := by
  cases o with
  | none => exact h0 h
  | some a => exact h1 a h

theorem powDigit_good (hc : ∀ a b x y, Rep a x → Rep b y → Good Rep N (comb a b) (x + y)) (c : Nat) :
    ∀ (e : Nat) (r s : T) (x y : M), Rep r x → Rep s y →
      match powDigit comb c e r s with
      | some (r', s') => Rep r' (x + (e % 2 ^ c) • y) ∧ Rep s' ((2 ^ c) • y)
      | none => N := by
  induction c with
  | zero => intro e r s x y hr hs; simpa [powDigit, Nat.mod_one] using ⟨hr, hs⟩
  | succ c ih =>
    intro e r s x y hr hs
    simp only [powDigit]
    have h1 : Good Rep N (if e % 2 = 1 then comb r s else some r) (x + (e % 2) • y) := by
      split
      · rename_i h; rw [h, one_smul]; exact hc _ _ _ _ hr hs
      · rename_i h; rw [show e % 2 = 0 by omega, zero_smul, add_zero]; exact hr
    refine good_bind (R := fun o => match o with
      | some (r', s') => Rep r' (x + (e % 2 ^ (c + 1)) • y) ∧ Rep s' ((2 ^ (c + 1)) • y)
      | none => N) _ h1 id fun r1 hr1 => ?_
    refine good_bind (R := fun o => match o with
      | some (r', s') => Rep r' (x + (e % 2 ^ (c + 1)) • y) ∧ Rep s' ((2 ^ (c + 1)) • y)
      | none => N) _ (hc _ _ _ _ hs hs) id fun s1 hs1 => ?_
    have h := ih (e / 2) r1 s1 _ _ hr1 hs1
    revert h
    cases powDigit comb c (e / 2) r1 s1 with
    | none => exact id
    | some rs =>
      obtain ⟨r2, s2⟩ := rs
      simp only []
      rintro ⟨ha, hb⟩
      have e1 : e % 2 ^ (c + 1) = e % 2 + (e / 2 % 2 ^ c) * 2 := by
        rw [pow_succ', Nat.mod_mul, mul_comm]
      refine ⟨?_, ?_⟩
      · rw [e1, add_smul, ← add_assoc, mul_smul, two_smul]; exact ha
      · rw [pow_succ, mul_smul, two_smul]; exact hb

theorem powLast_good (hc : ∀ a b x y, Rep a x → Rep b y → Good Rep N (comb a b) (x + y)) (c : Nat) :
    ∀ (e : Nat) (r s : T) (x y : M), e < 2 ^ c → Rep r x → Rep s y → Good Rep N (powLast comb c e r s) (x + e • y) := by
  induction c with
  | zero =>
    intro e r s x y he hr hs
    have : e = 0 := by simpa using he
    subst this
    simpa [powLast, Good] using hr
  | succ c ih =>
    intro e r s x y he hr hs
    simp only [powLast]
    split
    · rename_i h; subst h; simpa [Good] using hr
    · have h1 : Good Rep N (if e % 2 = 1 then comb r s else some r) (x + (e % 2) • y) := by
        split
        · rename_i h; rw [h, one_smul]; exact hc _ _ _ _ hr hs
        · rename_i h; rw [show e % 2 = 0 by omega, zero_smul, add_zero]; exact hr
      refine good_bind (R := fun o => Good Rep N o (x + e • y)) _ h1 id fun r1 hr1 => ?_
      have e1 : x + e • y = x + (e % 2) • y + (e / 2) • (y + y) := by
        conv_lhs => rw [← Nat.mod_add_div e 2]
        rw [add_smul, mul_comm, mul_smul, two_smul, add_assoc]
      by_cases h2 : e / 2 ≠ 0
      · rw [if_pos h2]
        refine good_bind (R := fun o => Good Rep N o (x + e • y)) _ (hc _ _ _ _ hs hs) id fun s1 hs1 => ?_
        rw [e1]
        exact ih _ _ _ _ _ (by omega) hr1 hs1
      · rw [if_neg h2]
        push Not at h2
        have h3 := ih (e / 2) r1 s _ _ (by omega) hr1 hs
        rw [h2, zero_smul, add_zero] at h3
        rw [e1, h2, zero_smul, add_zero]
        simpa [h2] using h3

theorem powLoop_good (hc : ∀ a b x y, Rep a x → Rep b y → Good Rep N (comb a b) (x + y)) (es : List Nat) :
    ∀ (r s : T) (x y : M), (∀ e ∈ es, e < 2 ^ 60) → Rep r x → Rep s y →
      Good Rep N (powLoop comb es r s) (x + Nat.ofDigits (2 ^ 60) es • y) := by
  induction es with
  | nil => intro r s x y _ hr _; simpa [powLoop, Good] using hr
  | cons e es ih =>
    intro r s x y hd hr hs
    have he : e < 2 ^ 60 := hd e List.mem_cons_self
    cases es with
    | nil =>
      simp only [powLoop]
      rw [Nat.mod_eq_of_lt he, Nat.ofDigits_singleton]
      exact powLast_good hc 60 e r s x y he hr hs
    | cons e' es =>
      simp only [powLoop]
      have h := powDigit_good hc 60 e r s x y hr hs
      revert h
      cases powDigit comb 60 e r s with
      | none => exact id
      | some rs =>
        obtain ⟨r1, s1⟩ := rs
        simp only []
        rintro ⟨h1, h2⟩
        have h3 := ih r1 s1 _ _ (fun d hd' => hd d (List.mem_cons_of_mem _ hd')) h1 h2
        rw [Nat.mod_eq_of_lt he] at h3
        rw [Nat.ofDigits_cons, add_smul, ← add_assoc, mul_comm, mul_smul]
        exact h3

theorem slowCustomPow_good (hc : ∀ a b x y, Rep a x → Rep b y → Good Rep N (comb a b) (x + y)) {identity base : T} {y : M}
    (h0 : Rep identity 0) (hb : Rep base y) (k : Nat) : Good Rep N (slowCustomPow comb identity base k) (k • y) := by
  unfold slowCustomPow
  split
  · rename_i h; subst h; simpa [Good] using h0
  · have := powLoop_good hc (Nat.digits (2 ^ 60) k) identity base 0 y
      (fun e he => Nat.digits_lt_base (by norm_num) he) h0 hb
    rwa [Nat.ofDigits_digits, zero_add] at this

end Pow

/-! ### The group law -/

section Law
variable {p : ℕ} [Fact p.Prime] {C : Params}

theorem eqn {A B : Int} {x y : ZMod p} (h : (curve p A B).Nonsingular x y) : y ^ 2 = x ^ 3 + A * x + B := by
  have := (WeierstrassCurve.Affine.equation_iff _ _).1 h.1
  simpa [curve] using this

theorem rep_inj_cast {a b : Int} (ha : 0 ≤ a ∧ a < p) (hb : 0 ≤ b ∧ b < p) : (a : ZMod p) = b ↔ a = b := by
  refine ⟨fun h => ?_, fun h => by rw [h]⟩
  rw [ZMod.intCast_eq_intCast_iff] at h
  have := h.eq
  rwa [Int.emod_eq_of_lt ha.1 ha.2, Int.emod_eq_of_lt hb.1 hb.2] at this

theorem not_inf (hC : Valid C p) {P : AffinePoint} {x y : ZMod p} {h : (curve p C.A C.B).Nonsingular x y}
    (hP : Represents P (.some x y h)) : isInfinity P = false := by
  obtain ⟨-, -, hx, hy⟩ := hP
  by_contra hne
  simp only [isInfinity, Bool.decide_and, Bool.not_eq_false, Bool.and_eq_true, decide_eq_true_eq] at hne
  rw [hne.1, Int.cast_zero] at hx
  rw [hne.2, Int.cast_zero] at hy
  have := eqn h
  rw [← hx, ← hy] at this
  apply hC.b_ne
  simpa using this.symm

theorem negY_eq {A B : Int} (x y : ZMod p) : (curve p A B).negY x y = -y := by
  simp [WeierstrassCurve.Affine.negY, curve]

theorem addX_eq {A B : Int} (x₁ x₂ l : ZMod p) : (curve p A B).addX x₁ x₂ l = l ^ 2 - (x₁ + x₂) := by
  simp [WeierstrassCurve.Affine.addX, curve]; ring

theorem addY_eq {A B : Int} (x₁ x₂ y₁ l : ZMod p) :
    (curve p A B).addY x₁ x₂ y₁ l = l * (x₁ - (l ^ 2 - (x₁ + x₂))) - y₁ := by
  rw [WeierstrassCurve.Affine.addY, WeierstrassCurve.Affine.negAddY, negY_eq, addX_eq]; ring

theorem cast_sub' (a b : Int) : ((subMod a b (p : Int) : Int) : ZMod p) = a - b := by
  unfold subMod; rw [cast_mod]; push_cast; rfl

theorem cast_mul' (a b : Int) : ((mulMod a b (p : Int) : Int) : ZMod p) = a * b := by
  unfold mulMod; rw [cast_mod]; push_cast; rfl

theorem two_ne (hC : Valid C p) : (2 : ZMod p) ≠ 0 := by
  intro h
  apply hC.elliptic
  simp only [WeierstrassCurve.Δ, WeierstrassCurve.b₂, WeierstrassCurve.b₄, WeierstrassCurve.b₆, WeierstrassCurve.b₈, curve]
  linear_combination (-(32 * (C.A : ZMod p) ^ 3) - 216 * (C.B : ZMod p) ^ 2) * h

/-- The result of the last three lines of `Add`. -/
theorem finish (hC : Valid C p) {P Q : AffinePoint} {x₁ x₂ y₁ y₂ : ZMod p}
    {h₁ : (curve p C.A C.B).Nonsingular x₁ y₁} {h₂ : (curve p C.A C.B).Nonsingular x₂ y₂}
    (hP : Represents P (.some x₁ y₁ h₁)) (hQ : Represents Q (.some x₂ y₂ h₂)) (hxy : ¬(x₁ = x₂ ∧ y₁ = -y₂)) (l : Int)
    (hl : (l : ZMod p) = (curve p C.A C.B).slope x₁ x₂ y₁ y₂) :
    Represents (A := C.A) (B := C.B)
      ⟨subMod (l ^ 2) (P.x + Q.x) C.p, subMod (l * (P.x - subMod (l ^ 2) (P.x + Q.x) C.p)) P.y C.p⟩
      (WeierstrassCurve.Affine.Point.some x₁ y₁ h₁ + .some x₂ y₂ h₂) := by
  obtain ⟨-, -, hx, hy⟩ := hP
  obtain ⟨-, -, hx', hy'⟩ := hQ
  rw [WeierstrassCurve.Affine.Point.add_some (by rwa [negY_eq])]
  rw [hC.hp]
  refine ⟨mod_range _, mod_range _, ?_, ?_⟩
  · simp only []
    rw [cast_sub', addX_eq, ← hl]
    push_cast
    rw [hx, hx']
  · simp only []
    rw [cast_sub', addY_eq, ← hl]
    push_cast
    rw [cast_sub']
    push_cast
    rw [hx, hx', hy]

/-- C96: addition is the group law of the curve.  It throws exactly when a point of order two is doubled (where the sum is
the point at infinity). -/
theorem C96_add (hC : Valid C p) {P Q : AffinePoint} {P' Q' : (curve p C.A C.B).Point}
    (hP : Represents P P') (hQ : Represents Q Q') :
    (P' = Q' ∧ P' ≠ 0 ∧ P' + P' = 0 ∧ add C P Q = none) ∨
    (¬ (P' = Q' ∧ P' ≠ 0 ∧ P' + P' = 0) ∧ ∃ R, add C P Q = some R ∧ Represents R (P' + Q')) := by
  cases P' with
  | zero =>
    right
    have hP0 : P = ⟨0, 0⟩ := hP.2.2
    refine ⟨fun h => h.2.1 rfl, Q, ?_, ?_⟩
    · subst hP0; simp [add, isInfinity]
    · rw [← WeierstrassCurve.Affine.Point.zero_def, zero_add]; exact hQ
  | some x₁ y₁ h₁ =>
    have hi := not_inf hC hP
    cases Q' with
    | zero =>
      right
      have hQ0 : Q = ⟨0, 0⟩ := hQ.2.2
      refine ⟨fun h => (WeierstrassCurve.Affine.Point.some_ne_zero h₁) h.1, P, ?_, ?_⟩
      · unfold add
        rw [hi]
        subst hQ0
        simp [isInfinity]
      · rw [← WeierstrassCurve.Affine.Point.zero_def, add_zero]; exact hP
    | some x₂ y₂ h₂ =>
      have hi' := not_inf hC hQ
      have hx : P.x = Q.x ↔ x₁ = x₂ := by
        rw [← rep_inj_cast hP.1 hQ.1, hP.2.2.1, hQ.2.2.1]
      have hy : P.y = Q.y ↔ y₁ = y₂ := by
        rw [← rep_inj_cast hP.2.1 hQ.2.1, hP.2.2.2, hQ.2.2.2]
      have e1 := eqn h₁
      have e2 := eqn h₂
      unfold add
      rw [hi, hi']
      simp only [Bool.false_eq_true, if_false]
      have h2 := two_ne hC
      by_cases hxx : x₁ = x₂
      · have hPx : P.x = Q.x := hx.2 hxx
        by_cases hyy : y₁ = y₂
        · have hPy : P.y = Q.y := hy.2 hyy
          subst hxx hyy
          rw [if_neg (fun h => h.2 hPy), if_pos hPx]
          have hcast : ((P.y * 2 : Int) : ZMod p) = 2 * y₁ := by push_cast; rw [hP.2.2.2]; ring
          by_cases hy0 : y₁ = 0
          · left
            refine ⟨rfl, WeierstrassCurve.Affine.Point.some_ne_zero h₁, ?_, ?_⟩
            · exact WeierstrassCurve.Affine.Point.add_self_of_Y_eq (by rw [negY_eq, hy0, neg_zero])
            · rcases invertMod_cases (p := p) (P.y * 2) with ⟨_, h⟩ | ⟨h, _⟩
              · rw [hC.hp, h]; rfl
              · exact absurd (by rw [hcast, hy0, mul_zero]) h
          · right
            have hne : ¬ (x₁ = x₁ ∧ y₁ = -y₁) := by
              rintro ⟨-, h⟩
              apply hy0
              have : 2 * y₁ = 0 := by linear_combination h
              exact (mul_eq_zero.1 this).resolve_left h2
            refine ⟨?_, ?_⟩
            · rintro ⟨-, -, h⟩
              rw [WeierstrassCurve.Affine.Point.add_some (by rwa [negY_eq])] at h
              exact WeierstrassCurve.Affine.Point.some_ne_zero _ h
            · rcases invertMod_cases (p := p) (P.y * 2) with ⟨h, _⟩ | ⟨_, i, hi1, hi2⟩
              · exact absurd ((mul_eq_zero.1 (hcast ▸ h)).resolve_left h2) hy0
              · refine ⟨_, ?_, finish hC hP hQ hne (mulMod (P.x ^ 2 * 3 + C.A) i C.p) ?_⟩
                · rw [hC.hp, hi1]; rfl
                · rw [hC.hp, cast_mul', hi2, hcast]
                  rw [WeierstrassCurve.Affine.slope_of_Y_ne rfl (by rw [negY_eq]; exact fun h => hne ⟨rfl, h⟩), negY_eq]
                  simp only [curve]
                  push_cast
                  rw [hP.2.2.1, div_eq_mul_inv]
                  congr 1
                  · ring
                  · rw [show y₁ - -y₁ = 2 * y₁ by ring]
        · right
          have hPy : P.y ≠ Q.y := fun h => hyy (hy.1 h)
          rw [if_pos ⟨hPx, hPy⟩]
          refine ⟨fun h => hyy (by have := h.1; injection this), inf, rfl, ?_⟩
          have hneg : y₁ = -y₂ := by
            have : (y₁ - y₂) * (y₁ + y₂) = 0 := by
              rw [hxx] at e1
              linear_combination e1 - e2
            rcases mul_eq_zero.1 this with h | h
            · exact absurd (sub_eq_zero.1 h) hyy
            · linear_combination h
          rw [WeierstrassCurve.Affine.Point.add_of_Y_eq hxx (by rw [negY_eq, hneg])]
          have hp0 : (0 : Int) < p := by exact_mod_cast (Fact.out : p.Prime).pos
          exact ⟨⟨le_refl _, hp0⟩, ⟨le_refl _, hp0⟩, rfl⟩
      · right
        have hPx : P.x ≠ Q.x := fun h => hxx (hx.1 h)
        rw [if_neg (fun h => hPx h.1), if_neg hPx]
        refine ⟨fun h => hxx (by have := h.1; injection this), ?_⟩
        have hcast : ((subMod Q.x P.x p : Int) : ZMod p) = x₂ - x₁ := by
          rw [cast_sub', hP.2.2.1, hQ.2.2.1]
        rcases invertMod_cases (p := p) (subMod Q.x P.x p) with ⟨h, _⟩ | ⟨_, i, hi1, hi2⟩
        · rw [hcast] at h
          exact absurd (sub_eq_zero.1 h).symm hxx
        · refine ⟨_, ?_, finish hC hP hQ (fun h => hxx h.1) (mulMod (Q.y - P.y) i C.p) ?_⟩
          · rw [hC.hp, hi1]; rfl
          · rw [hC.hp, cast_mul', hi2, hcast, WeierstrassCurve.Affine.slope_of_X_ne hxx]
            push_cast
            rw [hP.2.2.2, hQ.2.2.2]
            have n1 : x₁ - x₂ ≠ 0 := sub_ne_zero.2 hxx
            have n2 : x₂ - x₁ ≠ 0 := sub_ne_zero.2 (Ne.symm hxx)
            field_simp
            ring

/-- C96: the points that pass `IsInCurveGroup` with reduced coordinates are exactly the representations of points of the
curve. -/
theorem C96_membership (hC : Valid C p) (P : AffinePoint) (hx : 0 ≤ P.x ∧ P.x < p) (hy : 0 ≤ P.y ∧ P.y < p) :
    isInCurveGroup C P = true ↔ ∃ P' : (curve p C.A C.B).Point, Represents P P' := by
  unfold isInCurveGroup
  rw [Bool.or_eq_true, decide_eq_true_eq]
  have hcast : ((P.y ^ 2 - P.x ^ 3 - C.A * P.x - C.B) % C.p = 0) ↔
      (P.y : ZMod p) ^ 2 = (P.x : ZMod p) ^ 3 + C.A * P.x + C.B := by
    rw [hC.hp, ← Int.dvd_iff_emod_eq_zero, ← ZMod.intCast_zmod_eq_zero_iff_dvd]
    push_cast
    constructor <;> intro h <;> linear_combination h
  constructor
  · rintro (h | h)
    · simp only [isInfinity, Bool.decide_and, Bool.and_eq_true, decide_eq_true_eq] at h
      refine ⟨.zero, hx, hy, ?_⟩
      cases P; simp only [] at h; simp [h.1, h.2]
    · have h := hcast.1 h
      have he : (curve p C.A C.B).Equation (P.x : ZMod p) P.y := by
        rw [WeierstrassCurve.Affine.equation_iff]
        simpa [curve] using h
      exact ⟨.some _ _ ((WeierstrassCurve.Affine.equation_iff_nonsingular_of_Δ_ne_zero hC.elliptic).1 he),
        hx, hy, rfl, rfl⟩
  · rintro ⟨P', hP⟩
    cases P' with
    | zero => left; have : P = ⟨0, 0⟩ := hP.2.2; subst this; decide
    | some x y h =>
      right
      rw [hcast, hP.2.2.1, hP.2.2.2]
      exact eqn h

/-- C96: equality of representations is equality of points. -/
theorem C96_equal (hC : Valid C p) {P Q : AffinePoint} {P' Q' : (curve p C.A C.B).Point}
    (hP : Represents P P') (hQ : Represents Q Q') : P = Q ↔ P' = Q' := by
  constructor
  · rintro rfl
    cases P' with
    | zero =>
      cases Q' with
      | zero => rfl
      | some x y h =>
        have := not_inf hC hQ
        have h0 : P = ⟨0, 0⟩ := hP.2.2
        subst h0; simp [isInfinity] at this
    | some x y h =>
      cases Q' with
      | zero =>
        have := not_inf hC hP
        have h0 : P = ⟨0, 0⟩ := hQ.2.2
        subst h0; simp [isInfinity] at this
      | some x' y' h' =>
        obtain ⟨-, -, rfl, rfl⟩ := hP
        obtain ⟨-, -, rfl, rfl⟩ := hQ
        rfl
  · rintro rfl
    cases P' with
    | zero => exact (show P = ⟨0, 0⟩ from hP.2.2).trans (show Q = ⟨0, 0⟩ from hQ.2.2).symm
    | some x y h =>
      have h1 := (rep_inj_cast hP.1 hQ.1).1 (hP.2.2.1.trans hQ.2.2.1.symm)
      have h2 := (rep_inj_cast hP.2.1 hQ.2.1).1 (hP.2.2.2.trans hQ.2.2.2.symm)
      cases P; cases Q; simp_all

/-- C96: negation is the inverse, for every point that is not of order two. -/
theorem C96_negate (hC : Valid C p) {P : AffinePoint} {P' : (curve p C.A C.B).Point} (hP : Represents P P')
    (ht : P' + P' = 0 → P' = 0) : Represents (negate C P) (-P') := by
  cases P' with
  | zero =>
    have h0 : P = ⟨0, 0⟩ := hP.2.2
    subst h0
    exact hP
  | some x y h =>
    unfold negate
    rw [not_inf hC hP, WeierstrassCurve.Affine.Point.neg_some]
    simp only [Bool.false_eq_true, if_false, negY_eq]
    have hy0 : P.y ≠ 0 := by
      intro h0
      have hy : y = 0 := by rw [← hP.2.2.2, h0]; simp
      exact WeierstrassCurve.Affine.Point.some_ne_zero h
        (ht (WeierstrassCurve.Affine.Point.add_self_of_Y_eq (by rw [negY_eq, hy, neg_zero])))
    have h1 := hP.2.1.1
    have h2 := hP.2.1.2
    refine ⟨hP.1, ⟨?_, ?_⟩, hP.2.2.1, ?_⟩
    · simp only [hC.hp]; omega
    · simp only [hC.hp]; omega
    · simp only [hC.hp]
      push_cast
      rw [hP.2.2.2, ZMod.natCast_self, zero_sub]

/-- C96: the negation of a point of order two is not a reduced point: its second coordinate is the modulus itself, and the
result compares unequal to the point it equals. -/
theorem C96_negate_violated (hC : Valid C p) {P : AffinePoint} {P' : (curve p C.A C.B).Point} (hP : Represents P P')
    (h0 : P' ≠ 0) (ht : P' + P' = 0) : negate C P = ⟨P.x, p⟩ ∧ ¬ Represents (negate C P) (-P') ∧ negate C P ≠ P := by
  cases P' with
  | zero => exact absurd rfl h0
  | some x y h =>
    have hy : P.y = 0 := by
      by_contra hne
      have hy : y ≠ 0 := by
        intro h0
        apply hne
        refine (rep_inj_cast hP.2.1 (b := 0) ?_).1 (by rw [hP.2.2.2, h0]; simp)
        exact ⟨le_refl _, by exact_mod_cast (Fact.out : p.Prime).pos⟩
      have hne2 : y ≠ -y := by
        intro hh
        have : 2 * y = 0 := by linear_combination hh
        exact hy ((mul_eq_zero.1 this).resolve_left (two_ne hC))
      rw [WeierstrassCurve.Affine.Point.add_some (by rw [negY_eq]; exact fun hh => hne2 hh.2)] at ht
      exact WeierstrassCurve.Affine.Point.some_ne_zero _ ht
    have he : negate C P = ⟨P.x, p⟩ := by
      unfold negate
      rw [not_inf hC hP, hy, hC.hp]
      simp
    refine ⟨he, ?_, ?_⟩
    · rw [he]
      intro hr
      have := hr.2.1.2
      simp at this
    · rw [he]
      intro hh
      have := congrArg AffinePoint.y hh
      simp only [hy] at this
      have hpp : (0 : Int) < p := by exact_mod_cast (Fact.out : p.Prime).pos
      omega

theorem rep_inf {A B : Int} : Represents (p := p) (A := A) (B := B) inf 0 := by
  have hp0 : (0 : Int) < p := by exact_mod_cast (Fact.out : p.Prime).pos
  exact ⟨⟨le_refl _, hp0⟩, ⟨le_refl _, hp0⟩, rfl⟩

theorem isInf_iff (hC : Valid C p) {P : AffinePoint} {P' : (curve p C.A C.B).Point} (hP : Represents P P') :
    isInfinity P = true ↔ P' = 0 := by
  cases P' with
  | zero => have h0 : P = ⟨0, 0⟩ := hP.2.2; subst h0; simp [isInfinity]; rfl
  | some x y h => rw [not_inf hC hP]; simp

/-- Points killed by an odd number are not of order two. -/
theorem no_two {G : Type*} [AddCommGroup G] {n : Int} (ho : Odd n) {Q : G} (hn : n • Q = 0) (h : Q + Q = 0) : Q = 0 := by
  obtain ⟨m, hm⟩ := ho
  rw [hm, add_zsmul, one_zsmul, mul_comm, mul_zsmul, two_zsmul, h, zsmul_zero, zero_add] at hn
  exact hn

/-- Double and add on the curve: the multiple, unless an exception is thrown. -/
theorem pow_good (hC : Valid C p) {P : AffinePoint} {P' : (curve p C.A C.B).Point} (N : Prop)
    (hN : N ∨ (Odd C.n ∧ C.n • P' = 0)) (hP : Represents P P') (k : Nat) :
    Good Represents N (slowCustomPow (add C) inf P k) (k • P') := by
  have h := slowCustomPow_good (N := N) (comb := add C)
    (Rep := fun a (x : (curve p C.A C.B).Point) => Represents a x ∧ ((Odd C.n ∧ C.n • P' = 0) → C.n • x = 0))
    (fun a b x y ha hb => ?_) (identity := inf) (base := P) (y := P') ⟨rep_inf, fun _ => zsmul_zero _⟩ ⟨hP, fun h => h.2⟩ k
  · revert h
    cases slowCustomPow (add C) inf P k with
    | none => exact id
    | some R => exact fun h => h.1
  · rcases C96_add hC ha.1 hb.1 with ⟨h1, h2, h3, h4⟩ | ⟨-, R, h1, h2⟩
    · rw [h4]
      rcases hN with h | h
      · exact h
      · exact absurd (no_two h.1 (ha.2 h) h3) h2
    · rw [h1]
      exact ⟨h2, fun h => by rw [zsmul_add, ha.2 h, hb.2 h, add_zero]⟩

/-- C96: scalar multiplication is the multiple of the point, for every integer scalar and every point killed by the
order `n` of the group, which is odd (every prime order group). -/
theorem C96_mul (hC : Valid C p) (ho : Odd C.n) {P : AffinePoint} {P' : (curve p C.A C.B).Point}
    (hn : C.n • P' = 0) (hP : Represents P P') (k : Int) :
    ∃ R, mul C P k = some R ∧ Represents R (k • P') := by
  unfold mul
  by_cases hi : isInfinity P = true
  · rw [if_pos hi, (isInf_iff hC hP).1 hi, zsmul_zero]
    exact ⟨inf, rfl, rep_inf⟩
  · rw [if_neg hi]
    by_cases hk : k % C.n = 0
    · rw [if_pos hk]
      refine ⟨inf, rfl, ?_⟩
      obtain ⟨m, hm⟩ := Int.dvd_iff_emod_eq_zero.2 hk
      rw [hm, mul_comm, mul_smul, hn, zsmul_zero]
      exact rep_inf
    · rw [if_neg hk]
      have h := pow_good hC False (Or.inr ⟨ho, hn⟩) hP k.natAbs
      revert h
      cases slowCustomPow (add C) inf P k.natAbs with
      | none => exact False.elim
      | some R =>
        intro (h : Represents R _)
        refine ⟨_, rfl, ?_⟩
        have hnk : C.n • (k.natAbs • P') = 0 := by
          rw [← natCast_zsmul, ← mul_zsmul, mul_comm, mul_zsmul, hn, zsmul_zero]
        split
        · rename_i hneg
          have := C96_negate hC h (no_two ho hnk)
          rwa [← natCast_zsmul, ← neg_smul, show -((k.natAbs : ℕ) : Int) = k by omega] at this
        · rename_i hpos
          rwa [← natCast_zsmul, show ((k.natAbs : ℕ) : Int) = k by omega] at h

/-- C96: on any curve, a scalar multiplication by a non-negative scalar that returns gives the multiple, if the order of
the point divides `n`. -/
theorem C96_mul_some (hC : Valid C p) {P : AffinePoint} {P' : (curve p C.A C.B).Point} (hP : Represents P P')
    (hn : C.n • P' = 0) (k : Int) (hk : 0 ≤ k) {R : AffinePoint} (hR : mul C P k = some R) :
    Represents R (k • P') := by
  unfold mul at hR
  by_cases hi : isInfinity P = true
  · rw [if_pos hi] at hR
    rw [(isInf_iff hC hP).1 hi, zsmul_zero, ← Option.some.inj hR]
    exact rep_inf
  · rw [if_neg hi] at hR
    by_cases hkn : k % C.n = 0
    · rw [if_pos hkn] at hR
      obtain ⟨m, hm⟩ := Int.dvd_iff_emod_eq_zero.2 hkn
      rw [hm, mul_comm, mul_smul, hn, zsmul_zero, ← Option.some.inj hR]
      exact rep_inf
    · rw [if_neg hkn] at hR
      have h := pow_good hC True (Or.inl trivial) hP k.natAbs
      rw [Option.map_eq_some_iff] at hR
      obtain ⟨r, hr, hR⟩ := hR
      rw [hr] at h
      rw [if_neg (by omega)] at hR
      subst hR
      have h : Represents r (k.natAbs • P') := h
      rwa [← natCast_zsmul, show ((k.natAbs : ℕ) : Int) = k by omega] at h

/-- C96: addition, subtraction, doubling and the double base multiplication are those of the group. -/
theorem C96_derived (hC : Valid C p) (ho : Odd C.n)
    {P Q : AffinePoint} {P' Q' G' : (curve p C.A C.B).Point} (hnP : C.n • P' = 0) (hnQ : C.n • Q' = 0) (hnG : C.n • G' = 0)
    (hP : Represents P P') (hQ : Represents Q Q') (hG : Represents C.G G') (s1 s2 : Int) :
    (∃ R, add C P Q = some R ∧ Represents R (P' + Q')) ∧
    (∃ R, sub C P Q = some R ∧ Represents R (P' - Q')) ∧
    (∃ R, double C P = some R ∧ Represents R (P' + P')) ∧
    (∃ R, mulBase C s1 = some R ∧ Represents R (s1 • G')) ∧
    (∃ R, mulDoubleBase C s1 s2 P = some R ∧ Represents R (s1 • G' + s2 • P')) := by
  have hadd : ∀ {P Q : AffinePoint} {P' Q' : (curve p C.A C.B).Point}, C.n • P' = 0 → Represents P P' → Represents Q Q' →
      ∃ R, add C P Q = some R ∧ Represents R (P' + Q') := by
    intro P Q P' Q' hn hP hQ
    rcases C96_add hC hP hQ with ⟨_, h0, h1, _⟩ | ⟨-, h⟩
    · exact absurd (no_two ho hn h1) h0
    · exact h
  have hs : ∀ (k : Int) {X : (curve p C.A C.B).Point}, C.n • X = 0 → C.n • (k • X) = 0 := by
    intro k X h
    rw [← mul_zsmul, mul_comm, mul_zsmul, h, zsmul_zero]
  refine ⟨hadd hnP hP hQ, ?_, ?_, C96_mul hC ho hnG hG s1, ?_⟩
  · rw [sub_eq_add_neg]; exact hadd hnP hP (C96_negate hC hQ (no_two ho hnQ))
  · have := C96_mul hC ho hnP hP 2
    rwa [two_zsmul] at this
  · obtain ⟨a, ha, ra⟩ := C96_mul hC ho hnG hG s1
    obtain ⟨b, hb, rb⟩ := C96_mul hC ho hnP hP s2
    obtain ⟨c, hc, rc⟩ := hadd (hs s1 hnG) ra rb
    refine ⟨c, ?_, rc⟩
    unfold mulDoubleBase mulBase
    rw [ha, hb]
    exact hc

/-- C96: dividing by a scalar coprime to the order and multiplying again gives the point back; dividing by a scalar that
is not coprime to the order throws. -/
theorem C96_div (hC : Valid C p) (ho : Odd C.n) {n : ℕ} [Fact n.Prime] (hCn : C.n = n)
    {P : AffinePoint} {P' : (curve p C.A C.B).Point} (hn : C.n • P' = 0) (hP : Represents P P') (k : Int) :
    if (n : Int) ∣ k then div C P k = none
    else ∃ (R : AffinePoint) (R' : (curve p C.A C.B).Point),
      div C P k = some R ∧ Represents R R' ∧ k • R' = P' ∧ mul C R k = some P := by
  have hzd : ∀ a : Int, (n : Int) ∣ a ↔ (a : ZMod n) = 0 := fun a => (ZMod.intCast_zmod_eq_zero_iff_dvd _ _).symm
  have hinvP : ∀ (i : Int) (m : Int), (i : ZMod n) = (m : ZMod n)⁻¹ → (m : ZMod n) ≠ 0 → m • i • P' = P' := by
    intro i m hi hm
    rw [smul_smul]
    have h1 : ((m * i : Int) : ZMod n) = ((1 : Int) : ZMod n) := by
      push_cast; rw [hi, mul_inv_cancel₀ hm]
    rw [ZMod.intCast_eq_intCast_iff_dvd_sub] at h1
    obtain ⟨c, hc⟩ := h1
    have : m * i = 1 + (-c) * n := by linarith
    rw [this, add_zsmul, one_zsmul, mul_smul, ← hCn, hn, zsmul_zero, add_zero]
  have hs : ∀ k : Int, C.n • (k • P') = 0 := by
    intro k
    rw [← mul_zsmul, mul_comm, mul_zsmul, hn, zsmul_zero]
  have back : ∀ {R : AffinePoint} {R' : (curve p C.A C.B).Point}, C.n • R' = 0 → Represents R R' → k • R' = P' → mul C R k = some P := by
    intro R R' hnR hR hk
    obtain ⟨S, hS, rS⟩ := C96_mul hC ho hnR hR k
    rw [hS, (C96_equal hC rS hP).2 hk]
  unfold div
  by_cases hk0 : k = 0
  · subst hk0; simp
  · rw [if_neg hk0]
    by_cases hpos : 0 < k
    · rw [if_pos hpos, hCn]
      rcases invertMod_cases (p := n) k with ⟨hz, hnone⟩ | ⟨hne, i, hi, hii⟩
      · rw [if_pos ((hzd k).2 hz), hnone]; rfl
      · rw [if_neg (fun h => hne ((hzd k).1 h)), hi]
        obtain ⟨R, hR, rR⟩ := C96_mul hC ho hn hP i
        exact ⟨R, _, hR, rR, hinvP i k hii hne, back (hs i) rR (hinvP i k hii hne)⟩
    · rw [if_neg hpos, hCn]
      rcases invertMod_cases (p := n) (-k) with ⟨hz, hnone⟩ | ⟨hne, i, hi, hii⟩
      · have hz' : (k : ZMod n) = 0 := by simpa using hz
        rw [if_pos ((hzd k).2 hz'), hnone]; rfl
      · have hne' : (k : ZMod n) ≠ 0 := fun h => hne (by simp [h])
        rw [if_neg (fun h => hne' ((hzd k).1 h)), hi]
        obtain ⟨R, hR, rR⟩ := C96_mul hC ho hn hP i
        have e : k • (-(i • P')) = P' := by
          rw [zsmul_neg, ← neg_zsmul]; exact hinvP i (-k) hii hne
        have rN := C96_negate hC rR (no_two ho (hs i))
        refine ⟨negate C R, _, ?_, rN, e, back (by rw [zsmul_neg, hs i, neg_zero]) rN e⟩
        simp only [Option.bind_some, hR, Option.map_some]

end Law
end Yacl.Ecc
