import Verif.Ecc.FourQModel
import Verif.Ecc.OpensslProps
import Mathlib.Tactic.FieldSimp
import Mathlib.Tactic.LinearCombination
import Mathlib.Algebra.Field.ZMod

/-!
# C135: the FourQ curve group

The specification of a program is the one of C121: variables are values, calls
compute in the group of the curve, only the variable a call names changes.
-/

namespace Verif.Ecc.FourQ

open Verif.Ecc.Openssl (Cmd invMod Lib Val put Spec)

variable {F E : Type} [Field F] [DecidableEq F] [AddCommGroup E]

/-! ## Specification -/

/-- The coordinates `e` stand for the affine point `c`. -/
def Rep (c : F × F) (e : Ext F) : Prop :=
  e.Z ≠ 0 ∧ e.X = c.1 * e.Z ∧ e.Y = c.2 * e.Z ∧ e.Ta * e.Tb * e.Z = e.X * e.Y

/-- The curve and what FourQlib is taken to do: `coord` gives the affine
coordinates of a point, `gen` is the generator of the subgroup of order `n`, on
which alone the multiplications with endomorphisms are right. -/
structure Ok (L : FLib F) (coord : E → F × F) (gen : E) : Prop where
  two : (2 : F) ≠ 0
  n_odd : L.n % 2 = 1
  n_gen : (L.n : Int) • gen = 0
  gen_ne : gen ≠ 0
  inj : ∀ p q, coord p = coord q → p = q
  zero : coord 0 = (0, 1)
  neg : ∀ p, coord (-p) = (-(coord p).1, (coord p).2)
  /-- The equation of the curve leaves two points with `x = 0`. -/
  x_zero : ∀ p, (coord p).1 = 0 → (coord p).2 = 1 ∨ (coord p).2 = -1
  validate : ∀ c, L.validate c = true ↔ ∃ p, coord p = c
  enc_lt : ∀ f, L.enc f < 2 ^ 256
  dec_enc : ∀ f, L.dec (L.enc f) = f
  add : ∀ p q a b, Rep (coord p) a → Rep (coord q) b → Rep (coord (p + q)) (L.add a b)
  addTo : ∀ p q a b, Rep (coord p) a → Rep (coord q) b → Rep (coord (p + q)) (L.addTo a b)
  dbl : ∀ p a, Rep (coord p) a → Rep (coord (p + p)) (L.dbl a)
  mulFixed : ∀ k : Nat, k < L.n → L.mulFixed k = coord (k • gen)
  mul : ∀ p, (L.n : Int) • p = 0 → ∀ k : Nat, k < L.n → L.mul (coord p) k = some (coord (k • p))
  mulDouble : ∀ p, (L.n : Int) • p = 0 → ∀ k l : Nat, k < L.n → l < L.n →
    L.mulDouble k (coord p) l = some (coord (k • gen + l • p))
  encode_len : ∀ c, (L.encode c).length = 32
  decode_encode : ∀ p, L.decode (L.encode (coord p)) = some (coord p)
  decode_valid : ∀ b c, L.decode b = some c → ∃ p, coord p = c
  hash : ∀ f, ∃ p, L.hash f = some (coord p) ∧ (L.n : Int) • p = 0

/-- The curve as C121 sees it.  The neutral element has coordinates here, `(0, 1)`. -/
def curve (L : FLib F) (coord : E → F × F) (gen : E) : Lib E where
  gen := gen
  order := L.n
  field := 0
  mul n q m := n • gen + m • q
  affine p := some (L.enc (coord p).1, L.enc (coord p).2)
  setAffine _ _ := none
  toOct _ _ := []
  ofOct _ := none
  decompress _ _ := none

/-- A call that returns does what its name says.  Coordinates `(a, b)` are copied
to the point of which they are the coordinates. -/
def Does (L : FLib F) (coord : E → F × F) (gen : E) (e : Nat → Val E) (c : Cmd) (e' : Nat → Val E) : Prop :=
  match c with
  | .copyPoint x y =>
      (∃ p, e y = .point p ∧ e' = put e x (.point p)) ∨
      ∃ p, e y = .affine (L.enc (coord p).1) (L.enc (coord p).2) ∧ e' = put e x (.point p)
  | c => Spec (curve L coord gen) e c e'

/-- When a call may throw. -/
def MayThrow (L : FLib F) (coord : E → F × F) (e : Nat → Val E) : Cmd → Prop
  | .getGenerator _ | .copyHandle _ _ | .affineLit _ _ _ | .mulBase _ _ => False
  | .copyPoint _ y => e y = .bytes ∨ ∃ a b : Int, e y = .affine a b ∧
      ∀ p, ¬ ((L.enc (coord p).1 : Int) = a ∧ (L.enc (coord p).2 : Int) = b)
  | .getAffine _ y | .double _ y | .negate _ y | .mul _ y _ | .mulDoubleBase _ _ _ y => ∀ p, e y ≠ .point p
  | .doubleInplace x | .negateInplace x | .mulInplace x _ => ∀ p, e x ≠ .point p
  | .add _ y z | .sub _ y z => (∀ p, e y ≠ .point p) ∨ ∀ p, e z ≠ .point p
  | .addInplace x y | .subInplace x y => (∀ p, e x ≠ .point p) ∨ ∀ p, e y ≠ .point p
  | .div _ y k => (∀ p, e y ≠ .point p) ∨ Int.gcd k L.n ≠ 1 ∨ k = 0
  | .divInplace x k => (∀ p, e x ≠ .point p) ∨ Int.gcd k L.n ≠ 1 ∨ k = 0

/-- A run of the specification. -/
inductive SpecRun (L : FLib F) (coord : E → F × F) (gen : E) :
    (Nat → Val E) → List Cmd → (Nat → Val E) → Prop
  | nil (e) : SpecRun L coord gen e [] e
  | ok {e e' e'' c cs} : Does L coord gen e c e' → SpecRun L coord gen e' cs e'' →
      SpecRun L coord gen e (c :: cs) e''
  | throws {e e'' c cs} : MayThrow L coord e c → SpecRun L coord gen e cs e'' →
      SpecRun L coord gen e (c :: cs) e''

/-- Coordinates a program may write down: numbers that encode field elements, not
those of a point of the curve outside the subgroup of order `n`. -/
def Good (L : FLib F) (coord : E → F × F) (a b : Int) : Prop :=
  (∃ f : F, a = L.enc f) ∧ (∃ f : F, b = L.enc f) ∧
  ∀ p, (L.enc (coord p).1 : Int) = a → (L.enc (coord p).2 : Int) = b → (L.n : Int) • p = 0

/-- See `Good`. -/
def Coords (L : FLib F) (coord : E → F × F) (cs : List Cmd) : Prop :=
  ∀ x a b, Cmd.affineLit x a b ∈ cs → Good L coord a b

/-- The variable `v` of the program holds the value `w`, of the subgroup. -/
def Holds (L : FLib F) (coord : E → F × F) : Pt F → Val E → Prop
  | .ext e, .point p => Rep (coord p) e ∧ (L.n : Int) • p = 0
  | .affine a b, .affine a' b' => a = a' ∧ b = b' ∧ Good L coord a b
  | .other, .bytes => True
  | _, _ => False

/-! ## Coordinates -/

theorem norm_rep {c : F × F} {e : Ext F} (h : Rep c e) : eccnorm e = c := by
  obtain ⟨hz, hx, hy, -⟩ := h
  unfold eccnorm
  rw [hx, hy, mul_assoc, mul_assoc, mul_inv_cancel₀ hz, mul_one, mul_one]

theorem setup_rep (c : F × F) : Rep c (pointSetup c) := by
  refine ⟨one_ne_zero, ?_, ?_, ?_⟩ <;> simp [pointSetup]

theorem two_tors {L : FLib F} {coord : E → F × F} {gen : E} (hL : Ok L coord gen) {p : E}
    (hx : (coord p).1 = 0) : p + p = 0 := by
  have : -p = p := by
    apply hL.inj
    rw [hL.neg, hx, neg_zero]
    exact Prod.ext hx.symm rfl
  calc p + p = -p + p := by rw [this]
    _ = 0 := by simp

theorem sub_x {L : FLib F} {coord : E → F × F} {gen : E} (hL : Ok L coord gen) {p : E}
    (hs : (L.n : Int) • p = 0) : (coord p).1 = 0 ↔ p = 0 := by
  constructor
  · intro hx
    have h2 := two_tors hL hx
    have hn : (L.n : Int) = 2 * (L.n / 2 : Nat) + 1 := by have := hL.n_odd; omega
    rw [hn, add_smul, one_smul, mul_comm, mul_smul, two_smul, h2, smul_zero, zero_add] at hs
    exact hs
  · rintro rfl
    rw [hL.zero]

omit [AddCommGroup E] in
theorem isInf_rep {c : F × F} {e : Ext F} (h : Rep c e) : isInfinity e = true ↔ c.1 = 0 := by
  obtain ⟨hz, hx, -⟩ := h
  unfold isInfinity
  simp only [Bool.or_eq_true, decide_eq_true_eq, hz, or_false]
  rw [hx, mul_eq_zero]
  exact ⟨fun h => h.resolve_right hz, Or.inl⟩

theorem neg_rep {L : FLib F} {coord : E → F × F} {gen : E} (hL : Ok L coord gen) {p : E} {e : Ext F}
    (h : Rep (coord p) e) : Rep (coord (-p)) (neg e) := by
  rw [hL.neg]
  unfold neg
  split
  · next hi =>
    have hx := (isInf_rep h).mp hi
    obtain ⟨hz, h1, h2, h3⟩ := h
    exact ⟨hz, by rw [h1, hx]; simp, h2, h3⟩
  · obtain ⟨hz, h1, h2, h3⟩ := h
    refine ⟨neg_ne_zero.mpr hz, ?_, ?_, ?_⟩
    · simp only [h1]; ring
    · simp only [h2]; ring
    · simp only; linear_combination -h3

theorem digits_lt {L : FLib F} {coord : E → F × F} {gen : E} (hL : Ok L coord gen) (k : Int) :
    digits L k < L.n ∧ ((digits L k : Nat) : Int) = k % L.n := by
  have h : (0 : Int) < L.n := by have := hL.n_odd; omega
  have h1 := Int.emod_nonneg k (ne_of_gt h)
  have h2 := Int.emod_lt_of_pos k h
  unfold digits
  omega

theorem digits_smul {L : FLib F} {coord : E → F × F} {gen : E} (hL : Ok L coord gen) (k : Int) {p : E}
    (hs : (L.n : Int) • p = 0) : digits L k • p = k • p := by
  rw [← natCast_zsmul, (digits_lt hL k).2]
  conv_rhs => rw [← Int.emod_add_mul_ediv k L.n, add_smul, mul_comm, mul_smul, hs, smul_zero, add_zero]

theorem sub_smul' {n : Int} (k : Int) {p : E} (hs : n • p = 0) : n • k • p = 0 := by
  rw [smul_comm, hs, smul_zero]

theorem mulPt_rep {L : FLib F} {coord : E → F × F} {gen : E} (hL : Ok L coord gen) (k : Int) {p : E} {e : Ext F}
    (hs : (L.n : Int) • p = 0) (h : Rep (coord p) e) :
    Rep (coord (k • p)) (mulPt L e k) ∧ Rep (coord (k • p)) (mulPtInplace L e k) := by
  unfold mulPt mulPtInplace
  rw [norm_rep h, hL.mul p hs _ (digits_lt hL k).1, digits_smul hL k hs]
  exact ⟨setup_rep _, setup_rep _⟩

theorem mulBase_rep {L : FLib F} {coord : E → F × F} {gen : E} (hL : Ok L coord gen) (k : Int) :
    Rep (coord (k • gen)) (mulBase L k) := by
  unfold mulBase
  rw [hL.mulFixed _ (digits_lt hL k).1, digits_smul hL k hL.n_gen]
  exact setup_rep _

theorem enc_inj {L : FLib F} {coord : E → F × F} {gen : E} (hL : Ok L coord gen) {f g : F} (h : L.enc f = L.enc g) :
    f = g := by
  rw [← hL.dec_enc f, h, hL.dec_enc]

theorem toF2_enc {L : FLib F} {coord : E → F × F} {gen : E} (hL : Ok L coord gen) (f : F) :
    mpIntToF2elm L (L.enc f) = some f := by
  unfold mpIntToF2elm
  rw [Int.natAbs_natCast, if_pos (hL.enc_lt f), hL.dec_enc]

/-! ## Programs -/

/-- The variables hold the values. -/
def Sim (L : FLib F) (coord : E → F × F) (s : St F) (e : Nat → Val E) : Prop := ∀ x, Holds L coord (s x) (e x)

theorem sim_assign {L : FLib F} {coord : E → F × F} {s : St F} {e : Nat → Val E} (h : Sim L coord s e) (x : Nat)
    {v : Pt F} {w : Val E} (hv : Holds L coord v w) : Sim L coord (assign s x v) (put e x w) := by
  intro y
  unfold assign put
  split
  · exact hv
  · exact h y

theorem cast_some {L : FLib F} {coord : E → F × F} {v : Pt F} {w : Val E} (h : Holds L coord v w) {a : Ext F}
    (hc : castR1 v = some a) : ∃ p, w = .point p ∧ Rep (coord p) a ∧ (L.n : Int) • p = 0 := by
  cases v with
  | ext e =>
    cases w with
    | point p =>
      have : e = a := by simpa [castR1] using hc
      subst this
      exact ⟨p, rfl, h.1, h.2⟩
    | affine _ _ => exact h.elim
    | bytes => exact h.elim
  | affine _ _ => cases hc
  | other => cases hc

theorem cast_none {L : FLib F} {coord : E → F × F} {v : Pt F} {w : Val E} (h : Holds L coord v w)
    (hc : castR1 v = none) (p : E) : w ≠ .point p := by
  rintro rfl
  cases v with
  | ext e => cases hc
  | affine _ _ => exact h
  | other => exact h

theorem step_sim {L : FLib F} {coord : E → F × F} {gen : E} (hL : Ok L coord gen) {s : St F} {e : Nat → Val E}
    (h : Sim L coord s e) (c : Cmd) (hc : ∀ x a b, c = .affineLit x a b → Good L coord a b) :
    match step L s c with
    | some s' => ∃ e', Does L coord gen e c e' ∧ Sim L coord s' e'
    | none => MayThrow L coord e c := by
  have hn := hL.n_gen
  cases c with
  | getGenerator x =>
    refine ⟨_, rfl, sim_assign h x ⟨?_, hn⟩⟩
    have := mulBase_rep hL 1
    rwa [one_smul] at this
  | copyHandle x y => exact ⟨_, rfl, sim_assign h x (h y)⟩
  | affineLit x a b => exact ⟨_, rfl, sim_assign h x ⟨rfl, rfl, hc x a b rfl⟩⟩
  | copyPoint x y =>
    simp only [step]
    have hy := h y
    cases hv : s y with
    | ext a =>
      rw [hv] at hy
      obtain ⟨p, hp, h1, h2⟩ := cast_some hy rfl
      exact ⟨_, Or.inl ⟨p, hp, rfl⟩, sim_assign h x ⟨h1, h2⟩⟩
    | other =>
      rw [hv] at hy
      cases hw : e y with
      | bytes => exact Or.inl hw
      | point p => rw [hw] at hy; exact hy.elim
      | affine _ _ => rw [hw] at hy; exact hy.elim
    | affine a b =>
      rw [hv] at hy
      cases hw : e y with
      | bytes => rw [hw] at hy; exact hy.elim
      | point p => rw [hw] at hy; exact hy.elim
      | affine a' b' =>
        rw [hw] at hy
        obtain ⟨rfl, rfl, ⟨f, rfl⟩, ⟨g, rfl⟩, hg⟩ := hy
        simp only [toF2_enc hL, Option.bind_eq_bind, Option.bind_some]
        have hn' : eccnorm (pointSetup (f, g)) = (f, g) := norm_rep (setup_rep (f, g))
        by_cases hval : L.validate (f, g) = true
        · rw [if_pos (by unfold isInCurveGroup; rw [hn']; exact hval)]
          obtain ⟨p, hp⟩ := (hL.validate (f, g)).mp hval
          have hp1 : (coord p).1 = f := by rw [hp]
          have hp2 : (coord p).2 = g := by rw [hp]
          refine ⟨_, Or.inr ⟨p, by rw [hw, hp1, hp2], rfl⟩, sim_assign h x ⟨?_, ?_⟩⟩
          · rw [hp]; exact setup_rep _
          · exact hg p (by rw [hp1]) (by rw [hp2])
        · rw [if_neg (by unfold isInCurveGroup; rw [hn']; exact hval)]
          refine Or.inr ⟨_, _, hw, ?_⟩
          rintro p ⟨h1, h2⟩
          have e1 : (coord p).1 = f := enc_inj hL (by exact_mod_cast h1)
          have e2 : (coord p).2 = g := enc_inj hL (by exact_mod_cast h2)
          exact hval ((hL.validate (f, g)).mpr ⟨p, Prod.ext e1 e2⟩)
  | getAffine x y =>
    simp only [step]
    cases ha : castR1 (s y) with
    | none => exact cast_none (h y) ha
    | some a =>
      obtain ⟨p, hp, h1, h2⟩ := cast_some (h y) ha
      simp only [Option.bind_eq_bind, Option.bind_some, norm_rep h1]
      refine ⟨_, ⟨p, hp, Or.inr ⟨_, _, rfl, rfl⟩⟩, sim_assign h x ⟨rfl, rfl, ⟨_, rfl⟩, ⟨_, rfl⟩, ?_⟩⟩
      intro q e1 e2
      have : q = p := hL.inj q p (Prod.ext (enc_inj hL (by exact_mod_cast e1)) (enc_inj hL (by exact_mod_cast e2)))
      rw [this]; exact h2
  | add x y z =>
    simp only [step]
    cases ha : castR1 (s y) with
    | none => exact Or.inl (cast_none (h y) ha)
    | some a =>
      cases hb : castR1 (s z) with
      | none => exact Or.inr (cast_none (h z) hb)
      | some b =>
        obtain ⟨p, hp, h1, h2⟩ := cast_some (h y) ha
        obtain ⟨q, hq, h3, h4⟩ := cast_some (h z) hb
        exact ⟨_, ⟨p, q, hp, hq, rfl⟩, sim_assign h x ⟨hL.add _ _ _ _ h1 h3, by rw [smul_add, h2, h4, add_zero]⟩⟩
  | addInplace x y =>
    simp only [step]
    cases hb : castR1 (s y) with
    | none => exact Or.inr (cast_none (h y) hb)
    | some b =>
      cases ha : castR1 (s x) with
      | none => exact Or.inl (cast_none (h x) ha)
      | some a =>
        obtain ⟨p, hp, h1, h2⟩ := cast_some (h x) ha
        obtain ⟨q, hq, h3, h4⟩ := cast_some (h y) hb
        exact ⟨_, ⟨p, q, hp, hq, rfl⟩, sim_assign h x ⟨hL.addTo _ _ _ _ h1 h3, by rw [smul_add, h2, h4, add_zero]⟩⟩
  | sub x y z =>
    simp only [step]
    cases hb : castR1 (s z) with
    | none => exact Or.inr (cast_none (h z) hb)
    | some b =>
      cases ha : castR1 (s y) with
      | none => exact Or.inl (cast_none (h y) ha)
      | some a =>
        obtain ⟨p, hp, h1, h2⟩ := cast_some (h y) ha
        obtain ⟨q, hq, h3, h4⟩ := cast_some (h z) hb
        refine ⟨_, ⟨p, q, hp, hq, rfl⟩, sim_assign h x ⟨?_, by rw [smul_sub, h2, h4, sub_zero]⟩⟩
        rw [sub_eq_add_neg]
        exact hL.add _ _ _ _ h1 (neg_rep hL h3)
  | subInplace x y =>
    simp only [step]
    cases hb : castR1 (s y) with
    | none => exact Or.inr (cast_none (h y) hb)
    | some b =>
      cases ha : castR1 (s x) with
      | none => exact Or.inl (cast_none (h x) ha)
      | some a =>
        obtain ⟨p, hp, h1, h2⟩ := cast_some (h x) ha
        obtain ⟨q, hq, h3, h4⟩ := cast_some (h y) hb
        refine ⟨_, ⟨p, q, hp, hq, rfl⟩, sim_assign h x ⟨?_, by rw [smul_sub, h2, h4, sub_zero]⟩⟩
        rw [sub_eq_add_neg]
        exact hL.addTo _ _ _ _ h1 (neg_rep hL h3)
  | double x y =>
    simp only [step]
    cases ha : castR1 (s y) with
    | none => exact cast_none (h y) ha
    | some a =>
      obtain ⟨p, hp, h1, h2⟩ := cast_some (h y) ha
      refine ⟨_, ⟨p, hp, rfl⟩, sim_assign h x ⟨?_, sub_smul' 2 h2⟩⟩
      rw [two_smul]; exact hL.dbl _ _ h1
  | doubleInplace x =>
    simp only [step]
    cases ha : castR1 (s x) with
    | none => exact cast_none (h x) ha
    | some a =>
      obtain ⟨p, hp, h1, h2⟩ := cast_some (h x) ha
      refine ⟨_, ⟨p, hp, rfl⟩, sim_assign h x ⟨?_, sub_smul' 2 h2⟩⟩
      rw [two_smul]; exact hL.dbl _ _ h1
  | negate x y =>
    simp only [step]
    cases ha : castR1 (s y) with
    | none => exact cast_none (h y) ha
    | some a =>
      obtain ⟨p, hp, h1, h2⟩ := cast_some (h y) ha
      exact ⟨_, ⟨p, hp, rfl⟩, sim_assign h x ⟨neg_rep hL h1, by rw [smul_neg, h2, neg_zero]⟩⟩
  | negateInplace x =>
    simp only [step]
    cases ha : castR1 (s x) with
    | none => exact cast_none (h x) ha
    | some a =>
      obtain ⟨p, hp, h1, h2⟩ := cast_some (h x) ha
      exact ⟨_, ⟨p, hp, rfl⟩, sim_assign h x ⟨neg_rep hL h1, by rw [smul_neg, h2, neg_zero]⟩⟩
  | mulBase x k => exact ⟨_, rfl, sim_assign h x ⟨mulBase_rep hL k, sub_smul' k hn⟩⟩
  | mul x y k =>
    simp only [step]
    cases ha : castR1 (s y) with
    | none => exact cast_none (h y) ha
    | some a =>
      obtain ⟨p, hp, h1, h2⟩ := cast_some (h y) ha
      exact ⟨_, ⟨p, hp, rfl⟩, sim_assign h x ⟨(mulPt_rep hL k h2 h1).1, sub_smul' k h2⟩⟩
  | mulInplace x k =>
    simp only [step]
    cases ha : castR1 (s x) with
    | none => exact cast_none (h x) ha
    | some a =>
      obtain ⟨p, hp, h1, h2⟩ := cast_some (h x) ha
      exact ⟨_, ⟨p, hp, rfl⟩, sim_assign h x ⟨(mulPt_rep hL k h2 h1).2, sub_smul' k h2⟩⟩
  | mulDoubleBase x k1 k2 y =>
    simp only [step]
    cases ha : castR1 (s y) with
    | none => exact cast_none (h y) ha
    | some a =>
      obtain ⟨p, hp, h1, h2⟩ := cast_some (h y) ha
      refine ⟨_, ⟨p, hp, rfl⟩, sim_assign h x ⟨?_, ?_⟩⟩
      swap
      · show (L.n : Int) • (k1 • gen + k2 • p) = 0
        rw [smul_add, sub_smul' k1 hn, sub_smul' k2 h2, add_zero]
      show Rep (coord (k1 • gen + k2 • p)) _
      rw [norm_rep h1, hL.mulDouble p h2 _ _ (digits_lt hL k1).1 (digits_lt hL k2).1, digits_smul hL k1 hn,
        digits_smul hL k2 h2]
      exact setup_rep _
  | div x y k =>
    simp only [step]
    by_cases hk0 : k = 0
    · rw [if_pos hk0]; exact Or.inr (Or.inr hk0)
    · rw [if_neg hk0]
      by_cases hkp : 0 < k
      · rw [if_pos hkp]
        cases hm : invMod k L.n with
        | none => exact Or.inr (Or.inl (Openssl.invMod_none hm))
        | some m =>
          cases ha : castR1 (s y) with
          | none => exact Or.inl (cast_none (h y) ha)
          | some a =>
            obtain ⟨p, hp, h1, h2⟩ := cast_some (h y) ha
            exact ⟨_, ⟨p, _, hp, Openssl.invMod_some hm h2, rfl⟩,
              sim_assign h x ⟨(mulPt_rep hL m h2 h1).1, sub_smul' m h2⟩⟩
      · rw [if_neg hkp]
        cases hm : invMod (k.natAbs : Int) L.n with
        | none =>
          have hg : Int.gcd (k.natAbs : Int) L.n = Int.gcd k L.n := by simp only [Int.gcd, Int.natAbs_natCast]
          exact Or.inr (Or.inl (by rw [← hg]; exact Openssl.invMod_none hm))
        | some m =>
          cases ha : castR1 (s y) with
          | none => exact Or.inl (cast_none (h y) ha)
          | some a =>
            obtain ⟨p, hp, h1, h2⟩ := cast_some (h y) ha
            refine ⟨_, ⟨p, -(m • p), hp, ?_, rfl⟩,
              sim_assign h x ⟨neg_rep hL (mulPt_rep hL m h2 h1).1, by rw [smul_neg, sub_smul' m h2, neg_zero]⟩⟩
            have := Openssl.invMod_some hm h2
            rw [show (k.natAbs : Int) = -k by omega] at this
            rw [smul_neg, ← neg_smul]
            exact this
  | divInplace x k =>
    simp only [step]
    by_cases hk0 : k = 0
    · rw [if_pos hk0]; exact Or.inr (Or.inr hk0)
    · rw [if_neg hk0]
      by_cases hkp : 0 < k
      · rw [if_pos hkp]
        cases hm : invMod k L.n with
        | none => exact Or.inr (Or.inl (Openssl.invMod_none hm))
        | some m =>
          cases ha : castR1 (s x) with
          | none => exact Or.inl (cast_none (h x) ha)
          | some a =>
            obtain ⟨p, hp, h1, h2⟩ := cast_some (h x) ha
            exact ⟨_, ⟨p, _, hp, Openssl.invMod_some hm h2, rfl⟩,
              sim_assign h x ⟨(mulPt_rep hL m h2 h1).2, sub_smul' m h2⟩⟩
      · rw [if_neg hkp]
        cases hm : invMod (k.natAbs : Int) L.n with
        | none =>
          have hg : Int.gcd (k.natAbs : Int) L.n = Int.gcd k L.n := by simp only [Int.gcd, Int.natAbs_natCast]
          exact Or.inr (Or.inl (by rw [← hg]; exact Openssl.invMod_none hm))
        | some m =>
          cases ha : castR1 (s x) with
          | none => exact Or.inl (cast_none (h x) ha)
          | some a =>
            obtain ⟨p, hp, h1, h2⟩ := cast_some (h x) ha
            refine ⟨_, ⟨p, -(m • p), hp, ?_, rfl⟩,
              sim_assign h x ⟨neg_rep hL (mulPt_rep hL m h2 h1).2, by rw [smul_neg, sub_smul' m h2, neg_zero]⟩⟩
            have := Openssl.invMod_some hm h2
            rw [show (k.natAbs : Int) = -k by omega] at this
            rw [smul_neg, ← neg_smul]
            exact this

/-- **C135.** A program that calls the FourQ group in any order and writes down
only coordinates that are no points outside the subgroup of order `n` sees values:
there is a run of the specification whose values the variables hold at the end, all
of them points of the subgroup.  Every call that returns has computed what its name
says and changed its target only; a call throws only on a variable without a point,
on coordinates that no point has, or on a division by a non-unit.  Partial: for
other points and coordinates see the `_violated` theorems. -/
theorem C135_programs_partial (L : FLib F) (coord : E → F × F) (gen : E) (hL : Ok L coord gen) (cs : List Cmd)
    (hc : Coords L coord cs) :
    ∃ e : Nat → Val E, SpecRun L coord gen (fun _ => .bytes) cs e ∧
      Sim L coord (run L (fun _ => .other) cs) e := by
  have main : ∀ (cs : List Cmd) (s : St F) (e : Nat → Val E), Coords L coord cs → Sim L coord s e →
      ∃ e', SpecRun L coord gen e cs e' ∧ Sim L coord (run L s cs) e' := by
    intro cs
    induction cs with
    | nil => intro s e _ h; exact ⟨e, .nil e, h⟩
    | cons c cs ih =>
      intro s e hc h
      have hst := step_sim hL h c (fun x a b he => hc x a b (by rw [he]; exact List.mem_cons_self ..))
      have hc' : Coords L coord cs := fun x a b hm => hc x a b (List.mem_cons_of_mem _ hm)
      show ∃ e', SpecRun L coord gen e (c :: cs) e' ∧ Sim L coord (run L ((step L s c).getD s) cs) e'
      cases hs : step L s c with
      | none =>
        rw [hs] at hst
        obtain ⟨e', h1, h2⟩ := ih s e hc' h
        exact ⟨e', .throws hst h1, h2⟩
      | some s' =>
        rw [hs] at hst
        obtain ⟨e1, hd, h1⟩ := hst
        obtain ⟨e', h2, h3⟩ := ih s' e1 hc' h1
        exact ⟨e', .ok hd h2, h3⟩
  exact main cs _ _ hc (fun _ => trivial)

/-- **C135.** On the subgroup of order `n` the queries do not depend on the
projective coordinates a point happens to have: `IsInfinity` recognizes the neutral
element, `PointEqual` is equality, `IsInCurveGroup` holds, equal points have equal
hashes and equal bytes. -/
theorem C135_observers_partial (L : FLib F) (coord : E → F × F) (gen : E) (hL : Ok L coord gen) (p q : E)
    (a b : Ext F) (hp : (L.n : Int) • p = 0) (hq : (L.n : Int) • q = 0) (ha : Rep (coord p) a) (hb : Rep (coord q) b)
    (h : Nat → Nat) :
    (isInfinity a = true ↔ p = 0) ∧ (pointEqual a b = true ↔ p = q) ∧ isInCurveGroup L a = true ∧
    (p = q → hashPoint L h a = hashPoint L h b ∧ ∀ f, serialize L f a = serialize L f b) := by
  have hi : ∀ {r : E} {c : Ext F}, (L.n : Int) • r = 0 → Rep (coord r) c → (isInfinity c = true ↔ r = 0) :=
    fun hr hc => (isInf_rep hc).trans (sub_x hL hr)
  refine ⟨hi hp ha, ?_, ?_, ?_⟩
  · unfold pointEqual
    split
    · next h0 =>
      rw [Bool.and_eq_true] at h0
      rw [(hi hp ha).mp h0.1, (hi hq hb).mp h0.2]
      simp
    · simp only [Bool.and_eq_true, decide_eq_true_eq]
      obtain ⟨hz, h1, h2, -⟩ := ha
      obtain ⟨hz', h1', h2', -⟩ := hb
      rw [h1, h2, h1', h2']
      constructor
      · rintro ⟨e1, e2⟩
        refine hL.inj p q (Prod.ext ?_ ?_)
        · exact mul_right_cancel₀ (mul_ne_zero hz hz') (by linear_combination e1)
        · exact mul_right_cancel₀ (mul_ne_zero hz hz') (by linear_combination e2)
      · rintro rfl
        constructor <;> ring
  · unfold isInCurveGroup
    rw [norm_rep ha]
    exact (hL.validate _).mpr ⟨p, rfl⟩
  · rintro rfl
    have e1 := norm_rep ha
    have e2 := norm_rep hb
    constructor
    · have : a.X * a.Z⁻¹ = b.X * b.Z⁻¹ := congrArg Prod.fst (e1.trans e2.symm)
      unfold hashPoint
      rw [this]
    · intro f
      unfold serialize
      rw [e1, e2]

/-- **C135** fails for the point `(0, -1)`, of order 2, which can be decoded and
copied like any other: `IsInfinity` takes it for the neutral element, and
`PointEqual` says that the two are equal. -/
theorem C135_order_two_violated (L : FLib F) (coord : E → F × F) (gen : E) (hL : Ok L coord gen) (t : E)
    (ht : coord t = (0, -1)) (a b : Ext F) (ha : Rep (coord t) a) (hb : Rep (coord 0) b) :
    t ≠ 0 ∧ isInfinity a = true ∧ pointEqual a b = true ∧ isInCurveGroup L a = true ∧
    (∀ e, deserialize L .autonomous (L.encode (coord t)) = .ok e → isInfinity e = true) := by
  have hne : t ≠ 0 := by
    rintro rfl
    rw [hL.zero] at ht
    have h1 : (1 : F) = -1 := congrArg Prod.snd ht
    exact hL.two (by linear_combination h1)
  have h1 : isInfinity a = true := (isInf_rep ha).mpr (by rw [ht])
  have h2 : isInfinity b = true := (isInf_rep hb).mpr (by rw [hL.zero])
  refine ⟨hne, h1, by simp [pointEqual, h1, h2], ?_, ?_⟩
  · unfold isInCurveGroup
    rw [norm_rep ha]
    exact (hL.validate _).mpr ⟨t, rfl⟩
  · intro e he
    unfold deserialize at he
    rw [if_pos rfl, if_neg (by rw [hL.encode_len]; omega),
      List.take_of_length_le (by rw [hL.encode_len]), hL.decode_encode] at he
    have : e = pointSetup (coord t) := by simpa using he.symm
    rw [this]
    exact (isInf_rep (setup_rep (coord t))).mpr (by rw [ht])

/-- **C135** fails for negative coordinates: the sign is dropped, so that the
negatives of the coordinates of a point, which are the coordinates of no point as
numbers, are accepted for that point. -/
theorem C135_sign_violated (L : FLib F) (coord : E → F × F) (gen : E) (hL : Ok L coord gen) (p : E) (s : St F)
    (x y : Nat) (hv : s y = .affine (-(L.enc (coord p).1 : Int)) (-(L.enc (coord p).2 : Int))) :
    ∃ s' r, step L s (.copyPoint x y) = some s' ∧ s' x = .ext r ∧ Rep (coord p) r := by
  have h : ∀ f : F, mpIntToF2elm L (-(L.enc f : Int)) = some f := by
    intro f
    unfold mpIntToF2elm
    rw [Int.natAbs_neg, Int.natAbs_natCast, if_pos (hL.enc_lt f), hL.dec_enc]
  have hval : isInCurveGroup L (pointSetup ((coord p).1, (coord p).2)) = true := by
    unfold isInCurveGroup
    rw [norm_rep (setup_rep _)]
    exact (hL.validate _).mpr ⟨p, rfl⟩
  refine ⟨assign s x (.ext (pointSetup (coord p))), pointSetup (coord p), ?_, by simp [assign], setup_rep _⟩
  simp [step, hv, h, hval]

/-- **C135.** Every point survives serialization, in whatever projective
coordinates, through the returned buffer and through a caller's buffer of 32 bytes
or more, of which the rest stays as it was; shorter buffers and other formats throw;
bytes after the first 32 are not looked at; what is read is a point of the curve. -/
theorem C135_bytes (L : FLib F) (coord : E → F × F) (gen : E) (hL : Ok L coord gen) (p : E) (a : Ext F)
    (ha : Rep (coord p) a) :
    (∃ b, serialize L .autonomous a = some b ∧ b.length = 32 ∧
      (∀ old, serializeTo L .autonomous a old = if old.length < 32 then none else some (b ++ old.drop 32)) ∧
      ∀ t, ∃ r, deserialize L .autonomous (b ++ t) = .ok r ∧ Rep (coord p) r) ∧
    serialize L .other a = none ∧ (∀ old, serializeTo L .other a old = none) ∧
    (∀ b, deserialize L .other b = .throws) ∧
    (∀ b r, deserialize L .autonomous b = .ok r → ∃ q, Rep (coord q) r) := by
  refine ⟨⟨L.encode (coord p), ?_, hL.encode_len _, ?_, ?_⟩, ?_, ?_, ?_, ?_⟩
  · unfold serialize
    rw [if_pos rfl, norm_rep ha]
  · intro old
    unfold serializeTo
    rw [if_pos rfl, norm_rep ha]
    by_cases h : old.length < 32
    · rw [if_neg (by omega), if_pos h]
    · rw [if_pos (by omega), if_neg h]
  · intro t
    refine ⟨pointSetup (coord p), ?_, setup_rep _⟩
    unfold deserialize
    rw [if_pos rfl, if_neg (by rw [List.length_append, hL.encode_len]; omega),
      List.take_append_of_le_length (by rw [hL.encode_len]), List.take_of_length_le (by rw [hL.encode_len]),
      hL.decode_encode]
  · unfold serialize; exact if_neg (by simp)
  · intro old; unfold serializeTo; exact if_neg (by simp)
  · intro b; unfold deserialize; exact if_neg (by simp)
  · intro b r h
    unfold deserialize at h
    rw [if_pos rfl] at h
    split at h
    · cases h
    · split at h
      · next c hd =>
        obtain ⟨q, hq⟩ := hL.decode_valid _ _ hd
        have : r = pointSetup c := by simpa using h.symm
        exact ⟨q, by rw [hq, this]; exact setup_rep _⟩
      · cases h

/-- **C135** fails for fewer than 32 bytes: `DeserializePoint` does not look at
the size and reads beyond the end. -/
theorem C135_short_input_violated (L : FLib F) (b : Bytes) (h : b.length < 32) :
    deserialize L .autonomous b = .outOfBounds := by
  unfold deserialize
  rw [if_pos rfl, if_pos h]

/-- **C135.** `HashToCurve` with the `Autonomous` strategy returns for every
message a point of the subgroup, that is determined by the first half of SHA-512 of
the message; the other strategies throw. -/
theorem C135_hash (L : FLib F) (coord : E → F × F) (gen : E) (hL : Ok L coord gen) (sha512 : Bytes → Bytes)
    (m m' : Bytes) :
    (∃ r p, hashToCurve L sha512 true m = some r ∧ Rep (coord p) r ∧ (L.n : Int) • p = 0 ∧
      L.hash (L.dec (leV ((sha512 m).take 32))) = some (coord p)) ∧
    hashToCurve L sha512 false m = none ∧
    ((sha512 m).take 32 = (sha512 m').take 32 → hashToCurve L sha512 true m = hashToCurve L sha512 true m') := by
  refine ⟨?_, rfl, ?_⟩
  · obtain ⟨p, hp, hs⟩ := hL.hash (L.dec (leV ((sha512 m).take 32)))
    exact ⟨pointSetup (coord p), p, by simp [hashToCurve, hp], setup_rep _, hs, hp⟩
  · intro h
    unfold hashToCurve
    rw [h]

/-- **C135** fails for a point FourQlib refuses (one off the curve): `Mul` does not
look at the return value of `ecc_mul`, and the result is made of what the stack
held. -/
theorem C135_mul_invalid_violated (L : FLib F) (e : Ext F) (k : Int)
    (h : L.mul (eccnorm e) (digits L k) = none) (s : St F) (x y : Nat) (hv : s y = .ext e) :
    ∃ s', step L s (.mul x y k) = some s' ∧ s' x = .ext (pointSetup L.stack) := by
  refine ⟨assign s x (.ext (mulPt L e k)), by simp [step, hv, castR1], ?_⟩
  simp [assign, mulPt, h]

/-! ## A curve -/

/-- The points of `-x² + y² = 1 + 7x²y²` over `F_13`, as multiples of `(1, 2)`. -/
def toyCoord (i : ZMod 12) : ZMod 13 × ZMod 13 :=
  match i.val with
  | 0 => (0, 1) | 1 => (1, 2) | 2 => (10, 8) | 3 => (5, 0) | 4 => (10, 5) | 5 => (1, 11)
  | 6 => (0, 12) | 7 => (12, 11) | 8 => (3, 5) | 9 => (8, 0) | 10 => (3, 8) | _ => (12, 2)

/-- The point with given coordinates. -/
def toyIdx (c : ZMod 13 × ZMod 13) : Option (ZMod 12) :=
  ([0, 1, 2, 3, 4, 5, 6, 7, 8, 9, 10, 11] : List (ZMod 12)).find? (fun i => toyCoord i = c)

instance : Fact (Nat.Prime 13) := ⟨by decide⟩

theorem toyIdx_coord : ∀ i : ZMod 12, toyIdx (toyCoord i) = some i := by decide +kernel

theorem toy_coord_of_idx : ∀ x y : ZMod 13, ∀ i, toyIdx (x, y) = some i → toyCoord i = (x, y) := by
  decide +kernel

/-- The curve as FourQlib would compute on it: the subgroup has order 3. -/
def toyLib : FLib (ZMod 13) where
  n := 3
  enc f := f.val
  dec k := (k : ZMod 13)
  add a b := pointSetup (toyCoord ((toyIdx (eccnorm a)).getD 0 + (toyIdx (eccnorm b)).getD 0))
  addTo a b := pointSetup (toyCoord ((toyIdx (eccnorm a)).getD 0 + (toyIdx (eccnorm b)).getD 0))
  dbl a := pointSetup (toyCoord ((toyIdx (eccnorm a)).getD 0 + (toyIdx (eccnorm a)).getD 0))
  mul c k := (toyIdx c).map fun i => toyCoord (k • i)
  mulFixed k := toyCoord (k • 4)
  mulDouble k c l := (toyIdx c).map fun i => toyCoord (k • 4 + l • i)
  stack := (7, 7)
  validate c := (toyIdx c).isSome
  encode c := UInt8.ofNat c.1.val :: UInt8.ofNat c.2.val :: List.replicate 30 0
  decode b := match b with
    | x :: y :: _ => (toyIdx (x.toNat, y.toNat)).map fun i => toyCoord i
    | _ => none
  hash f := some (toyCoord (4 * (f.val : ZMod 12)))

theorem toy_ok : Ok toyLib toyCoord (4 : ZMod 12) where
  two := by decide
  n_odd := by decide
  n_gen := by decide
  gen_ne := by decide
  inj p q h := by
    have := toyIdx_coord p
    rw [h, toyIdx_coord] at this
    exact (Option.some.inj this).symm
  zero := by decide
  neg := by decide +kernel
  x_zero := by decide +kernel
  validate := by
    rintro ⟨x, y⟩
    constructor
    · intro h
      obtain ⟨i, hi⟩ := Option.isSome_iff_exists.mp h
      exact ⟨i, toy_coord_of_idx x y i hi⟩
    · rintro ⟨p, hp⟩
      show (toyIdx (x, y)).isSome = true
      rw [← hp, toyIdx_coord]; rfl
  enc_lt f := lt_of_lt_of_le (ZMod.val_lt f) (by norm_num)
  dec_enc f := ZMod.natCast_zmod_val f
  add p q a b ha hb := by
    show Rep _ (pointSetup _)
    rw [norm_rep ha, norm_rep hb, toyIdx_coord, toyIdx_coord]; exact setup_rep _
  addTo p q a b ha hb := by
    show Rep _ (pointSetup _)
    rw [norm_rep ha, norm_rep hb, toyIdx_coord, toyIdx_coord]; exact setup_rep _
  dbl p a ha := by
    show Rep _ (pointSetup _)
    rw [norm_rep ha, toyIdx_coord]; exact setup_rep _
  mulFixed k _ := rfl
  mul p _ k _ := by
    show (toyIdx (toyCoord p)).map _ = _
    rw [toyIdx_coord]; rfl
  mulDouble p _ k l _ _ := by
    show (toyIdx (toyCoord p)).map _ = _
    rw [toyIdx_coord]; rfl
  encode_len c := by simp [toyLib]
  decode_encode := by decide +kernel
  decode_valid b c h := by
    match b, h with
    | x :: y :: t, h =>
      have h' : (toyIdx (((x.toNat : ℕ) : ZMod 13), ((y.toNat : ℕ) : ZMod 13))).map (fun i => toyCoord i) = some c := h
      cases hi : toyIdx (((x.toNat : ℕ) : ZMod 13), ((y.toNat : ℕ) : ZMod 13)) with
      | none => rw [hi] at h'; cases h'
      | some i => rw [hi] at h'; exact ⟨i, by simpa using h'⟩
    | [], h => cases h
    | [x], h => cases h
  hash f := ⟨_, rfl, by
    show (3 : Int) • (4 * (f.val : ZMod 12)) = 0
    have h12 : (12 : ZMod 12) = 0 := by decide
    rw [zsmul_eq_mul]
    push_cast
    linear_combination (f.val : ZMod 12) * h12⟩

/-- A program for the example: the generator, its double by addition, a division by
`-2`, coordinates of a point and of none. -/
def toyProg : List Cmd :=
  [.getGenerator 0, .add 1 0 0, .div 2 1 (-2), .getAffine 3 2, .copyPoint 4 3, .affineLit 5 7 7, .copyPoint 6 5,
   .mulDoubleBase 7 5 (-1) 1]

example : Coords toyLib toyCoord toyProg := by
  intro x a b h
  have : x = 5 ∧ a = 7 ∧ b = 7 := by simpa [toyProg] using h
  obtain ⟨rfl, rfl, rfl⟩ := this
  refine ⟨⟨7, by decide⟩, ⟨7, by decide⟩, ?_⟩
  decide +kernel

-- C135_programs_partial on it: 2G / -2 = -G, read back; 5G - 2G = 3G = 0
example : run toyLib (fun _ => .other) toyProg 2 = .ext (neg (pointSetup (10, 5)))
    ∧ (∃ e, run toyLib (fun _ => .other) toyProg 4 = .ext e ∧ eccnorm e = (3, 5) ∧ toyCoord (-4) = (3, 5))
    ∧ run toyLib (fun _ => .other) toyProg 6 = .other
    ∧ run toyLib (fun _ => .other) toyProg 7 = .ext (pointSetup (0, 1)) := by
  refine ⟨?_, ⟨pointSetup (3, 5), ?_, by decide +kernel, by decide +kernel⟩, ?_, ?_⟩ <;> decide +kernel

-- C135_order_two_violated
example : toyCoord 6 = (0, -1) ∧ Rep (toyCoord 6) (pointSetup (0, -1)) ∧ Rep (toyCoord 0) (pointSetup (0, 1)) :=
  ⟨by decide, by rw [show toyCoord 6 = (0, -1) by decide]; exact setup_rep _,
    by rw [show toyCoord 0 = (0, 1) by decide]; exact setup_rep _⟩

-- C135_observers_partial and C135_bytes: other projective coordinates of the generator
example : Rep (toyCoord 4) (⟨7, 10, 2, 7, 5⟩ : Ext (ZMod 13)) ∧ (toyLib.n : Int) • (4 : ZMod 12) = 0 :=
  ⟨⟨by decide, by decide, by decide, by decide⟩, by decide⟩

-- C135_mul_invalid_violated
example : toyLib.mul (eccnorm (pointSetup (7, 7))) (digits toyLib 2) = none := by decide +kernel

end Verif.Ecc.FourQ
