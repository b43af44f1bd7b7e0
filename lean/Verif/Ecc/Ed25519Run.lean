import Verif.Ecc.Ed25519Props
import Verif.Ecc.Primes

/-!
# C122: a curve that meets the hypotheses

`-x² + y² = 1 + 5x²y²` over the field of 13 elements has 12 points, one of order
two and a subgroup of order 3; its points are numbered by the residues modulo 12.
The last examples check the conditions on the real field and order.
-/

namespace Verif.Ecc.Ed25519.Run

/-- The x coordinates of `0, g, 2g, …` -/
def xs : List (ZMod 13) := [0, 2, 4, 5, 4, 2, 0, 11, 9, 8, 9, 11]

/-- The y coordinates of `0, g, 2g, …` -/
def ys : List (ZMod 13) := [1, 6, 3, 0, 10, 7, 12, 7, 10, 0, 3, 6]

/-- The curve, with a generator of the subgroup of order 3. -/
def C : Curve 13 (ZMod 12) where
  x k := xs.getD k.val 0
  y k := ys.getD k.val 0
  gen := 4

/-- The number of the point with the given coordinates. -/
def find (x y : ZMod 13) : ZMod 12 :=
  ((List.range 12).map (fun i : Nat => ((i : Nat) : ZMod 12))).find? (fun k => C.x k = x && C.y k = y) |>.getD 0

/-- The number of a represented point. -/
def idx (q : P3 13) : ZMod 12 := find (q.X * q.Z⁻¹) (q.Y * q.Z⁻¹)

/-- A representation, with `Z = 2`. -/
def pt (k : ZMod 12) : P3 13 := ⟨C.x k * 2, C.y k * 2, 2, C.x k * C.y k * 2⟩

/-- 32 bytes: y, and the parity of x in the top bit. -/
def bytes (k : ZMod 12) : List UInt8 :=
  UInt8.ofNat (C.y k).val :: (List.replicate 30 0 ++ [UInt8.ofNat (128 * ((C.x k).val % 2))])

/-- The library. -/
def L : Lib 13 where
  d := 5
  n := 3
  add q r := pt (idx q + idx r)
  sub q r := pt (idx q - idx r)
  mulBase k := pt (k • 4)
  mul k q := pt (k • idx q)
  tobytes q := bytes (idx q)
  frombytes b :=
    match ((List.range 12).map (fun i : Nat => ((i : Nat) : ZMod 12))).find? (fun k => enc C k = leVal b) with
    | some k => (pt k, true)
    | none => (pt 0, false)
  sameLimbs a b c e := a * b = c * e

theorem pt_rep (k : ZMod 12) : Rep C (pt k) k := by
  refine ⟨show (2 : ZMod 13) ≠ 0 by decide, rfl, rfl, ?_⟩
  show C.x k * 2 * (C.y k * 2) = 2 * (C.x k * C.y k * 2)
  ring

theorem find_eq (k : ZMod 12) : find (C.x k) (C.y k) = k := by revert k; decide +kernel

theorem idx_eq {q : P3 13} {k : ZMod 12} (h : Rep C q k) : idx q = k := by
  haveI : Fact (Nat.Prime 13) := ⟨by norm_num⟩
  obtain ⟨h1, h2, h3, _⟩ := h
  unfold idx
  rw [h2, h3, mul_assoc, mul_assoc, mul_inv_cancel₀ h1, mul_one, mul_one]
  exact find_eq k

theorem bytes_val (k : ZMod 12) : leVal (bytes k) = enc C k := by revert k; decide +kernel

theorem enc_find (k : ZMod 12) :
    ((List.range 12).map (fun i : Nat => ((i : Nat) : ZMod 12))).find? (fun j => enc C j = enc C k) = some k := by
  revert k; decide +kernel

theorem ok : Ok L C where
  prime := by norm_num
  mod8 := rfl
  small := by decide +kernel
  d_ne := by decide
  on_curve := by decide +kernel
  surj := by decide +kernel
  inj := by decide +kernel
  x_zero := rfl
  y_zero := rfl
  x_neg := by decide +kernel
  y_neg := by decide +kernel
  n_odd := rfl
  n_gt := by decide
  n_gen := by decide +kernel
  add_rep q r a b hq hr := by
    show Rep C (pt (idx q + idx r)) _
    rw [idx_eq hq, idx_eq hr]; exact pt_rep _
  sub_rep q r a b hq hr := by
    show Rep C (pt (idx q - idx r)) _
    rw [idx_eq hq, idx_eq hr]; exact pt_rep _
  mulBase_rep k _ _ := pt_rep _
  mul_rep k q a _ _ hq := by
    show Rep C (pt (k • idx q)) _
    rw [idx_eq hq]; exact pt_rep _
  tobytes_len q := rfl
  tobytes_val q a hq := by
    show leVal (bytes (idx q)) = _
    rw [idx_eq hq]; exact bytes_val a
  frombytes_rep b a _ hb := by
    have := enc_find a
    rw [← hb] at this
    simp only [L, this]
    exact ⟨trivial, pt_rep a⟩
  sameLimbs_sound a b c e h := by
    have : decide (a * b = c * e) = true := h
    exact of_decide_eq_true this

/-- `-(2·G + 7·(G - 5·G))` through coordinates and both kinds of bytes. -/
example : ∃ q, code L (.viaAffine (.viaBytes (.viaCompressed (.negate (.mulDoubleBase 2 7 (.sub .gen (.mulBase 5)))))))
    = some q ∧ Rep C q 8 ∧ L.n • (8 : ZMod 12) = 0 :=
  C122_programs_partial L C ok (.viaAffine (.viaBytes (.viaCompressed (.negate (.mulDoubleBase 2 7 (.sub .gen (.mulBase 5)))))))

example : pointEqual (pt 4) ⟨C.x 4, C.y 4, 1, C.x 4 * C.y 4⟩ = true ∧ pointEqual (pt 4) (pt 8) = false := by decide

/-- The point of order two, and a point with a component of order four. -/
example : isInfinity (pt 6) = true ∧ L.n • (1 : ZMod 12) ≠ 0 := by decide

example : ∃ q, copyAffine L 0 7 = some q ∧ isInCurveGroup L q = true ∧ ∀ a, ¬ Rep C q a :=
  C122_off_curve_violated L C ok 7 (by decide +kernel) (by decide)

/-- (4, 3) is on the curve, (4, 4) is not. -/
example : copyAffine L 4 3 = some ⟨4, 3, 1, 4 * 3⟩ ∧ copyAffine L 4 4 = none := by decide +kernel

/-- 12, with the top bit. -/
example : ∃ q a, copyBytes L (12 :: (List.replicate 30 0 ++ [128])) = some q ∧ Rep C q a ∧
    ∀ a, leVal (12 :: (List.replicate 30 0 ++ [128])) ≠ enc C a :=
  C122_sign_violated L C ok _ (by decide +kernel)

/-- A string the library rejects: y = 2 is on no point. -/
example : (L.frombytes (2 :: List.replicate 31 0)).2 = false := by decide +kernel

/-- The conditions on the field and the order, for the real ones. -/
example : (2 ^ 255 - 19).Prime ∧ (2 ^ 255 - 19) % 8 = 5 ∧ 2 ^ 255 - 19 ≤ 2 ^ 255 ∧
    (2 ^ 252 + 27742317777372353535851937790883648493) % 2 = 1 := by
  have e : 2 ^ 255 - 19 = 57896044618658097711785492504343953926634992332820282019728792003956564819949 := by norm_num
  refine ⟨?_, by norm_num, by norm_num, by norm_num⟩
  rw [e]
  exact Yacl.Ecc.Primes.p25519

/-- `d = -121665/121666` is not -1. -/
example : (121665 : ZMod (2 ^ 255 - 19)) ≠ 121666 := by
  intro h
  have : ((121665 : Nat) : ZMod (2 ^ 255 - 19)) = ((121666 : Nat) : ZMod (2 ^ 255 - 19)) := by exact_mod_cast h
  rw [ZMod.natCast_eq_natCast_iff'] at this
  norm_num at this

end Verif.Ecc.Ed25519.Run
