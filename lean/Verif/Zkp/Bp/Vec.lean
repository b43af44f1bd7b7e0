/-
Vector lemmas for the Bulletproofs models: bilinear sums over lists.
-/
import Verif.Zkp.Bp.Model
import Mathlib.Tactic.Ring
import Mathlib.Tactic.Module
import Mathlib.Tactic.Abel
import Mathlib.Tactic.LinearCombination
import Mathlib.Tactic.FieldSimp
import Mathlib.Data.List.GetD

namespace Yacl.Bp

variable {F M : Type} [Field F] [DecidableEq F] [AddCommGroup M] [Module F M] [DecidableEq M]

/-- `Σ a_i • g_i`. -/
def dot {F M : Type} [Field F] [AddCommGroup M] [Module F M] (a : List F) (g : List M) : M :=
  (List.zipWith (fun x p => x • p) a g).sum

omit [DecidableEq F] [DecidableEq M] in
@[simp] theorem dot_nil_left (g : List M) : dot ([] : List F) g = 0 := rfl
omit [DecidableEq F] [DecidableEq M] in
@[simp] theorem dot_nil_right (a : List F) : dot a ([] : List M) = 0 := by simp [dot]
omit [DecidableEq F] [DecidableEq M] in
@[simp] theorem dot_cons (x : F) (a : List F) (p : M) (g : List M) :
    dot (x :: a) (p :: g) = x • p + dot a g := by simp [dot]

omit [DecidableEq F] [DecidableEq M] in
theorem dot_append {a : List F} {g : List M} (h : a.length = g.length) (b : List F) (k : List M) :
    dot (a ++ b) (g ++ k) = dot a g + dot b k := by
  unfold dot
  rw [List.zipWith_append h, List.sum_append]

omit [DecidableEq M] in
theorem msmLoop_eq (a : List F) (g : List M) (acc : M) : msmLoop a g acc = acc + dot a g := by
  induction a generalizing g acc with
  | nil => simp [msmLoop]
  | cons x a ih =>
    cases g with
    | nil => simp [msmLoop]
    | cons p g =>
      rw [msmLoop, ih, dot_cons]
      by_cases hx : x = 0
      · simp [hx]
      · rw [if_neg hx]; abel

omit [DecidableEq M] in
theorem msm_eq {a : List F} {g : List M} (h : a.length = g.length) : msm a g = some (dot a g) := by
  unfold msm
  rw [if_pos h, msmLoop_eq, zero_add]

omit [DecidableEq F] in
theorem innerLoop_eq (a b : List F) (acc : F) : innerLoop a b acc = acc + dot a b := by
  induction a generalizing b acc with
  | nil => simp [innerLoop]
  | cons x a ih =>
    cases b with
    | nil => simp [innerLoop]
    | cons p g =>
      rw [innerLoop, ih, dot_cons, smul_eq_mul]; ring

omit [DecidableEq F] in
theorem innerProduct_eq {a b : List F} (h : a.length = b.length) :
    innerProduct a b = some (dot a b) := by
  unfold innerProduct
  rw [if_pos h, innerLoop_eq, zero_add]

omit [DecidableEq M] in
theorem two_eq (x y : F) (l r : M) : two x y l r = x • l + y • r := by
  unfold two
  rw [msmLoop_eq]
  simp

omit [DecidableEq F] [DecidableEq M] in
/-- A list with entries `c * a_i`. -/
theorem dot_map_mul (c : F) (a : List F) (g : List M) : dot (a.map fun x => c * x) g = c • dot a g := by
  induction a generalizing g with
  | nil => simp
  | cons x a ih =>
    cases g with
    | nil => simp
    | cons p g => rw [List.map_cons, dot_cons, ih, dot_cons, smul_add, mul_smul]

omit [DecidableEq F] [DecidableEq M] in
theorem dot_zipMul (a f : List F) (g : List M) :
    dot (List.zipWith (fun x y => x * y) a f) g = dot a (List.zipWith (fun x p => x • p) f g) := by
  induction a generalizing f g with
  | nil => simp
  | cons x a ih =>
    cases f with
    | nil => simp
    | cons y f =>
      cases g with
      | nil => simp
      | cons p g => simp only [List.zipWith_cons_cons, dot_cons, ih, mul_smul]

omit [DecidableEq F] [DecidableEq M] in
theorem dot_add_left {a b : List F} {g : List M} (h : a.length = b.length) (x y : F) :
    dot (List.zipWith (fun l r => l * x + r * y) a b) g = x • dot a g + y • dot b g := by
  induction a generalizing b g with
  | nil =>
    cases b with
    | nil => simp
    | cons _ _ => simp at h
  | cons u a ih =>
    cases b with
    | nil => simp at h
    | cons v b =>
      cases g with
      | nil => simp
      | cons p g =>
        simp only [List.zipWith_cons_cons, dot_cons, ih (by simpa using h)]
        module

omit [DecidableEq F] [DecidableEq M] in
theorem dot_add_right {a : List F} {g k : List M} (h : g.length = k.length) (x y : F) :
    dot a (List.zipWith (fun l r => x • l + y • r) g k) = x • dot a g + y • dot a k := by
  induction a generalizing g k with
  | nil => simp
  | cons u a ih =>
    cases g with
    | nil =>
      cases k with
      | nil => simp
      | cons _ _ => simp at h
    | cons p g =>
      cases k with
      | nil => simp at h
      | cons q k =>
        simp only [List.zipWith_cons_cons, dot_cons, ih (by simpa using h)]
        module

omit [DecidableEq F] [DecidableEq M] in
theorem dot_split (n : Nat) (a : List F) (g : List M) (h : a.length = g.length) :
    dot a g = dot (a.take n) (g.take n) + dot (a.drop n) (g.drop n) := by
  conv_lhs => rw [← List.take_append_drop n a, ← List.take_append_drop n g]
  exact dot_append (by simp [h]) _ _

omit [DecidableEq F] [DecidableEq M] in
theorem dot_comm {a b : List F} : dot a b = dot b a := by
  unfold dot
  rw [List.zipWith_comm]
  simp only [smul_eq_mul, mul_comm]

omit [DecidableEq F] [DecidableEq M] in
theorem dot_append_one {a : List F} {g : List M} (h : a.length = g.length) (x : F) (p : M) :
    dot (a ++ [x]) (g ++ [p]) = dot a g + x • p := by
  rw [dot_append h]; simp

omit [DecidableEq F] [DecidableEq M] in
theorem dot_zipWith_add {a b : List F} {g : List M} (h : a.length = b.length) :
    dot (List.zipWith (fun x y => x + y) a b) g = dot a g + dot b g := by
  have := dot_add_left (g := g) h 1 1
  simpa using this

omit [DecidableEq F] [DecidableEq M] in
theorem dot_zipWith_sub {a b : List F} {g : List M} (h : a.length = b.length) :
    dot (List.zipWith (fun x y => x - y) a b) g = dot a g - dot b g := by
  have := dot_add_left (g := g) h 1 (-1)
  simp only [one_smul, neg_smul, mul_one, mul_neg, ← sub_eq_add_neg] at this
  exact this

end Yacl.Bp
