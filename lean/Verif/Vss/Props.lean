import Mathlib.LinearAlgebra.Lagrange
import Mathlib.Data.ZMod.Basic
import Mathlib.Algebra.Field.ZMod
import Mathlib.Data.Int.GCD
import Mathlib.RingTheory.Int.Basic
import Mathlib.Data.List.GetD
import Mathlib.GroupTheory.OrderOfElement
import Mathlib.Tactic.Ring
import Mathlib.Tactic.LinearCombination

/-! Verifiable secret sharing: yacl/crypto/experimental/vss/{poly.cc, poly.h, vss.cc, vss.h}.
Properties C48, C49.

`MPInt` is modelled by `Int`.  The modular operations are libtommath's, given by their contract: for a
positive modulus the result is the representative in `[0, m)`.  Random values are arguments (a random
tape); every theorem is for all of them.  `none` is an exception or undefined behaviour. -/
namespace Yacl.Vss

/-! ### Model -/

/-- mp_int.cc L612-616 `MPInt::AddMod` (libtommath `mp_addmod`). -/
def addMod (a b m : Int) : Int := (a + b) % m
/-- mp_int.cc L627-631 `MPInt::SubMod` (libtommath `mp_submod`). -/
def subMod (a b m : Int) : Int := (a - b) % m
/-- mp_int.cc L649-653 `MPInt::MulMod` (libtommath `mp_mulmod`). -/
def mulMod (a b m : Int) : Int := (a * b) % m
/-- mp_int.cc L724-732 `MPInt::InvertMod` (libtommath `mp_invmod`, which fails, and `MPINT_ENFORCE_OK`
throws, when the modulus is not positive or the operands are not coprime). -/
def invertMod (a m : Int) : Option Int :=
  if 0 < m ∧ Int.gcd a m = 1 then some (Int.gcdA a m % m) else none

/-- vss.h L97-100 `VerifiableSecretSharing::Share`. -/
structure Share where
  x : Int
  y : Int
deriving DecidableEq

/-- vss.h L161-164: the members. -/
structure Vss where
  total : Nat
  threshold : Nat
  prime : Int

/-- vss.h L81-84: the constructor. -/
def mkVss (total threshold : Nat) (prime : Int) : Option Vss :=
  if total ≥ threshold then some ⟨total, threshold, prime⟩ else none

/-- poly.cc L27-51 `CreatePolynomial`; `rnd` are the `threshold - 1` draws of `RandomLtN`.
With threshold 0, `coefficients[0]` is out of bounds. -/
def createPolynomial (zeroValue : Int) (threshold : Nat) (rnd : List Int) : Option (List Int) :=
  if threshold = 0 ∨ rnd.length ≠ threshold - 1 then none
  else some (zeroValue :: rnd)

/-- poly.cc L63-72: Horner's loop, from the second highest coefficient down to the constant term. -/
def horner (x m : Int) : Int → List Int → Int
  | tmp, [] => tmp
  | tmp, c :: cs => horner x m (addMod (mulMod x tmp m) c m) cs

/-- poly.cc L54-75 `EvaluatePolynomial`.  The loop counter is an `int`; lists of 2^31 or more
coefficients are outside the model. -/
def evaluatePolynomial (coeffs : List Int) (m x : Int) : Option Int :=
  if coeffs.length ≥ 2 ^ 31 then none else
  match coeffs.reverse with
  | [] => none
  | top :: low => some (horner x m top low)

/-- poly.cc L110-131: numerator and denominator after the loop over `j`. -/
def lagrangeFrac (xs : List Int) (index : Nat) (targetX m : Int) : Int × Int :=
  (List.range xs.length).foldl (fun nd j =>
    if j ≠ index then
      (mulMod nd.1 (subMod (xs.getD j 0) targetX m) m,
       mulMod nd.2 (subMod (xs.getD j 0) (xs.getD index 0) m) m)
    else nd) (1, 1)

/-- poly.cc L105-137 `LagrangeComputeAtX`. -/
def lagrangeComputeAtX (xs : List Int) (index : Nat) (y targetX m : Int) : Option Int :=
  if index < xs.length then
    let nd := lagrangeFrac xs index targetX m
    (invertMod nd.2 m).map fun inv => mulMod (mulMod y nd.1 m) inv m
  else none

/-- poly.cc L85-103 `LagrangeInterpolation(xs, ys, target_x, modulus)`. -/
def lagrangeInterpolation (xs ys : List Int) (targetX m : Int) : Option Int :=
  if xs.length = ys.length then
    (List.range xs.length).foldlM (fun acc i =>
      (lagrangeComputeAtX xs i (ys.getD i 0) targetX m).map fun t => addMod t acc m) 0
  else none

/-- vss.cc L21-50 `CreateShare` and L62-76 (the share part of `CreateShareWithCommits`).
`rnd` are the random coefficients, `xs` the random points, one per share.  Returns the coefficients
left in `poly` and the shares. -/
def createShare (v : Vss) (secret : Int) (rnd xs : List Int) : Option (List Int × List Share) := do
  let coeffs ← createPolynomial secret v.threshold rnd
  if xs.length ≠ v.total then none
  let shares ← xs.mapM fun x => (evaluatePolynomial coeffs v.prime x).map fun y => (⟨x, y⟩ : Share)
  some (coeffs, shares)

/-- vss.cc L87-106 `RecoverSecret`. -/
def recoverSecret (v : Vss) (shares : List Share) : Option Int :=
  if shares.length ≥ v.threshold then
    lagrangeInterpolation ((shares.take v.threshold).map Share.x) ((shares.take v.threshold).map Share.y)
      0 v.prime
  else none

section Group
variable {G : Type*} [AddCommGroup G] [DecidableEq G]

/-- vss.cc L110-120 `CreateCommits`.  `EcGroup::MulBase(k)` is `k • g`. -/
def createCommits (g : G) (coeffs : List Int) : List G := coeffs.map fun c => c • g

/-- vss.cc L62-84 `CreateShareWithCommits`. -/
def createShareWithCommits (g : G) (v : Vss) (secret : Int) (rnd xs : List Int) :
    Option (List Share × List G) :=
  (createShare v secret rnd xs).map fun r => (r.2, createCommits g r.1)

/-- vss.cc L135-138: the loop over the higher commitments. -/
def verifyLoop (x m : Int) : Int → G → List G → G
  | _, gy, [] => gy
  | pw, gy, c :: cs => verifyLoop x m (mulMod pw x m) (gy + mulMod pw x m • c) cs

/-- vss.cc L123-142 `VerifyCommits`; `commits[0]` of an empty vector is out of bounds. -/
def verifyCommits (g : G) (s : Share) (commits : List G) (prime : Int) : Option Bool :=
  match commits with
  | [] => none
  | c0 :: cs => some (decide (s.y • g = verifyLoop s.x prime 1 c0 cs))
end Group

/-! ### Specification -/

/-- The value at `x` of the polynomial with coefficients `cs`, constant term first. -/
def polyVal (cs : List Int) (x : Int) : Int := ∑ i ∈ Finset.range cs.length, cs.getD i 0 * x ^ i

/-! ### Lemmas -/

theorem polyVal_cons (c : Int) (cs : List Int) (x : Int) : polyVal (c :: cs) x = c + x * polyVal cs x := by
  unfold polyVal
  rw [List.length_cons, Finset.sum_range_succ', Finset.mul_sum]
  simp only [List.getD_cons_succ, List.getD_cons_zero, pow_zero, mul_one]
  rw [add_comm]
  congr 1
  apply Finset.sum_congr rfl
  intro i _
  ring

theorem polyVal_nil (x : Int) : polyVal [] x = 0 := rfl

section
variable {p : ℕ}

theorem cast_mod (a : Int) : ((a % (p : Int) : Int) : ZMod p) = (a : ZMod p) := by
  rw [ZMod.intCast_eq_intCast_iff]
  exact Int.mod_modEq a p

theorem cast_add (a b : Int) : ((addMod a b p : Int) : ZMod p) = a + b := by
  simp [addMod, cast_mod]
theorem cast_sub (a b : Int) : ((subMod a b p : Int) : ZMod p) = a - b := by
  simp [subMod, cast_mod]
theorem cast_mul (a b : Int) : ((mulMod a b p : Int) : ZMod p) = a * b := by
  simp [mulMod, cast_mod]

theorem eq_of_cast {a b : Int} (ha : 0 ≤ a ∧ a < p) (h : (a : ZMod p) = b) : a = b % p := by
  rw [ZMod.intCast_eq_intCast_iff] at h
  have := h.eq
  rwa [Int.emod_eq_of_lt ha.1 ha.2] at this

theorem mod_range [Fact p.Prime] (a : Int) : 0 ≤ a % (p : Int) ∧ a % (p : Int) < p := by
  have hp : (0 : Int) < p := by exact_mod_cast (Fact.out : p.Prime).pos
  exact ⟨Int.emod_nonneg _ hp.ne', Int.emod_lt_of_pos _ hp⟩

theorem invertMod_cases [Fact p.Prime] (a : Int) :
    ((a : ZMod p) = 0 ∧ invertMod a p = none) ∨
    ((a : ZMod p) ≠ 0 ∧ ∃ b, invertMod a p = some b ∧ (b : ZMod p) = (a : ZMod p)⁻¹) := by
  have hp : p.Prime := Fact.out
  have hp0 : (0 : Int) < p := by exact_mod_cast hp.pos
  have hi : Int.gcd a p = 1 ↔ (a : ZMod p) ≠ 0 := by
    rw [Ne, ZMod.intCast_zmod_eq_zero_iff_dvd, Int.gcd_comm, ← Int.isCoprime_iff_gcd_eq_one]
    exact (Int.prime_iff_natAbs_prime.2 (by simpa using hp)).coprime_iff_not_dvd
  by_cases h : (a : ZMod p) = 0
  · left
    refine ⟨h, ?_⟩
    unfold invertMod
    rw [if_neg]
    rintro ⟨-, h2⟩
    exact hi.1 h2 h
  · right
    refine ⟨h, Int.gcdA a p % p, ?_, ?_⟩
    · unfold invertMod
      rw [if_pos ⟨hp0, hi.2 h⟩]
    · rw [cast_mod]
      have e := Int.gcd_eq_gcd_ab a p
      rw [hi.2 h] at e
      have e2 : ((1 : Int) : ZMod p) = a * (Int.gcdA a p : Int) + (p : Int) * (Int.gcdB a p : Int) := by
        exact_mod_cast congrArg (Int.cast : Int → ZMod p) e
      simp at e2
      exact (eq_inv_of_mul_eq_one_right e2.symm)

theorem polyVal_cast (cs : List Int) (x : Int) :
    ((polyVal cs x : Int) : ZMod p) = cs.foldr (fun (c : Int) (acc : ZMod p) => (c : ZMod p) + x * acc) 0 := by
  induction cs with
  | nil => simp [polyVal_nil]
  | cons c cs ih => rw [polyVal_cons, List.foldr_cons, ← ih]; push_cast; rfl

theorem horner_cast (x : Int) (tmp : Int) (low : List Int) :
    ((horner x p tmp low : Int) : ZMod p) = (polyVal (low.reverse ++ [tmp]) x : Int) := by
  induction low generalizing tmp with
  | nil => simp [horner, polyVal]
  | cons c cs ih =>
    rw [horner, ih, polyVal_cast, polyVal_cast, List.reverse_cons, List.append_assoc]
    simp only [List.foldr_append, List.foldr_cons, List.foldr_nil, cast_add, cast_mul, mul_zero, add_zero,
      List.singleton_append]
    congr 1
    exact add_comm _ _

theorem evaluate_cast (cs : List Int) (x : Int) (h : cs ≠ []) (hl : cs.length < 2 ^ 31) :
    ∃ y, evaluatePolynomial cs p x = some y ∧ (y : ZMod p) = (polyVal cs x : Int) := by
  unfold evaluatePolynomial
  rw [if_neg (by omega)]
  cases hr : cs.reverse with
  | nil => simp at hr; exact absurd hr h
  | cons top low =>
    refine ⟨_, rfl, ?_⟩
    rw [horner_cast]
    have : cs = low.reverse ++ [top] := by rw [← List.reverse_cons, ← hr, List.reverse_reverse]
    rw [this]

/-- The polynomial over the field, as a Mathlib polynomial. -/
noncomputable def toPoly (p : ℕ) (cs : List Int) : Polynomial (ZMod p) :=
  ∑ i ∈ Finset.range cs.length, Polynomial.C ((cs.getD i 0 : Int) : ZMod p) * Polynomial.X ^ i

theorem toPoly_eval (cs : List Int) (x : Int) :
    (toPoly p cs).eval (x : ZMod p) = ((polyVal cs x : Int) : ZMod p) := by
  simp [toPoly, polyVal, Polynomial.eval_finsetSum]

theorem toPoly_degree (cs : List Int) (n : ℕ) (h : cs.length ≤ n) : (toPoly p cs).degree < n := by
  unfold toPoly
  refine (Polynomial.degree_sum_le _ _).trans_lt ?_
  rw [Finset.sup_lt_iff (by exact WithBot.bot_lt_coe n)]
  intro i hi
  refine (Polynomial.degree_C_mul_X_pow_le _ _).trans_lt ?_
  have := Finset.mem_range.1 hi
  exact_mod_cast lt_of_lt_of_le this h

theorem lagrangeFrac_cast (xs : List Int) (index : ℕ) (t : Int) (n : ℕ) :
    let nd := (List.range n).foldl (fun nd j =>
      if j ≠ index then
        (mulMod nd.1 (subMod (xs.getD j 0) t p) p,
         mulMod nd.2 (subMod (xs.getD j 0) (xs.getD index 0) p) p)
      else nd) ((1 : Int), (1 : Int))
    (nd.1 : ZMod p) = ∏ j ∈ (Finset.range n).erase index, ((xs.getD j 0 : Int) - (t : Int) : ZMod p) ∧
    (nd.2 : ZMod p) = ∏ j ∈ (Finset.range n).erase index, ((xs.getD j 0 : Int) - (xs.getD index 0 : Int) : ZMod p) := by
  induction n with
  | zero => simp
  | succ n ih =>
    simp only [List.range_succ, List.foldl_append, List.foldl_cons, List.foldl_nil]
    by_cases h : n = index
    · rw [if_neg (by simp [h])]
      have e : (Finset.range (n + 1)).erase index = (Finset.range n).erase index := by
        ext k; simp; omega
      rw [e]
      exact ih
    · rw [if_pos h]
      have e : (Finset.range (n + 1)).erase index = insert n ((Finset.range n).erase index) := by
        ext k; simp; omega
      rw [e, Finset.prod_insert (by simp), Finset.prod_insert (by simp)]
      obtain ⟨h1, h2⟩ := ih
      simp only [cast_mul, cast_sub]
      rw [h1, h2]
      exact ⟨mul_comm _ _, mul_comm _ _⟩

/-- The points are pairwise different modulo `p`. -/
def Distinct (p : ℕ) (xs : List Int) : Prop :=
  ∀ i j, i < xs.length → j < xs.length → (xs.getD i 0 : ZMod p) = (xs.getD j 0 : Int) → i = j

theorem computeAtX_cases [Fact p.Prime] (xs : List Int) (i : ℕ) (hi : i < xs.length) (y t : Int) :
    ((∃ j, j < xs.length ∧ j ≠ i ∧ (xs.getD j 0 : ZMod p) = (xs.getD i 0 : Int)) ∧
      lagrangeComputeAtX xs i y t p = none) ∨
    ((∀ j, j < xs.length → j ≠ i → (xs.getD j 0 : ZMod p) ≠ (xs.getD i 0 : Int)) ∧
      ∃ r, lagrangeComputeAtX xs i y t p = some r ∧ (r : ZMod p) =
        y * ∏ j ∈ (Finset.range xs.length).erase i,
          (((xs.getD i 0 : Int) : ZMod p) - (xs.getD j 0 : Int))⁻¹ * ((t : ZMod p) - (xs.getD j 0 : Int))) := by
  unfold lagrangeComputeAtX
  rw [if_pos hi]
  obtain ⟨h1, h2⟩ := lagrangeFrac_cast (p := p) xs i t xs.length
  change ((lagrangeFrac xs i t p).1 : ZMod p) = _ at h1
  change ((lagrangeFrac xs i t p).2 : ZMod p) = _ at h2
  rcases invertMod_cases (p := p) (lagrangeFrac xs i t p).2 with ⟨hz, hn⟩ | ⟨hz, b, hb, hbi⟩
  · left
    refine ⟨?_, by simp only [hn]; rfl⟩
    rw [h2, Finset.prod_eq_zero_iff] at hz
    obtain ⟨j, hj, h0⟩ := hz
    simp at hj
    exact ⟨j, hj.2, hj.1, by simpa [sub_eq_zero] using h0⟩
  · right
    refine ⟨?_, _, by simp only [hb]; rfl, ?_⟩
    · intro j hj hne he
      apply hz
      rw [h2]
      exact Finset.prod_eq_zero (i := j) (by simp; exact ⟨hne, hj⟩) (by rw [he]; simp)
    · simp only [cast_mul, hbi, h1, h2]
      rw [mul_assoc, ← Finset.prod_inv_distrib, ← Finset.prod_mul_distrib]
      congr 1
      apply Finset.prod_congr rfl
      intro j _
      rw [← neg_sub ((xs.getD j 0 : Int) : ZMod p) (t : ZMod p), ← neg_sub ((xs.getD j 0 : Int) : ZMod p) (xs.getD i 0 : Int), inv_neg]
      ring

theorem interp_fold [Fact p.Prime] (xs ys : List Int) (t : Int) (hd : Distinct p xs) (n : ℕ) (hn : n ≤ xs.length) :
    ∃ r, (List.range n).foldlM (fun acc i =>
      (lagrangeComputeAtX xs i (ys.getD i 0) t p).map fun s => addMod s acc p) 0 = some r ∧
      (0 ≤ r ∧ r < p) ∧
      (r : ZMod p) = ∑ i ∈ Finset.range n, ((ys.getD i 0 : Int) : ZMod p) * ∏ j ∈ (Finset.range xs.length).erase i,
          (((xs.getD i 0 : Int) : ZMod p) - (xs.getD j 0 : Int))⁻¹ * ((t : ZMod p) - (xs.getD j 0 : Int)) := by
  induction n with
  | zero => exact ⟨0, rfl, ⟨le_refl _, by exact_mod_cast (Fact.out : p.Prime).pos⟩, by simp⟩
  | succ n ih =>
    obtain ⟨r, hr, _, hs⟩ := ih (by omega)
    rcases computeAtX_cases (p := p) xs n (by omega) (ys.getD n 0) t with ⟨⟨j, hj, hne, he⟩, _⟩ | ⟨_, u, hu, hv⟩
    · exact absurd (hd j n hj (by omega) he) hne
    · refine ⟨addMod u r p, ?_, mod_range _, ?_⟩
      · rw [List.range_succ, List.foldlM_append, hr]
        simp only [Option.bind_eq_bind, Option.bind_some, List.foldlM_cons, List.foldlM_nil, hu, Option.map_some]
        rfl
      · rw [cast_add, Finset.sum_range_succ, hv, hs, add_comm]

theorem foldlM_none {α : Type} (f : Int → α → Option Int) (l : List α) (a : α) (ha : a ∈ l)
    (h : ∀ acc, f acc a = none) (x : Int) : l.foldlM f x = none := by
  induction l generalizing x with
  | nil => simp at ha
  | cons b l ih =>
    rw [List.foldlM_cons]
    rcases List.mem_cons.1 ha with rfl | ha
    · rw [h]; rfl
    · cases f x b with
      | none => rfl
      | some v => exact ih ha v

theorem interp_correct [Fact p.Prime] (cs xs ys : List Int) (t : Int)
    (hl : xs.length = ys.length) (hc : cs.length ≤ xs.length) (hd : Distinct p xs)
    (hv : ∀ i, i < xs.length → (ys.getD i 0 : ZMod p) = (polyVal cs (xs.getD i 0) : Int)) :
    lagrangeInterpolation xs ys t p = some (polyVal cs t % p) := by
  unfold lagrangeInterpolation
  rw [if_pos hl]
  obtain ⟨r, hr, hb, hs⟩ := interp_fold (p := p) xs ys t hd xs.length (le_refl _)
  rw [hr]
  congr 1
  apply eq_of_cast hb
  rw [hs, ← toPoly_eval]
  have e := Lagrange.eq_interpolate_of_eval_eq (s := Finset.range xs.length)
    (v := fun i => ((xs.getD i 0 : Int) : ZMod p)) (r := fun i => ((ys.getD i 0 : Int) : ZMod p))
    (f := toPoly p cs) (by
      intro a ha b hb hab
      simp at ha hb
      exact hd a b ha hb hab)
    (by rw [Finset.card_range]; exact toPoly_degree cs _ hc)
    (by intro i hi; rw [toPoly_eval, hv i (Finset.mem_range.1 hi)])
  rw [e, Lagrange.interpolate_apply]
  simp [Polynomial.eval_finsetSum, Lagrange.basis, Lagrange.basisDivisor, Polynomial.eval_prod]

theorem interp_refused [Fact p.Prime] (xs ys : List Int) (t : Int) (hd : ¬ Distinct p xs) :
    lagrangeInterpolation xs ys t p = none := by
  unfold lagrangeInterpolation
  split
  · unfold Distinct at hd
    push Not at hd
    obtain ⟨i, j, hi, hj, he, hne⟩ := hd
    apply foldlM_none _ _ j (by simpa using hj)
    intro acc
    rcases computeAtX_cases (p := p) xs j hj (ys.getD j 0) t with ⟨_, h⟩ | ⟨h, _⟩
    · rw [h]; rfl
    · exact absurd he (h i hi hne)
  · rfl

end

theorem distinct_iff (p : ℕ) (xs : List Int) :
    Distinct p xs ↔ xs.Pairwise (fun a b => ¬ a ≡ b [ZMOD p]) := by
  rw [List.pairwise_iff_getElem]
  constructor
  · intro h i j hi hj hij he
    have := h i j hi hj (by
      rw [ZMod.intCast_eq_intCast_iff]
      simpa [hi, hj] using he)
    omega
  · intro h i j hi hj he
    rw [ZMod.intCast_eq_intCast_iff] at he
    simp only [List.getD_eq_getElem _ _ hi, List.getD_eq_getElem _ _ hj] at he
    rcases Nat.lt_trichotomy i j with hl | hl | hl
    · exact absurd he (h i j hi hj hl)
    · exact hl
    · exact absurd he.symm (h j i hj hi hl)

theorem mapM_mem {α β : Type} (f : α → Option β) (l : List α) (r : List β) (h : l.mapM f = some r) :
    ∀ b ∈ r, ∃ a ∈ l, f a = some b := by
  induction l generalizing r with
  | nil => simp at h; subst h; simp
  | cons a l ih =>
    rw [List.mapM_cons] at h
    cases hf : f a with
    | none => simp [hf] at h
    | some b =>
      cases hm : l.mapM f with
      | none => simp [hf, hm] at h
      | some r' =>
        simp [hf, hm] at h
        subst h
        intro c hc
        rcases List.mem_cons.1 hc with rfl | hc
        · exact ⟨a, by simp, hf⟩
        · obtain ⟨a', h1, h2⟩ := ih r' hm c hc
          exact ⟨a', by simp [h1], h2⟩

theorem mapM_length {α β : Type} (f : α → Option β) (l : List α) (r : List β) (h : l.mapM f = some r) :
    r.length = l.length := by
  induction l generalizing r with
  | nil => simp at h; subst h; rfl
  | cons a l ih =>
    rw [List.mapM_cons] at h
    cases hf : f a with
    | none => simp [hf] at h
    | some b =>
      cases hm : l.mapM f with
      | none => simp [hf, hm] at h
      | some r' =>
        simp [hf, hm] at h
        subst h
        simp [ih r' hm]

theorem mapM_exists {α β : Type} (f : α → Option β) (l : List α) (h : ∀ a ∈ l, ∃ b, f a = some b) :
    ∃ r, l.mapM f = some r := by
  induction l with
  | nil => exact ⟨[], rfl⟩
  | cons a l ih =>
    obtain ⟨b, hb⟩ := h a (by simp)
    obtain ⟨r, hr⟩ := ih fun x hx => h x (by simp [hx])
    exact ⟨b :: r, by rw [List.mapM_cons, hb, hr]; rfl⟩

theorem createShare_some {v : Vss} {secret : Int} {rnd xs coeffs : List Int} {shares : List Share}
    (h : createShare v secret rnd xs = some (coeffs, shares)) :
    coeffs = secret :: rnd ∧ rnd.length + 1 = v.threshold ∧ xs.length = v.total ∧
    (xs.mapM fun x => (evaluatePolynomial coeffs v.prime x).map fun y => (⟨x, y⟩ : Share)) = some shares := by
  unfold createShare createPolynomial at h
  by_cases h1 : v.threshold = 0 ∨ rnd.length ≠ v.threshold - 1
  · simp [h1] at h
  rw [if_neg h1] at h
  by_cases h2 : xs.length ≠ v.total
  · simp [h2] at h
  simp only [Option.bind_eq_bind, Option.bind_some] at h
  rw [if_neg h2] at h
  cases hm : (xs.mapM fun x => (evaluatePolynomial (secret :: rnd) v.prime x).map fun y => (⟨x, y⟩ : Share)) with
  | none => rw [hm] at h; simp at h
  | some r =>
    rw [hm] at h
    simp only [Option.bind_some, Option.some.injEq, Prod.mk.injEq] at h
    obtain ⟨rfl, rfl⟩ := h
    exact ⟨rfl, by omega, by omega, hm⟩

theorem share_value {p : ℕ} {v : Vss} {secret : Int} {rnd xs coeffs : List Int} {shares : List Share}
    (hv : v.prime = p) (h : createShare v secret rnd xs = some (coeffs, shares)) :
    ∀ s ∈ shares, s.x ∈ xs ∧ (s.y : ZMod p) = (polyVal coeffs s.x : Int) := by
  obtain ⟨rfl, _, _, hm⟩ := createShare_some h
  intro s hs
  obtain ⟨x, hx, he⟩ := mapM_mem _ _ _ hm s hs
  by_cases hl : (secret :: rnd).length < 2 ^ 31
  · obtain ⟨y, hy, hc⟩ := evaluate_cast (p := p) (secret :: rnd) x (by simp) hl
    rw [hv, hy] at he
    simp at he
    subst he
    exact ⟨hx, hc⟩
  · unfold evaluatePolynomial at he
    rw [if_pos (by omega)] at he
    simp at he

theorem recover_values {p : ℕ} [Fact p.Prime] (v : Vss) (hv : v.prime = p) (cs : List Int)
    (hc : cs.length ≤ v.threshold) (picked : List Share) (hlen : v.threshold ≤ picked.length)
    (hval : ∀ s ∈ picked.take v.threshold, (s.y : ZMod p) = (polyVal cs s.x : Int)) :
    (((picked.take v.threshold).map Share.x).Pairwise (fun a b => ¬ a ≡ b [ZMOD p]) →
      recoverSecret v picked = some (polyVal cs 0 % p)) ∧
    (¬ ((picked.take v.threshold).map Share.x).Pairwise (fun a b => ¬ a ≡ b [ZMOD p]) →
      recoverSecret v picked = none) := by
  unfold recoverSecret
  rw [if_pos hlen, hv, ← distinct_iff]
  refine ⟨fun hd => interp_correct cs _ _ 0 (by simp) (by simp; omega) hd ?_, interp_refused _ _ 0⟩
  intro i hi
  have hi2 : i < (picked.take v.threshold).length := by simpa using hi
  have := hval _ (List.getElem_mem hi2)
  rw [List.getD_eq_getElem _ _ (by simpa using hi2), List.getD_eq_getElem _ _ hi, List.getElem_map, List.getElem_map]
  exact this

theorem polyVal_zero (c : Int) (cs : List Int) : polyVal (c :: cs) 0 = c := by
  rw [polyVal_cons]; ring

/-! ### C48 -/

/-- C48.  Share a secret with any prime, any total and threshold, any random coefficients `rnd` and any
random points `xs`.  Take any list of the created shares, in any order, at least `threshold` many.
If the points of the first `threshold` of them are pairwise different modulo the prime, `RecoverSecret`
returns the secret modulo the prime (whatever follows them).  If two of those points coincide it throws. -/
theorem C48_recover (p : ℕ) (hp : p.Prime) (total threshold : ℕ) (v : Vss) (secret : Int) (rnd xs : List Int)
    (coeffs : List Int) (shares picked : List Share)
    (hmk : mkVss total threshold p = some v)
    (hshare : createShare v secret rnd xs = some (coeffs, shares))
    (hpick : ∀ s ∈ picked, s ∈ shares) (hlen : threshold ≤ picked.length) :
    (((picked.take threshold).map Share.x).Pairwise (fun a b => ¬ a ≡ b [ZMOD p]) →
      recoverSecret v picked = some (secret % p)) ∧
    (¬ ((picked.take threshold).map Share.x).Pairwise (fun a b => ¬ a ≡ b [ZMOD p]) →
      recoverSecret v picked = none) := by
  haveI : Fact p.Prime := ⟨hp⟩
  unfold mkVss at hmk
  split at hmk
  · cases hmk
    obtain ⟨rfl, hr, _, _⟩ := createShare_some hshare
    have := recover_values (p := p) ⟨total, threshold, p⟩ rfl (secret :: rnd) (by simpa using hr.le) picked hlen
      (fun s hs => (share_value (p := p) rfl hshare s (hpick s (List.mem_of_mem_take hs))).2)
    rwa [polyVal_zero] at this
  · cases hmk

/-- C48: sharing succeeds for every threshold from 1 (below 2^31), every secret and every tape, gives one
share per point, in order, and needs at least `threshold` shares to recover. -/
theorem C48_share (p : ℕ) (total threshold : ℕ) (secret : Int) (rnd xs : List Int)
    (h1 : 1 ≤ threshold) (h2 : threshold ≤ total) (h3 : threshold < 2 ^ 31)
    (hr : rnd.length = threshold - 1) (hx : xs.length = total) :
    ∃ v coeffs shares, mkVss total threshold p = some v ∧
      createShare v secret rnd xs = some (coeffs, shares) ∧ shares.length = total ∧
      (∀ s ∈ shares, s.x ∈ xs ∧ s.y ≡ polyVal (secret :: rnd) s.x [ZMOD p]) ∧
      ∀ few : List Share, few.length < threshold → recoverSecret v few = none := by
  have hlen : (secret :: rnd).length < 2 ^ 31 := by simp; omega
  obtain ⟨shares, hs⟩ := mapM_exists (fun x => (evaluatePolynomial (secret :: rnd) (p : Int) x).map
    fun y => (⟨x, y⟩ : Share)) xs (fun x _ => by
      obtain ⟨y, hy, _⟩ := evaluate_cast (p := p) (secret :: rnd) x (by simp) hlen
      exact ⟨⟨x, y⟩, by rw [hy]; rfl⟩)
  have hc : createShare ⟨total, threshold, p⟩ secret rnd xs = some (secret :: rnd, shares) := by
    unfold createShare createPolynomial
    rw [if_neg (by simp; omega)]
    simp only [Option.bind_eq_bind, Option.bind_some]
    rw [if_neg (by simp [hx])]
    simp only [Option.pure_def, Option.bind_some, hs]
  refine ⟨⟨total, threshold, p⟩, secret :: rnd, shares, by unfold mkVss; rw [if_pos h2], hc,
    by rw [mapM_length _ _ _ hs, hx], ?_, ?_⟩
  · intro s hsm
    obtain ⟨a, b⟩ := share_value (p := p) rfl hc s hsm
    exact ⟨a, (ZMod.intCast_eq_intCast_iff _ _ _).1 b⟩
  · intro few hf
    unfold recoverSecret
    rw [if_neg (by simpa using hf)]

/-- Non-vacuity: 3-of-4 sharing of 5 modulo 13, recovered from shares 4, 2, 1. -/
example : ∃ sh, createShare ⟨4, 3, 13⟩ 5 [7, 3] [1, 2, 9, 12] = some ([5, 7, 3], sh) ∧
    sh = [⟨1, 2⟩, ⟨2, 5⟩, ⟨9, 12⟩, ⟨12, 1⟩] ∧
    recoverSecret ⟨4, 3, 13⟩ [⟨12, 1⟩, ⟨2, 5⟩, ⟨1, 2⟩] = some 5 ∧
    recoverSecret ⟨4, 3, 13⟩ [⟨12, 1⟩, ⟨2, 5⟩, ⟨2, 5⟩] = none := by
  refine ⟨_, rfl, ?_, ?_, ?_⟩ <;> decide +kernel

/-! ### C49 -/

section Group
variable {G : Type*} [AddCommGroup G] [DecidableEq G]

theorem smul_mod {g : G} {p : ℕ} (hg : addOrderOf g = p) (a : Int) : (a % (p : Int)) • g = a • g := by
  rw [← hg]
  exact mod_addOrderOf_zsmul g a

theorem verifyLoop_eq {g : G} {p : ℕ} (hg : addOrderOf g = p) (x : Int) (pw acc : Int) (cs : List Int) :
    verifyLoop x p pw (acc • g) (createCommits g cs) = (acc + pw * x * polyVal cs x) • g := by
  induction cs generalizing pw acc with
  | nil => simp [createCommits, verifyLoop, polyVal_nil]
  | cons c cs ih =>
    unfold createCommits
    rw [List.map_cons, verifyLoop, ← mul_zsmul, ← add_zsmul]
    rw [show cs.map (fun c => c • g) = createCommits g cs from rfl, ih, polyVal_cons]
    rw [← smul_mod hg, ← smul_mod hg (acc + pw * x * _)]
    congr 1
    apply Int.ModEq.eq
    unfold mulMod
    have e : pw * x % (p : Int) ≡ pw * x [ZMOD p] := Int.mod_modEq _ _
    calc _ ≡ acc + pw * x * c + pw * x * x * polyVal cs x [ZMOD p] := by
          refine Int.ModEq.add (Int.ModEq.add_left _ ?_) ?_
          · have := e.mul_right c; rw [mul_comm _ c] at this; first | exact this | exact e.mul_right c
          · exact ((e.mul_right x).mul_right _)
      _ ≡ _ [ZMOD p] := by rw [show acc + pw * x * c + pw * x * x * polyVal cs x = acc + pw * x * (c + x * polyVal cs x) by ring]

/-- C49.  For every group, generator `g` of order `p` and committed polynomial (any non-empty list of
integer coefficients), `VerifyCommits` with the order as modulus accepts a pair `(x, y)`, honest or not,
exactly when `y` is congruent to the polynomial at `x` modulo the order. -/
theorem C49_verify_iff (g : G) (p : ℕ) (hg : addOrderOf g = p) (coeffs : List Int) (hne : coeffs ≠ [])
    (s : Share) :
    ∃ b, verifyCommits g s (createCommits g coeffs) p = some b ∧
      (b = true ↔ s.y ≡ polyVal coeffs s.x [ZMOD p]) := by
  cases coeffs with
  | nil => exact absurd rfl hne
  | cons c cs =>
    unfold createCommits
    rw [List.map_cons]
    refine ⟨_, rfl, ?_⟩
    rw [decide_eq_true_iff, show cs.map (fun c => c • g) = createCommits g cs from rfl, verifyLoop_eq hg,
      zsmul_eq_zsmul_iff_modEq, hg, polyVal_cons, one_mul]

/-- C49: every share made by `CreateShareWithCommits` passes the check with the returned commitments. -/
theorem C49_complete (g : G) (p : ℕ) (hg : addOrderOf g = p) (total threshold : ℕ) (secret : Int)
    (rnd xs : List Int) (shares : List Share) (commits : List G)
    (h : createShareWithCommits g ⟨total, threshold, p⟩ secret rnd xs = some (shares, commits)) :
    ∀ s ∈ shares, verifyCommits g s commits p = some true := by
  unfold createShareWithCommits at h
  cases hc : createShare ⟨total, threshold, p⟩ secret rnd xs with
  | none => rw [hc] at h; simp at h
  | some r =>
    obtain ⟨coeffs, sh⟩ := r
    rw [hc] at h
    simp at h
    obtain ⟨rfl, rfl⟩ := h
    intro s hs
    obtain ⟨rfl, _⟩ := createShare_some hc
    obtain ⟨b, hb, hi⟩ := C49_verify_iff g p hg (secret :: rnd) (by simp) s
    have := (share_value (p := p) rfl hc s hs).2
    rw [hb, hi.2 ((ZMod.intCast_eq_intCast_iff _ _ _).1 this)]

/-- C49 with C48: the commitments bind the dealer.  Whatever polynomial of at most `threshold`
coefficients was committed, any `threshold` many pairs that pass the check, at pairwise different points,
recover the committed constant term. -/
theorem C49_binding (g : G) (p : ℕ) (hp : p.Prime) (hg : addOrderOf g = p) (total threshold : ℕ)
    (c0 : Int) (cs : List Int) (hl : cs.length + 1 ≤ threshold) (picked : List Share)
    (hlen : threshold ≤ picked.length)
    (hok : ∀ s ∈ picked, verifyCommits g s (createCommits g (c0 :: cs)) p = some true)
    (hd : (picked.map Share.x).Pairwise (fun a b => ¬ a ≡ b [ZMOD p])) :
    recoverSecret ⟨total, threshold, p⟩ picked = some (c0 % p) := by
  haveI : Fact p.Prime := ⟨hp⟩
  have := (recover_values (p := p) ⟨total, threshold, p⟩ rfl (c0 :: cs) (by simpa using hl) picked hlen
    (fun s hs => by
      obtain ⟨b, hb, hi⟩ := C49_verify_iff g p hg (c0 :: cs) (by simp) s
      rw [hok s (List.mem_of_mem_take hs)] at hb
      cases hb
      exact (ZMod.intCast_eq_intCast_iff _ _ _).2 (hi.1 rfl))).1
    (by rw [List.map_take]; exact hd.sublist (List.take_sublist _ _))
  rwa [polyVal_zero] at this

end Group

/-- Non-vacuity: the additive group of ZMod 13 with generator 2 has order 13; shares of the example above
pass, a changed share fails. -/
example : addOrderOf (2 : ZMod 13) = 13 ∧
    verifyCommits (2 : ZMod 13) ⟨9, 12⟩ (createCommits 2 [5, 7, 3]) 13 = some true ∧
    verifyCommits (2 : ZMod 13) ⟨9, 11⟩ (createCommits 2 [5, 7, 3]) 13 = some false := by
  refine ⟨?_, by decide +kernel, by decide +kernel⟩
  have h : Nat.Prime 13 := by decide +kernel
  haveI : Fact (Nat.Prime 13) := ⟨h⟩
  exact addOrderOf_eq_prime (by decide +kernel) (by decide +kernel)

end Yacl.Vss
