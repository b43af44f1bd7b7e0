import Verif.Zkp.Sumcheck
import Mathlib.Algebra.Polynomial.Roots
import Mathlib.Algebra.Field.GeomSum

/-! Zero check and one check: yacl/crypto/experimental/zkp/sumcheck/{polynomial.cc, sumcheck.cc}.
Property C51.  Conventions as in Sumcheck.lean. -/
namespace Yacl.Sumcheck
open Vss (addMod subMod mulMod invertMod invertMod_cases cast_add cast_sub cast_mul cast_mod)

/-! ### Model -/

/-- polynomial.cc L89-102 `MultiplyPolynomials` (entry by entry). -/
def multiply (p1 p2 : Poly) (m : Int) : Option Poly :=
  if p1.evals.length = p2.evals.length then
    mkPoly ((List.range p1.evals.length).map fun i => mulMod (p1.evals.getD i 0) (p2.evals.getD i 0) m)
  else none

/-- polynomial.cc L111-122: entry `i` of the equality polynomial. -/
def eqEntry (r : List Int) (m : Int) (i : Nat) : Int :=
  (List.range r.length).foldl (fun res j =>
    mulMod res (if i.testBit (r.length - 1 - j) then r.getD j 0 else subMod 1 (r.getD j 0) m) m) 1

/-- polynomial.cc L104-125 `BuildEqPolynomial`; `1U << k` is undefined for 32 or more variables. -/
def buildEq (r : List Int) (m : Int) : Option Poly :=
  if r.length ≥ 32 then none else mkPoly ((List.range (2 ^ r.length)).map (eqEntry r m))

/-- polynomial.cc L127-138 `BuildAlphaPolynomial`. -/
def buildAlpha (k : Nat) (alpha m : Int) : Option Poly :=
  if k ≥ 32 then none else
    mkPoly ((List.range (2 ^ k)).map fun i => (List.range i).foldl (fun c _ => mulMod c alpha m) 1)

/-- sumcheck.cc L35-57 `ComputeAlphaSum`. -/
def computeAlphaSum (k : Nat) (alpha m : Int) : Option Int :=
  if k ≥ 32 then none else
  if alpha = 1 then some (2 ^ k : Nat)
  else (invertMod (subMod alpha 1 m) m).map fun inv => mulMod (subMod (alpha ^ (2 ^ k) % m) 1 m) inv m

/-- sumcheck.cc L173-187 `RunZeroCheckProtocol`; `req` are the draws for the equality polynomial. -/
def runZeroCheck (A : Poly) (m : Int) (req tape : List Int) : Option Bool := do
  if req.length ≠ A.numVars then none
  let eq ← buildEq req m
  let g ← multiply A eq m
  runSumcheck g 0 m tape

/-- sumcheck.cc L189-198 `RunOneCheckProtocol`; `alpha` is the draw. -/
def runOneCheck (y : Poly) (m : Int) (alpha : Int) (tape : List Int) : Option Bool := do
  let claimed ← computeAlphaSum y.numVars alpha m
  let ap ← buildAlpha y.numVars alpha m
  let g ← multiply y ap m
  runSumcheck g claimed m tape

/-! ### Lemmas -/

section
variable {n : ℕ}

theorem eqEntry_cast (r : List Int) (i : ℕ) : ((eqEntry r n i : Int) : ZMod n) =
    ∏ j ∈ Finset.range r.length, if i.testBit (r.length - 1 - j) then ((r.getD j 0 : Int) : ZMod n) else 1 - (r.getD j 0 : Int) := by
  unfold eqEntry
  have : ∀ h, (((List.range h).foldl (fun res j =>
      mulMod res (if i.testBit (r.length - 1 - j) then r.getD j 0 else subMod 1 (r.getD j 0) n) n) 1 : Int) : ZMod n) =
      ∏ j ∈ Finset.range h, if i.testBit (r.length - 1 - j) then ((r.getD j 0 : Int) : ZMod n) else 1 - (r.getD j 0 : Int) := by
    intro h
    induction h with
    | zero => simp
    | succ h ih =>
      rw [List.range_succ, List.foldl_append, Finset.prod_range_succ, ← ih]
      simp only [List.foldl_cons, List.foldl_nil, cast_mul]
      congr 1
      split
      · rfl
      · rw [cast_sub]; simp
  exact this _

theorem alphaEntry_cast (alpha : Int) (i : ℕ) :
    (((List.range i).foldl (fun c _ => mulMod c alpha n) (1 : Int) : Int) : ZMod n) = (alpha : ZMod n) ^ i := by
  induction i with
  | zero => simp
  | succ i ih => rw [List.range_succ, List.foldl_append, pow_succ, ← ih]; simp [cast_mul]

/-- Sumcheck on an entry-wise product. -/
theorem run_product (hn : 0 < n) (A : Poly) (hA : A.evals.length = 2 ^ A.numVars) (f : ℕ → Int) (claimed : Int)
    (tape : List Int) (ht : tape.length = A.numVars) :
    ∃ B g, mkPoly ((List.range (2 ^ A.numVars)).map f) = some B ∧ multiply A B n = some g ∧
      runSumcheck g claimed n tape =
        some (decide (claimed = (∑ i ∈ Finset.range (2 ^ A.numVars), A.evals.getD i 0 * f i) % n)) := by
  have hB := mkPoly_pow ((List.range (2 ^ A.numVars)).map f) A.numVars (by simp)
  set ge : List Int := (List.range A.evals.length).map fun i =>
    mulMod (A.evals.getD i 0) (((List.range (2 ^ A.numVars)).map f).getD i 0) n with hge
  have hgl : ge.length = 2 ^ A.numVars := by simp [hge, hA]
  have hg := mkPoly_pow ge A.numVars hgl
  refine ⟨_, ⟨ge, A.numVars⟩, hB, ?_, ?_⟩
  · unfold multiply
    rw [if_pos (by simp [hA])]
    exact hg
  · have hsum : ge.sum % (n : Int) = (∑ i ∈ Finset.range (2 ^ A.numVars), A.evals.getD i 0 * f i) % n := by
      refine Vss.eq_of_cast (mod_range hn _) ?_
      rw [cast_mod, sum_getD, hgl]
      push_cast
      apply Finset.sum_congr rfl
      intro i hi
      have hi := Finset.mem_range.1 hi
      rw [hge, getD_map_range _ _ _ (by omega), cast_mul, getD_map_range _ _ _ hi]
    by_cases hk : 0 < A.numVars
    · rw [C50_sumcheck n hn ge _ hg hk claimed tape ht, hsum]
    · have h0 : A.numVars = 0 := by omega
      obtain ⟨x, hx⟩ := List.length_eq_one_iff.1 (show ge.length = 1 by rw [hgl, h0]; rfl)
      obtain ⟨P, hP, hr⟩ := C50_constant n x claimed tape
      rw [hx, h0]
      rw [mkPoly_pow [x] 0 rfl] at hP
      cases hP
      rw [hr]
      have : x = ge.sum % n := by
        rw [hx]
        simp only [List.sum_cons, List.sum_nil, add_zero]
        have : x ∈ ge := by rw [hx]; simp
        rw [hge] at this
        obtain ⟨i, _, rfl⟩ := List.mem_map.1 this
        unfold mulMod
        rw [Int.emod_emod_of_dvd _ (dvd_refl _)]
      rw [this, hsum, h0]

end

/-! ### C51 -/

/-- C51, zero check: for every modulus, table of fewer than 32 variables and all draws, it accepts exactly when
the multilinear extension of the table vanishes (modulo the modulus) at the drawn point. -/
theorem C51_zero_iff (m : ℕ) (hm : 0 < m) (evals : List Int) (A : Poly) (hA : mkPoly evals = some A)
    (hk : A.numVars < 32) (req tape : List Int) (hr : req.length = A.numVars) (ht : tape.length = A.numVars) :
    runZeroCheck A m req tape = some (decide (mle evals req % m = 0)) := by
  obtain ⟨rfl, hl⟩ := mkPoly_some hA
  obtain ⟨B, g, hB, hg, hrun⟩ := run_product hm A hl (eqEntry req m) 0 tape ht
  have he : buildEq req m = some B := by
    unfold buildEq
    rw [if_neg (by omega), hr]
    exact hB
  unfold runZeroCheck
  rw [if_neg (by simpa using hr)]
  simp only [Option.bind_eq_bind, Option.bind_some, he, hg]
  rw [hrun]
  have : (∑ i ∈ Finset.range (2 ^ A.numVars), A.evals.getD i 0 * eqEntry req m i) % (m : Int) = mle A.evals req % m := by
    refine Vss.eq_of_cast (mod_range hm _) ?_
    rw [cast_mod]
    unfold mle
    push_cast [eqEntry_cast]
    rw [hr]
  rw [this]
  congr 1
  simp [eq_comm]

/-- C51, zero check is complete: a table that is zero modulo the modulus is accepted, for all challenges. -/
theorem C51_zero_complete (m : ℕ) (hm : 0 < m) (evals : List Int) (A : Poly) (hA : mkPoly evals = some A)
    (hk : A.numVars < 32) (hz : ∀ a ∈ evals, (m : Int) ∣ a) (req tape : List Int)
    (hr : req.length = A.numVars) (ht : tape.length = A.numVars) :
    runZeroCheck A m req tape = some true := by
  rw [C51_zero_iff m hm evals A hA hk req tape hr ht]
  congr 1
  rw [decide_eq_true_iff]
  apply Int.emod_eq_zero_of_dvd
  unfold mle
  apply Finset.dvd_sum
  intro i _
  apply Dvd.dvd.mul_right
  by_cases hi : i < evals.length
  · rw [List.getD_eq_getElem _ _ hi]
    exact hz _ (List.getElem_mem hi)
  · rw [List.getD_eq_default _ _ (by omega)]
    exact dvd_zero _

/-- A non-zero multilinear polynomial has few zeros. -/
theorem ext_zeros {p : ℕ} [Fact p.Prime] (k : ℕ) (f : ℕ → ZMod p) (hf : ∃ i, i < 2 ^ k ∧ f i ≠ 0) :
    (Finset.univ.filter fun r : Fin k → Fin p =>
      (∑ i ∈ Finset.range (2 ^ k), f i * ∏ j ∈ Finset.range k,
        if i.testBit (k - 1 - j) then (((tapeOf r).getD j 0 : Int) : ZMod p) else 1 - ((tapeOf r).getD j 0 : Int)) = 0).card * p ≤ k * p ^ k := by
  induction k generalizing f with
  | zero =>
    apply count_zero
    intro r hr
    obtain ⟨i, hi, h⟩ := hf
    have : i = 0 := by simpa using hi
    subst this
    simp at hr
    exact h hr
  | succ k ih =>
    have hB : (Finset.univ.filter fun a : Fin p =>
        ∀ i, i < 2 ^ k → f i * (1 - ((a.val : Int) : ZMod p)) + f (i + 2 ^ k) * ((a.val : Int) : ZMod p) = 0).card ≤ 1 := by
      obtain ⟨i, hi, h⟩ := hf
      have key : ∃ i0, i0 < 2 ^ k ∧ (f i0 ≠ 0 ∨ f (i0 + 2 ^ k) - f i0 ≠ 0) := by
        by_cases h1 : i < 2 ^ k
        · exact ⟨i, h1, Or.inl h⟩
        · refine ⟨i - 2 ^ k, by rw [pow_succ] at hi; omega, ?_⟩
          rw [Nat.sub_add_cancel (by omega)]
          by_cases h2 : f (i - 2 ^ k) = 0
          · right; rw [h2]; simpa using h
          · left; exact h2
      obtain ⟨i0, hi0, hk⟩ := key
      refine (Finset.card_le_card ?_).trans (affine_card (f i0) (f (i0 + 2 ^ k) - f i0) hk)
      intro a ha
      simp only [Finset.mem_filter, Finset.mem_univ, true_and] at ha ⊢
      have := ha i0 hi0
      linear_combination this
    apply count_step p k _ _ hB
    intro a ha
    simp only [Finset.mem_filter, Finset.mem_univ, true_and] at ha
    push Not at ha
    have := ih (fun i => f i * (1 - ((a.val : Int) : ZMod p)) + f (i + 2 ^ k) * ((a.val : Int) : ZMod p)) ha
    refine le_trans (Nat.mul_le_mul_right _ (Finset.card_le_card ?_)) this
    intro r hr
    simp only [Finset.mem_filter, Finset.mem_univ, true_and] at hr ⊢
    rw [tapeOf_cons, ext_succ k f (fun j => ((((a.val : Int) :: tapeOf r).getD j 0 : Int) : ZMod p))] at hr
    simpa using hr

/-- C51, zero check soundness: modulo a prime, if some entry of the table is not zero, at most
`k * p ^ (k - 1)` of the `p ^ k` draws for the equality polynomial make the check accept. -/
theorem C51_zero_soundness (p : ℕ) (hp : p.Prime) (evals : List Int) (A : Poly) (hA : mkPoly evals = some A)
    (k : ℕ) (hkv : A.numVars = k) (hk : k < 32) (hpos : 0 < k) (hnz : ∃ a ∈ evals, ¬ (p : Int) ∣ a)
    (tape : List Int) (ht : tape.length = k) :
    (Finset.univ.filter fun r : Fin k → Fin p => runZeroCheck A p (tapeOf r) tape = some true).card ≤ k * p ^ (k - 1) := by
  haveI : Fact p.Prime := ⟨hp⟩
  obtain ⟨he, hl⟩ := mkPoly_some hA
  obtain ⟨a, ha, hd⟩ := hnz
  obtain ⟨i, hi, rfl⟩ := List.mem_iff_getElem.1 ha
  have := ext_zeros (p := p) k (fun i => ((evals.getD i 0 : Int) : ZMod p)) ⟨i, by rw [← hkv, ← hl]; exact hi, by
    rw [List.getD_eq_getElem _ _ hi, Ne, ZMod.intCast_zmod_eq_zero_iff_dvd]
    exact hd⟩
  have hc : (Finset.univ.filter fun r : Fin k → Fin p => runZeroCheck A p (tapeOf r) tape = some true).card * p ≤ k * p ^ k := by
    refine le_trans (Nat.mul_le_mul_right _ (Finset.card_le_card ?_)) this
    intro r hr
    simp only [Finset.mem_filter, Finset.mem_univ, true_and] at hr ⊢
    have htl : (tapeOf r).length = k := by simp [tapeOf]
    rw [C51_zero_iff p hp.pos evals A hA (by omega) (tapeOf r) tape (by omega) (by omega)] at hr
    simp only [Option.some.injEq, decide_eq_true_iff] at hr
    have h2 : ((mle evals (tapeOf r) : Int) : ZMod p) = 0 := by
      rw [← cast_mod, hr]; simp
    unfold mle at h2
    rw [htl] at h2
    push_cast at h2
    exact h2
  obtain ⟨j, rfl⟩ : ∃ j, k = j + 1 := ⟨k - 1, by omega⟩
  rw [pow_succ, ← mul_assoc] at hc
  exact Nat.le_of_mul_le_mul_right hc hp.pos

/-- Non-vacuity. -/
example : ∃ A, mkPoly [0, 7, 14, 0] = some A ∧ runZeroCheck A 7 [3, 5] [1, 2] = some true ∧
    ∃ B, mkPoly [0, 1, 0, 0] = some B ∧ runZeroCheck B 7 [3, 5] [1, 2] = some false ∧
      runZeroCheck B 7 [1, 5] [1, 2] = some true := by
  refine ⟨_, rfl, ?_, _, rfl, ?_, ?_⟩ <;> decide +kernel

/-! #### One check -/

/-- C51, one check, the outcome for every table and draw: with a prime modulus and `alpha` drawn below it, if
`alpha ≠ 1` or the table is shorter than the modulus, it accepts exactly when the weighted sums agree. -/
theorem C51_one_iff_partial (p : ℕ) (hp : p.Prime) (evals : List Int) (y : Poly) (hy : mkPoly evals = some y)
    (hk : y.numVars < 32) (alpha : Int) (ha : 0 ≤ alpha ∧ alpha < p) (hsmall : alpha ≠ 1 ∨ evals.length < p)
    (tape : List Int) (ht : tape.length = y.numVars) :
    runOneCheck y p alpha tape = some (decide
      ((∑ i ∈ Finset.range evals.length, evals.getD i 0 * alpha ^ i) ≡ (∑ i ∈ Finset.range evals.length, alpha ^ i) [ZMOD p])) := by
  haveI : Fact p.Prime := ⟨hp⟩
  obtain ⟨rfl, hl⟩ := mkPoly_some hy
  have hsum : ∃ c, computeAlphaSum y.numVars alpha p = some c ∧ (0 ≤ c ∧ c < p) ∧
      (c : ZMod p) = ∑ i ∈ Finset.range (2 ^ y.numVars), (alpha : ZMod p) ^ i := by
    unfold computeAlphaSum
    rw [if_neg (by omega)]
    by_cases h1 : alpha = 1
    · rw [if_pos h1]
      refine ⟨_, rfl, ⟨by positivity, ?_⟩, ?_⟩
      · have := hsmall.resolve_left (by simp [h1])
        rw [hl] at this
        exact_mod_cast this
      · rw [h1]; simp
    · rw [if_neg h1]
      have hne : (alpha : ZMod p) ≠ 1 := by
        intro hcon
        apply h1
        have h2 : (alpha : ZMod p) = ((1 : Int) : ZMod p) := by simpa using hcon
        have := Vss.eq_of_cast ha h2
        rwa [Int.emod_eq_of_lt (by omega) (by exact_mod_cast hp.one_lt)] at this
      rcases invertMod_cases (p := p) (subMod alpha 1 p) with ⟨h0, _⟩ | ⟨_, b, hb, hbi⟩
      · rw [cast_sub] at h0
        exact absurd (sub_eq_zero.1 (by simpa using h0)) hne
      · rw [hb]
        refine ⟨_, rfl, mod_range hp.pos _, ?_⟩
        rw [cast_mul, hbi, cast_sub, cast_sub, cast_mod, geom_sum_eq hne]
        push_cast
        rw [div_eq_mul_inv]
  obtain ⟨c, hc, hcr, hcc⟩ := hsum
  obtain ⟨B, g, hB, hg, hrun⟩ := run_product hp.pos y hl (fun i => (List.range i).foldl (fun c _ => mulMod c alpha p) 1) c tape ht
  have hb : buildAlpha y.numVars alpha p = some B := by
    unfold buildAlpha
    rw [if_neg (by omega)]
    exact hB
  unfold runOneCheck
  simp only [Option.bind_eq_bind, Option.bind_some, hc, hb, hg]
  rw [hrun]
  congr 1
  rw [decide_eq_decide, emod_eq_iff hcr, hcc, ← ZMod.intCast_eq_intCast_iff, hl]
  push_cast [alphaEntry_cast]
  exact eq_comm

/-- C51, one check is complete when `alpha ≠ 1` or the table is shorter than the modulus: a table of ones is
accepted.  Missing from the full property: see `C51_one_violated`. -/
theorem C51_one_complete_partial (p : ℕ) (hp : p.Prime) (evals : List Int) (y : Poly) (hy : mkPoly evals = some y)
    (hk : y.numVars < 32) (hone : ∀ a ∈ evals, a ≡ 1 [ZMOD p]) (alpha : Int) (ha : 0 ≤ alpha ∧ alpha < p)
    (hsmall : alpha ≠ 1 ∨ evals.length < p) (tape : List Int) (ht : tape.length = y.numVars) :
    runOneCheck y p alpha tape = some true := by
  rw [C51_one_iff_partial p hp evals y hy hk alpha ha hsmall tape ht]
  congr 1
  rw [decide_eq_true_iff, ← ZMod.intCast_eq_intCast_iff]
  push_cast
  apply Finset.sum_congr rfl
  intro i hi
  have hi := Finset.mem_range.1 hi
  have := (ZMod.intCast_eq_intCast_iff _ _ _).2 (hone _ (List.getElem_mem hi))
  rw [List.getD_eq_getElem _ _ hi, this]
  simp

/-- C51, one check soundness: if some entry is not one modulo the prime, then among the draws `alpha` (excluding
the draw 1) fewer than `2 ^ k` make the check accept. -/
theorem C51_one_soundness_partial (p : ℕ) (hp : p.Prime) (evals : List Int) (y : Poly) (hy : mkPoly evals = some y)
    (hk : y.numVars < 32) (hnot : ∃ a ∈ evals, ¬ a ≡ 1 [ZMOD p]) (tape : List Int) (ht : tape.length = y.numVars) :
    (Finset.univ.filter fun a : Fin p => a.val ≠ 1 ∧ runOneCheck y p (a.val : Int) tape = some true).card < evals.length := by
  haveI : Fact p.Prime := ⟨hp⟩
  let q : Polynomial (ZMod p) := ∑ i ∈ Finset.range evals.length, Polynomial.C (((evals.getD i 0 : Int) : ZMod p) - 1) * Polynomial.X ^ i
  obtain ⟨a, ham, hna⟩ := hnot
  obtain ⟨i, hi, rfl⟩ := List.mem_iff_getElem.1 ham
  have hq : q ≠ 0 := by
    intro h0
    have hc : q.coeff i = ((evals.getD i 0 : Int) : ZMod p) - 1 := by
      simp only [q, Polynomial.finsetSum_coeff, Polynomial.coeff_C_mul_X_pow]
      rw [Finset.sum_eq_single i]
      · simp
      · intro b _ hb; rw [if_neg (Ne.symm hb)]
      · intro h; exact absurd (Finset.mem_range.2 hi) h
    rw [h0, Polynomial.coeff_zero, List.getD_eq_getElem _ _ hi] at hc
    apply hna
    rw [← ZMod.intCast_eq_intCast_iff]
    simpa using (sub_eq_zero.1 hc.symm)
  have hdeg : q.natDegree < evals.length := by
    rw [Polynomial.natDegree_lt_iff_degree_lt hq]
    refine (Polynomial.degree_sum_le _ _).trans_lt ?_
    rw [Finset.sup_lt_iff (by exact WithBot.bot_lt_coe _)]
    intro j hj
    refine (Polynomial.degree_C_mul_X_pow_le _ _).trans_lt ?_
    exact_mod_cast Finset.mem_range.1 hj
  refine lt_of_le_of_lt ?_ hdeg
  refine le_trans ?_ ((Multiset.toFinset_card_le _).trans (Polynomial.card_roots' q))
  apply Finset.card_le_card_of_injOn (fun a : Fin p => ((a.val : Int) : ZMod p))
  · intro a ha
    simp only [Finset.coe_filter, Finset.mem_univ, true_and, Set.mem_setOf_eq] at ha
    simp only [Finset.mem_coe, Multiset.mem_toFinset]
    rw [Polynomial.mem_roots hq, Polynomial.IsRoot]
    have h := ha.2
    rw [C51_one_iff_partial p hp evals y hy hk (a.val : Int) ⟨by omega, by exact_mod_cast a.isLt⟩ (Or.inl (by
      intro h1; exact ha.1 (by exact_mod_cast h1))) tape ht] at h
    simp only [Option.some.injEq, decide_eq_true_iff] at h
    rw [← ZMod.intCast_eq_intCast_iff] at h
    push_cast at h
    simp only [q, Polynomial.eval_finsetSum, Polynomial.eval_mul, Polynomial.eval_C, Polynomial.eval_pow, Polynomial.eval_X]
    simp only [sub_mul, one_mul, Finset.sum_sub_distrib]
    push_cast
    rw [h, sub_self]
  · intro a _ b _ h
    exact fin_cast_inj a b h

/-- C51 is violated by the one check when the table is at least as long as the modulus: with modulus 3, four ones
and the draw `alpha = 1`, `ComputeAlphaSum` returns 4 without reducing it and the honest run is rejected. -/
theorem C51_one_violated : ∃ y, mkPoly [1, 1, 1, 1] = some y ∧
    ∀ tape, tape.length = 2 → runOneCheck y 3 1 tape = some false := by
  refine ⟨⟨[1, 1, 1, 1], 2⟩, mkPoly_pow _ 2 rfl, ?_⟩
  intro tape ht
  obtain ⟨B, g, hB, hg, hrun⟩ := run_product (n := 3) (by omega) ⟨[1, 1, 1, 1], 2⟩ rfl
    (fun i => (List.range i).foldl (fun c _ => mulMod c 1 3) 1) 4 tape ht
  have hb : buildAlpha 2 1 3 = some B := by
    unfold buildAlpha
    rw [if_neg (by omega)]
    exact hB
  have hc : computeAlphaSum 2 1 3 = some 4 := by decide +kernel
  unfold runOneCheck
  simp only [Option.bind_eq_bind, Option.bind_some, hc, hb]
  rw [show ((3 : ℕ) : Int) = 3 from rfl] at hg hrun
  rw [hg]
  simp only [Option.bind_some]
  rw [hrun]
  congr 1

/-- Non-vacuity. -/
example : ∃ y, mkPoly [1, 8, 1, 1] = some y ∧ runOneCheck y 7 3 [1, 2] = some true ∧
    ∃ z, mkPoly [1, 2, 1, 1] = some z ∧ runOneCheck z 7 3 [1, 2] = some false := by
  refine ⟨_, rfl, ?_, _, rfl, ?_⟩ <;> decide +kernel

end Yacl.Sumcheck
