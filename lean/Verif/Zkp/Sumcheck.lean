import Verif.Vss.Props
import Mathlib.Data.Fin.Tuple.Basic
import Mathlib.Algebra.BigOperators.Fin
import Mathlib.Data.Fintype.Pi
import Mathlib.Tactic.ByContra

/-! The sumcheck protocol: yacl/crypto/experimental/zkp/sumcheck/{polynomial.cc, sumcheck.cc}.
Properties C50, C82.

`FieldElem` is `MPInt`, modelled by `Int` with libtommath's modular operations (see Vss/Props.lean).
Verifier randomness is an argument (a tape).  The outer `none` is an exception. -/
namespace Yacl.Sumcheck
open Vss (addMod subMod mulMod invertMod cast_add cast_sub cast_mul cast_mod)

/-! ### Model -/

/-- polynomial.h: `MultilinearPolynomial`. -/
structure Poly where
  evals : List Int
  numVars : Nat

/-- polynomial.cc L24-34: the constructor (`std::log2` is exact on powers of two). -/
def mkPoly (evals : List Int) : Option Poly :=
  if evals.length > 0 ∧ evals.length &&& (evals.length - 1) = 0 then
    some ⟨evals, if evals.length = 1 then 0 else Nat.log2 evals.length⟩
  else none

/-- polynomial.cc L54-72, one round, and sumcheck.cc L85-105 (the same loop).  It works in place: round `j`
writes index `j < half` and reads indices `j` and `j + half`, so every read sees the old value. -/
def bindVar (evals : List Int) (r m : Int) : List Int :=
  let half := evals.length / 2
  (List.range half).map fun j =>
    addMod (mulMod (evals.getD j 0) (subMod 1 r m) m) (mulMod (evals.getD (j + half) 0) r m) m

/-- polynomial.cc L41-74 `MultilinearPolynomial::Evaluate`. -/
def evaluate (P : Poly) (r : List Int) (m : Int) : Option Int :=
  if r.length = P.numVars then
    if P.numVars = 0 then P.evals[0]?
    else (r.foldl (fun e ri => bindVar e ri m) P.evals)[0]?
  else none

/-- polynomial.cc L80-87 `SumOverBooleanHypercube`. -/
def sumOver (evals : List Int) (m : Int) : Int := evals.foldl (fun s v => addMod s v m) 0

/-- sumcheck.h L27-40: the prover's state. -/
structure Prover where
  evals : List Int
  numVars : Nat
  round : Nat

/-- sumcheck.cc L61-65: the prover's constructor. -/
def mkProver (P : Poly) : Prover := ⟨P.evals, P.numVars, 0⟩

/-- sumcheck.cc L67-83 `ComputeNextRoundPoly`. -/
def computeNextRoundPoly (p : Prover) (m : Int) : Option (List Int) :=
  if p.round < p.numVars then
    let half := p.evals.length / 2
    let s := (List.range half).foldl (fun (s : Int × Int) j =>
      (addMod s.1 (p.evals.getD j 0) m, addMod s.2 (p.evals.getD (j + half) 0) m)) (0, 0)
    some [s.1, subMod s.2 s.1 m]
  else none

/-- sumcheck.cc L85-105 `ProcessChallenge`. -/
def processChallenge (p : Prover) (c m : Int) : Prover :=
  { p with evals := bindVar p.evals c m, round := p.round + 1 }

/-- sumcheck.cc L107-111 `GetFinalEvaluation`. -/
def getFinalEvaluation (p : Prover) : Option Int :=
  if p.round = p.numVars ∧ p.evals.length = 1 then p.evals[0]? else none

/-- sumcheck.h L42-57: the verifier's state. -/
structure Verifier where
  expected : Int
  numVars : Nat
  round : Nat
  challenges : List Int

/-- sumcheck.cc L113-117: the verifier's constructor. -/
def mkVerifier (claimed : Int) (numVars : Nat) : Verifier := ⟨claimed, numVars, 0, []⟩

/-- sumcheck.cc L24-32 `EvaluateUnivariate`: from the last coefficient to the first. -/
def evaluateUnivariate (poly : List Int) (x m : Int) : Int :=
  poly.foldr (fun c acc => addMod (mulMod acc x m) c m) 0

/-- sumcheck.cc L119-141 `VerifyRound`; `rnd` is the draw of `RandFieldElem`.  The inner `none` is
`std::nullopt`. -/
def verifyRound (v : Verifier) (poly : List Int) (rnd m : Int) : Option (Option (Int × Verifier)) :=
  if v.round < v.numVars then
    match poly with
    | [a0, a1] =>
      if addMod a0 (addMod a0 a1 m) m ≠ v.expected then some none
      else some (some (rnd, ⟨evaluateUnivariate [a0, a1] rnd m, v.numVars, v.round + 1, v.challenges ++ [rnd]⟩))
    | _ => some none
  else none

/-- sumcheck.cc L143-152 `FinalCheck`. -/
def finalCheck (v : Verifier) (g : Poly) (final m : Int) : Option Bool :=
  if v.round ≠ v.numVars then some false
  else (evaluate g v.challenges m).map fun e => decide (e = final) && decide (v.expected = final)

/-- sumcheck.cc L160-167: the rounds. -/
def rounds (m : Int) : Nat → Prover → Verifier → List Int → Option (Option (Prover × Verifier))
  | 0, p, v, _ => some (some (p, v))
  | n + 1, p, v, tape =>
    match computeNextRoundPoly p m, tape with
    | some poly, c :: tape =>
      match verifyRound v poly c m with
      | none => none
      | some none => some none
      | some (some (ch, v')) => rounds m n (processChallenge p ch m) v' tape
    | _, _ => none

/-- sumcheck.cc L154-171 `RunSumcheckProtocol`. -/
def runSumcheck (P : Poly) (claimed m : Int) (tape : List Int) : Option Bool :=
  match rounds m P.numVars (mkProver P) (mkVerifier claimed P.numVars) tape with
  | none => none
  | some none => some false
  | some (some (p, v)) => (getFinalEvaluation p).bind fun e => finalCheck v P e m

/-- The verifier (sumcheck.cc L119-152) against an arbitrary prover: `strategy` chooses the round polynomial and
`final` the last value from the challenges seen so far. -/
def play (m : Int) (P : Poly) (strategy : List Int → List Int) (final : List Int → Int) :
    Verifier → List Int → Option Bool
  | v, [] => finalCheck v P (final v.challenges) m
  | v, c :: tape =>
    match verifyRound v (strategy v.challenges) c m with
    | none => none
    | some none => some false
    | some (some (_, v')) => play m P strategy final v' tape

/-! ### Specification -/

/-- The multilinear extension of the table `e` (of `2 ^ r.length` values, first variable = most
significant bit of the index) at the point `r`. -/
def mle (e r : List Int) : Int :=
  ∑ i ∈ Finset.range (2 ^ r.length), e.getD i 0 *
    ∏ j ∈ Finset.range r.length, if i.testBit (r.length - 1 - j) then r.getD j 0 else 1 - r.getD j 0

/-- The challenge vector as a list. -/
def tapeOf {k p : ℕ} (r : Fin k → Fin p) : List Int := List.ofFn fun i => ((r i).val : Int)

/-! ### Lemmas -/

theorem mkPoly_some {evals : List Int} {P : Poly} (h : mkPoly evals = some P) :
    P.evals = evals ∧ evals.length = 2 ^ P.numVars := by
  unfold mkPoly at h
  split at h
  · rename_i hc
    cases h
    refine ⟨rfl, ?_⟩
    obtain ⟨k, hk⟩ := (Nat.and_sub_one_eq_zero_iff_isPowerOfTwo (by omega)).1 hc.2
    simp only
    split
    · assumption
    · rw [hk, Nat.log2_two_pow]
  · cases h

theorem mkPoly_pow (evals : List Int) (k : ℕ) (h : evals.length = 2 ^ k) : mkPoly evals = some ⟨evals, k⟩ := by
  unfold mkPoly
  rw [if_pos]
  · congr 2
    split
    · rename_i h1
      rw [h1] at h
      by_contra hk
      have : 1 < 2 ^ k := Nat.one_lt_two_pow (Ne.symm hk)
      omega
    · rw [h, Nat.log2_two_pow]
  · refine ⟨by rw [h]; exact Nat.two_pow_pos k, ?_⟩
    rw [Nat.and_sub_one_eq_zero_iff_isPowerOfTwo (by rw [h]; exact (Nat.two_pow_pos k).ne')]
    exact ⟨k, h⟩

theorem sum_getD (l : List Int) : l.sum = ∑ i ∈ Finset.range l.length, l.getD i 0 := by
  induction l with
  | nil => simp
  | cons a l ih =>
    rw [List.sum_cons, List.length_cons, Finset.sum_range_succ', ih, add_comm]
    simp

theorem getD_map_range (n : ℕ) (f : ℕ → Int) (i : ℕ) (h : i < n) : ((List.range n).map f).getD i 0 = f i := by
  rw [List.getD_eq_getElem _ _ (by simpa using h)]
  simp

theorem bindVar_length (e : List Int) (r m : Int) (k : ℕ) (h : e.length = 2 ^ (k + 1)) :
    (bindVar e r m).length = 2 ^ k := by
  unfold bindVar
  simp only [List.length_map, List.length_range]
  rw [h, pow_succ]
  omega

section
variable {n : ℕ}

/-- One round of binding, in the ring. -/
theorem bindVar_get (e : List Int) (r : Int) (k : ℕ) (h : e.length = 2 ^ (k + 1)) (i : ℕ) (hi : i < 2 ^ k) :
    (((bindVar e r n).getD i 0 : Int) : ZMod n) =
      (e.getD i 0 : Int) * (1 - (r : ZMod n)) + (e.getD (i + 2 ^ k) 0 : Int) * (r : ZMod n) := by
  unfold bindVar
  have hh : e.length / 2 = 2 ^ k := by rw [h, pow_succ]; omega
  simp only [hh]
  rw [getD_map_range _ _ _ hi, cast_add, cast_mul, cast_mul, cast_sub]
  simp

theorem bindVar_range (hn : 0 < n) (e : List Int) (r : Int) : ∀ x ∈ bindVar e r n, 0 ≤ x ∧ x < n := by
  intro x hx
  unfold bindVar at hx
  obtain ⟨j, _, rfl⟩ := List.mem_map.1 hx
  have : (0 : Int) < n := by exact_mod_cast hn
  exact ⟨Int.emod_nonneg _ this.ne', Int.emod_lt_of_pos _ this⟩

theorem half_sum (e : List Int) (k : ℕ) (h : e.length = 2 ^ (k + 1)) :
    e.sum = (∑ i ∈ Finset.range (2 ^ k), e.getD i 0) + ∑ i ∈ Finset.range (2 ^ k), e.getD (i + 2 ^ k) 0 := by
  rw [sum_getD, h, pow_succ, mul_two, Finset.sum_range_add]
  congr 1
  exact Finset.sum_congr rfl fun i _ => by rw [Nat.add_comm]

theorem bindVar_sum (e : List Int) (r : Int) (k : ℕ) (h : e.length = 2 ^ (k + 1)) :
    (((bindVar e r n).sum : Int) : ZMod n) =
      ((∑ i ∈ Finset.range (2 ^ k), e.getD i 0 : Int) : ZMod n) * (1 - (r : ZMod n)) +
      ((∑ i ∈ Finset.range (2 ^ k), e.getD (i + 2 ^ k) 0 : Int) : ZMod n) * (r : ZMod n) := by
  rw [sum_getD, bindVar_length e r n k h]
  push_cast
  rw [Finset.sum_mul, Finset.sum_mul, ← Finset.sum_add_distrib]
  apply Finset.sum_congr rfl
  intro i hi
  exact bindVar_get e r k h i (Finset.mem_range.1 hi)

theorem pairFold (f g : ℕ → Int) (h : ℕ) :
    let s := (List.range h).foldl (fun (s : Int × Int) j => (addMod s.1 (f j) n, addMod s.2 (g j) n)) (0, 0)
    (s.1 : ZMod n) = ((∑ i ∈ Finset.range h, f i : Int) : ZMod n) ∧
    (s.2 : ZMod n) = ((∑ i ∈ Finset.range h, g i : Int) : ZMod n) := by
  induction h with
  | zero => simp
  | succ h ih =>
    simp only [List.range_succ, List.foldl_append, List.foldl_cons, List.foldl_nil]
    rw [Finset.sum_range_succ, Finset.sum_range_succ]
    obtain ⟨h1, h2⟩ := ih
    push_cast [cast_add] at *
    rw [h1, h2]
    exact ⟨rfl, rfl⟩

/-- The honest round polynomial. -/
theorem nextRound (p : Prover) (k : ℕ) (hr : p.round < p.numVars) (h : p.evals.length = 2 ^ (k + 1)) :
    ∃ a0 a1, computeNextRoundPoly p n = some [a0, a1] ∧
      (a0 : ZMod n) = ((∑ i ∈ Finset.range (2 ^ k), p.evals.getD i 0 : Int) : ZMod n) ∧
      (a1 : ZMod n) = ((∑ i ∈ Finset.range (2 ^ k), p.evals.getD (i + 2 ^ k) 0 : Int) : ZMod n) -
        ((∑ i ∈ Finset.range (2 ^ k), p.evals.getD i 0 : Int) : ZMod n) := by
  have hh : p.evals.length / 2 = 2 ^ k := by rw [h, pow_succ]; omega
  unfold computeNextRoundPoly
  rw [if_pos hr]
  simp only [hh]
  refine ⟨_, _, rfl, ?_⟩
  obtain ⟨h1, h2⟩ := pairFold (n := n) (fun j => p.evals.getD j 0) (fun j => p.evals.getD (j + 2 ^ k) 0) (2 ^ k)
  rw [cast_sub, h1, h2]
  exact ⟨rfl, rfl⟩

theorem univariate_cast (a0 a1 r : Int) :
    ((evaluateUnivariate [a0, a1] r n : Int) : ZMod n) = a0 + a1 * r := by
  unfold evaluateUnivariate
  simp only [List.foldr_cons, List.foldr_nil, cast_add, cast_mul]
  push_cast
  ring

theorem univariate_range (hn : 0 < n) (a0 a1 r : Int) :
    0 ≤ evaluateUnivariate [a0, a1] r n ∧ evaluateUnivariate [a0, a1] r n < n := by
  have : (0 : Int) < n := by exact_mod_cast hn
  exact ⟨Int.emod_nonneg _ this.ne', Int.emod_lt_of_pos _ this⟩

theorem emod_eq_iff {a b : Int} (ha : 0 ≤ a ∧ a < n) : a = b % n ↔ (a : ZMod n) = b := by
  constructor
  · intro h; rw [h, cast_mod]
  · exact Vss.eq_of_cast ha

theorem mod_range (hn : 0 < n) (a : Int) : 0 ≤ a % (n : Int) ∧ a % (n : Int) < n := by
  have : (0 : Int) < n := by exact_mod_cast hn
  exact ⟨Int.emod_nonneg _ this.ne', Int.emod_lt_of_pos _ this⟩

/-- The honest run, from any state in which the prover's table has `2 ^ k` entries. -/
theorem rounds_spec (hn : 0 < n) (k : ℕ) (p : Prover) (v : Verifier) (tape : List Int)
    (hl : p.evals.length = 2 ^ k) (hp : p.round + k = p.numVars) (hv : v.round + k = v.numVars)
    (ht : tape.length = k) :
    (v.expected = p.evals.sum % n → ∃ p' v', rounds n k p v tape = some (some (p', v')) ∧
      p'.evals = tape.foldl (fun e ri => bindVar e ri n) p.evals ∧ p'.evals.length = 1 ∧
      p'.round = p'.numVars ∧ v'.round = v'.numVars ∧ v'.challenges = v.challenges ++ tape ∧
      v'.expected = p'.evals.sum % n) ∧
    (v.expected ≠ p.evals.sum % n → 0 < k → rounds n k p v tape = some none) := by
  induction k generalizing p v tape with
  | zero =>
    refine ⟨fun he => ?_, fun _ h => absurd h (by omega)⟩
    have := List.length_eq_zero_iff.1 ht
    subst this
    exact ⟨p, v, rfl, rfl, by simpa using hl, by omega, by omega, by simp, he⟩
  | succ k ih =>
    cases tape with
    | nil => simp at ht
    | cons c tape =>
      obtain ⟨a0, a1, hpoly, h0, h1⟩ := nextRound (n := n) p k (by omega) hl
      have hsum : (p.evals.sum : ZMod n) = (addMod a0 (addMod a0 a1 n) n : Int) := by
        rw [half_sum _ k hl, cast_add, cast_add, Int.cast_add, h1, ← h0]; ring
      have hse : addMod a0 (addMod a0 a1 n) n = p.evals.sum % n := by
        exact (emod_eq_iff (a := addMod a0 (addMod a0 a1 n) n) (mod_range hn _)).2 hsum.symm
      have hstep : rounds n (k + 1) p v (c :: tape) =
          if addMod a0 (addMod a0 a1 n) n ≠ v.expected then some none
          else rounds n k (processChallenge p c n)
            ⟨evaluateUnivariate [a0, a1] c n, v.numVars, v.round + 1, v.challenges ++ [c]⟩ tape := by
        simp only [rounds, hpoly, verifyRound]
        rw [if_pos (by omega)]
        by_cases hx : addMod a0 (addMod a0 a1 n) n ≠ v.expected
        · rw [if_pos hx, if_pos hx]
        · rw [if_neg hx, if_neg hx]
      rw [hstep]
      constructor
      · intro he
        rw [if_neg (by rw [hse, he]; simp)]
        have hs := (ih (processChallenge p c n)
          ⟨evaluateUnivariate [a0, a1] c n, v.numVars, v.round + 1, v.challenges ++ [c]⟩ tape
          (bindVar_length _ _ _ k hl) (by simp only [processChallenge]; omega) (by simp only; omega)
          (by simpa using ht)).1 (by
            rw [emod_eq_iff (univariate_range hn _ _ _), univariate_cast]
            simp only [processChallenge]
            rw [bindVar_sum _ _ k hl, h1, h0]
            ring)
        obtain ⟨p', v', hr, b1, b2, b3, b4, b5, b6⟩ := hs
        refine ⟨p', v', hr, ?_, b2, b3, b4, ?_, b6⟩
        · rw [b1]; rfl
        · rw [b5]; simp
      · intro he _
        rw [if_pos (by rw [hse]; exact Ne.symm he)]

theorem foldl_bind_range (hn : 0 < n) (e : List Int) (tape : List Int) (ht : tape ≠ []) :
    ∀ x ∈ tape.foldl (fun e ri => bindVar e ri n) e, 0 ≤ x ∧ x < n := by
  obtain ⟨l, a, rfl⟩ := List.eq_nil_or_concat tape |>.resolve_left ht
  rw [List.concat_eq_append, List.foldl_append]
  exact bindVar_range hn _ _

/-! ### C50 -/

/-- C50.  For every modulus, every table with at least one variable, every claimed sum and every list of
verifier challenges, `RunSumcheckProtocol` accepts exactly when the claim is the sum of the table modulo the
modulus.  (A wrong claim is rejected whatever the challenges.) -/
theorem C50_sumcheck (m : ℕ) (hm : 0 < m) (evals : List Int) (P : Poly) (hP : mkPoly evals = some P)
    (hk : 0 < P.numVars) (claimed : Int) (tape : List Int) (ht : tape.length = P.numVars) :
    runSumcheck P claimed m tape = some (decide (claimed = evals.sum % m)) := by
  obtain ⟨rfl, hl⟩ := mkPoly_some hP
  unfold runSumcheck
  obtain ⟨h1, h2⟩ := rounds_spec hm P.numVars (mkProver P) (mkVerifier claimed P.numVars) tape hl
    (by simp [mkProver]) (by simp [mkVerifier]) ht
  by_cases hc : claimed = P.evals.sum % m
  · obtain ⟨p', v', hr, b1, b2, b3, b4, b5, b6⟩ := h1 hc
    rw [hr]
    simp only
    obtain ⟨x, hx⟩ := List.length_eq_one_iff.1 b2
    have hxr : 0 ≤ x ∧ x < m := by
      have := foldl_bind_range hm P.evals tape (by intro h; subst h; simp at ht; omega) x
      apply this
      change p'.evals = tape.foldl (fun e ri => bindVar e ri m) P.evals at b1
      rw [← b1, hx]; simp
    unfold getFinalEvaluation finalCheck evaluate
    rw [if_pos ⟨b3, b2⟩, hx]
    simp only [List.getElem?_cons_zero, Option.bind_some]
    rw [show (mkVerifier claimed P.numVars).challenges ++ tape = tape from rfl] at b5
    rw [if_neg (by simpa using b4), b5, if_pos ht, if_neg (by omega)]
    change p'.evals = tape.foldl (fun e ri => bindVar e ri m) P.evals at b1
    rw [← b1, hx]
    simp only [List.getElem?_cons_zero, Option.map_some]
    rw [b6, hx]
    simp only [List.sum_cons, List.sum_nil, add_zero]
    rw [Int.emod_eq_of_lt hxr.1 hxr.2]
    simp [hc]
  · rw [h2 hc hk]
    simp [hc]

/-- C50, no variables: no rounds are run and the single value is compared as it is (not reduced). -/
theorem C50_constant (m : ℕ) (c claimed : Int) (tape : List Int) :
    ∃ P, mkPoly [c] = some P ∧ runSumcheck P claimed m tape = some (decide (claimed = c)) := by
  refine ⟨⟨[c], 0⟩, mkPoly_pow [c] 0 rfl, ?_⟩
  simp [runSumcheck, rounds, mkProver, mkVerifier, getFinalEvaluation, finalCheck, evaluate]

/-- Counting: if all but at most one first coordinate leave at most `k * p ^ k / p` bad tails, then there are
at most `(k + 1) * p ^ (k + 1) / p` bad vectors. -/
theorem count_step (p k : ℕ) (Q : (Fin (k + 1) → Fin p) → Prop) [DecidablePred Q] (B : Finset (Fin p)) (hB : B.card ≤ 1)
    (h : ∀ a, a ∉ B → (Finset.univ.filter fun r : Fin k → Fin p => Q (Fin.cons a r)).card * p ≤ k * p ^ k) :
    (Finset.univ.filter Q).card * p ≤ (k + 1) * p ^ (k + 1) := by
  have e : (Finset.univ.filter Q).card = ∑ a : Fin p, (Finset.univ.filter fun r : Fin k → Fin p => Q (Fin.cons a r)).card := by
    rw [Finset.card_filter]
    simp_rw [Finset.card_filter]
    rw [← Fintype.sum_prod_type']
    exact (Equiv.sum_comp (Fin.consEquiv fun _ => Fin p) fun r => if Q r then 1 else 0).symm
  rw [e, Finset.sum_mul]
  have hb : ∀ a, (Finset.univ.filter fun r : Fin k → Fin p => Q (Fin.cons a r)).card * p ≤
      k * p ^ k + if a ∈ B then p ^ (k + 1) else 0 := by
    intro a
    by_cases ha : a ∈ B
    · rw [if_pos ha]
      have : (Finset.univ.filter fun r : Fin k → Fin p => Q (Fin.cons a r)).card ≤ p ^ k := by
        refine (Finset.card_le_univ _).trans ?_
        simp
      calc _ ≤ p ^ k * p := Nat.mul_le_mul_right _ this
        _ = p ^ (k + 1) := (pow_succ _ _).symm
        _ ≤ _ := Nat.le_add_left _ _
    · rw [if_neg ha]; exact h a ha
  refine (Finset.sum_le_sum fun a _ => hb a).trans ?_
  rw [Finset.sum_add_distrib]
  simp only [Finset.sum_const, Finset.card_univ, Fintype.card_fin, smul_eq_mul, Finset.sum_ite_mem, Finset.univ_inter]
  calc p * (k * p ^ k) + B.card * p ^ (k + 1) ≤ p * (k * p ^ k) + 1 * p ^ (k + 1) :=
        Nat.add_le_add_left (Nat.mul_le_mul_right _ hB) _
    _ = (k + 1) * p ^ (k + 1) := by ring

theorem tapeOf_cons {k p : ℕ} (a : Fin p) (r : Fin k → Fin p) :
    tapeOf (Fin.cons a r : Fin (k + 1) → Fin p) = (a.val : Int) :: tapeOf r := by
  simp [tapeOf, List.ofFn_succ]

theorem fin_cast_inj {p : ℕ} (a b : Fin p) (h : ((a.val : Int) : ZMod p) = ((b.val : Int) : ZMod p)) : a = b := by
  have h2 := (ZMod.intCast_eq_intCast_iff _ _ _).1 h
  have := h2.eq
  rw [Int.emod_eq_of_lt (by omega) (by exact_mod_cast a.isLt), Int.emod_eq_of_lt (by omega) (by exact_mod_cast b.isLt)] at this
  exact Fin.ext (by exact_mod_cast this)

/-- At most one element of the field satisfies a non-trivial affine equation. -/
theorem affine_card {p : ℕ} [Fact p.Prime] (u w : ZMod p) (h : u ≠ 0 ∨ w ≠ 0) :
    (Finset.univ.filter fun a : Fin p => u + w * ((a.val : Int) : ZMod p) = 0).card ≤ 1 := by
  rw [Finset.card_le_one]
  intro a ha b hb
  simp only [Finset.mem_filter, Finset.mem_univ, true_and] at ha hb
  by_cases hw : w = 0
  · rw [hw] at ha; simp at ha
    exact absurd ha (h.resolve_right (by simp [hw]))
  · apply fin_cast_inj
    have : w * (((a.val : Int) : ZMod p) - ((b.val : Int) : ZMod p)) = 0 := by linear_combination ha - hb
    rcases mul_eq_zero.1 this with h | h
    · exact absurd h hw
    · exact sub_eq_zero.1 h

theorem count_zero {k p : ℕ} (Q : (Fin k → Fin p) → Prop) [DecidablePred Q] (h : ∀ r, ¬ Q r) (N : ℕ) :
    (Finset.univ.filter Q).card * p ≤ N := by
  rw [Finset.filter_false_of_mem (fun r _ => h r)]
  simp

theorem play_count {p : ℕ} [Fact p.Prime] (P : Poly) (strategy : List Int → List Int) (final : List Int → Int)
    (k : ℕ) (v : Verifier) (e : List Int) (hl : e.length = 2 ^ k) (hv : v.round + k = v.numVars)
    (hn : P.numVars = v.numVars) (hc : v.challenges.length = v.round) (hpos : 0 < P.numVars)
    (he : e = v.challenges.foldl (fun e ri => bindVar e ri p) P.evals)
    (hred : k = 0 → ∀ x ∈ e, 0 ≤ x ∧ x < p) (hbad : v.expected ≠ e.sum % p) :
    (Finset.univ.filter fun r : Fin k → Fin p => play p P strategy final v (tapeOf r) = some true).card * p ≤ k * p ^ k := by
  have hp : 0 < p := (Fact.out : p.Prime).pos
  induction k generalizing v e with
  | zero =>
    apply count_zero
    intro r hr
    have ht : tapeOf r = [] := by simp [tapeOf]
    rw [ht, play, finalCheck, if_neg (by simpa using hv), evaluate, if_pos (by omega), if_neg (by omega), ← he] at hr
    obtain ⟨x, hx⟩ := List.length_eq_one_iff.1 (by simpa using hl)
    have hxr := hred rfl x (by rw [hx]; simp)
    rw [hx] at hr hbad
    simp only [List.getElem?_cons_zero, Option.map_some, Option.some.injEq, Bool.and_eq_true, decide_eq_true_iff] at hr
    simp only [List.sum_cons, List.sum_nil, add_zero] at hbad
    rw [Int.emod_eq_of_lt hxr.1 hxr.2] at hbad
    exact hbad (hr.2.trans hr.1.symm)
  | succ k ih =>
    by_cases hok : ∃ a0 a1, strategy v.challenges = [a0, a1] ∧ addMod a0 (addMod a0 a1 p) p = v.expected
    · obtain ⟨a0, a1, hs, hsum⟩ := hok
      set S0 : ZMod p := ((∑ i ∈ Finset.range (2 ^ k), e.getD i 0 : Int) : ZMod p) with hS0
      set S1 : ZMod p := ((∑ i ∈ Finset.range (2 ^ k), e.getD (i + 2 ^ k) 0 : Int) : ZMod p) with hS1
      have hne : (a0 : ZMod p) - S0 ≠ 0 ∨ (a1 : ZMod p) - (S1 - S0) ≠ 0 := by
        by_contra hcon
        push Not at hcon
        apply hbad
        rw [← hsum]
        refine (emod_eq_iff (a := addMod a0 (addMod a0 a1 p) p) (mod_range hp _)).2 ?_
        rw [cast_add, cast_add, half_sum e k hl, Int.cast_add]
        linear_combination 2 * hcon.1 + hcon.2
      apply count_step p k _ _ (affine_card _ _ hne)
      intro a ha
      simp only [Finset.mem_filter, Finset.mem_univ, true_and] at ha
      have hplay : ∀ r : Fin k → Fin p, play p P strategy final v (tapeOf (Fin.cons a r : Fin (k + 1) → Fin p)) =
          play p P strategy final ⟨evaluateUnivariate [a0, a1] (a.val : Int) p, v.numVars, v.round + 1, v.challenges ++ [(a.val : Int)]⟩ (tapeOf r) := by
        intro r
        rw [tapeOf_cons, play, hs, verifyRound, if_pos (by omega), if_neg (by simpa using hsum)]
      simp only [hplay]
      apply ih ⟨evaluateUnivariate [a0, a1] (a.val : Int) p, v.numVars, v.round + 1, v.challenges ++ [(a.val : Int)]⟩ (bindVar e (a.val : Int) p) (bindVar_length _ _ _ _ hl) (by simp only; omega) hn (by simp [hc])
      · rw [he]; simp
      · intro _; exact bindVar_range hp _ _
      · simp only
        intro hcon
        apply ha
        have := (emod_eq_iff (univariate_range hp _ _ _)).1 hcon
        rw [univariate_cast, bindVar_sum e _ k hl] at this
        linear_combination this
    · apply count_zero
      intro r hr
      have : ∃ a r', r = (Fin.cons a r' : Fin (k + 1) → Fin p) := ⟨r 0, Fin.tail r, (Fin.cons_self_tail r).symm⟩
      obtain ⟨a, r', rfl⟩ := this
      push Not at hok
      have hvr : verifyRound v (strategy v.challenges) (a.val : Int) p = some none := by
        unfold verifyRound
        rw [if_pos (by omega)]
        split
        · rename_i a0 a1 hs
          rw [if_pos (hok a0 a1 hs)]
        · rfl
      rw [tapeOf_cons, play, hvr] at hr
      simp at hr

/-- C50, soundness.  Let the modulus be a prime `p` and let the claimed sum be wrong.  Whatever a prover does
(any strategy for choosing round polynomials, of any length, and the final value from the challenges so far),
among the `p ^ k` challenge vectors of the verifier at most `k * p ^ (k - 1)` make it accept. -/
theorem C50_soundness (p : ℕ) (hp : p.Prime) (evals : List Int) (P : Poly) (hP : mkPoly evals = some P)
    (k : ℕ) (hk : P.numVars = k) (hpos : 0 < k) (claimed : Int) (hwrong : claimed ≠ evals.sum % p)
    (strategy : List Int → List Int) (final : List Int → Int) :
    (Finset.univ.filter fun r : Fin k → Fin p =>
      play p P strategy final (mkVerifier claimed P.numVars) (tapeOf r) = some true).card ≤ k * p ^ (k - 1) := by
  haveI : Fact p.Prime := ⟨hp⟩
  obtain ⟨rfl, hl⟩ := mkPoly_some hP
  have := play_count (p := p) P strategy final k (mkVerifier claimed P.numVars) P.evals (by rw [hl, hk])
    (by simp [mkVerifier, hk]) rfl rfl (by omega) rfl (by omega) hwrong
  obtain ⟨j, rfl⟩ : ∃ j, k = j + 1 := ⟨k - 1, by omega⟩
  rw [pow_succ, ← mul_assoc] at this
  exact Nat.le_of_mul_le_mul_right this hp.pos

/-- Non-vacuity: two variables, modulus 7; the true claim is accepted, a false one rejected, and a cheating
prover that lies in the first round is accepted for a lucky challenge. -/
example : ∃ P, mkPoly [3, 5, 1, 6] = some P ∧ runSumcheck P 1 7 [4, 2] = some true ∧
    runSumcheck P 2 7 [4, 2] = some false ∧
    play 7 P (fun cs => if cs = [] then [0, 2] else [0, 2]) (fun _ => 4) (mkVerifier 2 2) [1, 2] = some true := by
  refine ⟨_, rfl, ?_, ?_, ?_⟩ <;> decide +kernel

/-! ### C82 -/

/-- The multilinear extension over a ring. -/
theorem ext_succ {R : Type*} [CommRing R] (k : ℕ) (f r : ℕ → R) :
    (∑ i ∈ Finset.range (2 ^ (k + 1)), f i *
      ∏ j ∈ Finset.range (k + 1), if i.testBit (k + 1 - 1 - j) then r j else 1 - r j) =
    ∑ i ∈ Finset.range (2 ^ k), (f i * (1 - r 0) + f (i + 2 ^ k) * r 0) *
      ∏ j ∈ Finset.range k, if i.testBit (k - 1 - j) then r (j + 1) else 1 - r (j + 1) := by
  rw [pow_succ, mul_two, Finset.sum_range_add, ← Finset.sum_add_distrib]
  apply Finset.sum_congr rfl
  intro i hi
  have hi := Finset.mem_range.1 hi
  rw [Finset.prod_range_succ', Finset.prod_range_succ']
  have e1 : ∀ j ∈ Finset.range k, (if i.testBit (k + 1 - 1 - (j + 1)) then r (j + 1) else 1 - r (j + 1)) =
      if i.testBit (k - 1 - j) then r (j + 1) else 1 - r (j + 1) := by
    intro j _
    rw [show k + 1 - 1 - (j + 1) = k - 1 - j by omega]
  have e2 : ∀ j ∈ Finset.range k, (if (2 ^ k + i).testBit (k + 1 - 1 - (j + 1)) then r (j + 1) else 1 - r (j + 1)) =
      if i.testBit (k - 1 - j) then r (j + 1) else 1 - r (j + 1) := by
    intro j hj
    have hj := Finset.mem_range.1 hj
    rw [show k + 1 - 1 - (j + 1) = k - 1 - j by omega, Nat.testBit_two_pow_add_gt (by omega)]
  rw [Finset.prod_congr rfl e1, Finset.prod_congr rfl e2]
  have b1 : i.testBit (k + 1 - 1 - 0) = false := Nat.testBit_lt_two_pow (by simpa using hi)
  have b2 : (2 ^ k + i).testBit (k + 1 - 1 - 0) = true := by
    simp only [Nat.add_sub_cancel, Nat.sub_zero]
    rw [Nat.testBit_two_pow_add_eq, Nat.testBit_lt_two_pow hi]
    rfl
  rw [b1, b2, Nat.add_comm (2 ^ k) i]
  simp only [if_true]
  simp
  ring

theorem foldl_bind_length (m : Int) (e r : List Int) (k : ℕ) (h : e.length = 2 ^ (r.length + k)) :
    (r.foldl (fun e ri => bindVar e ri m) e).length = 2 ^ k := by
  induction r generalizing e with
  | nil => simpa using h
  | cons a r ih =>
    rw [List.foldl_cons]
    apply ih
    rw [bindVar_length _ _ _ (r.length + k) (by rw [h, List.length_cons]; congr 1; omega)]

theorem foldl_bind_cast {n : ℕ} (e r : List Int) (h : e.length = 2 ^ r.length) :
    (((r.foldl (fun e ri => bindVar e ri n) e).getD 0 0 : Int) : ZMod n) = (mle e r : Int) := by
  induction r generalizing e with
  | nil => simp [mle]
  | cons a r ih =>
    rw [List.foldl_cons, ih _ (bindVar_length _ _ _ _ h)]
    unfold mle
    simp only [List.length_cons]
    rw [ext_succ r.length (fun i => e.getD i 0) (fun j => (a :: r).getD j 0)]
    push_cast
    apply Finset.sum_congr rfl
    intro i hi
    rw [bindVar_get e a r.length h i (Finset.mem_range.1 hi)]
    simp [Finset.prod_congr]

/-- C82.  For every modulus, table and point with at least one variable, `Evaluate` returns the multilinear
extension of the table at that point, reduced; the number of coordinates must be right or it throws. -/
theorem C82_evaluate (m : ℕ) (hm : 0 < m) (evals : List Int) (P : Poly) (hP : mkPoly evals = some P)
    (r : List Int) :
    (r.length = P.numVars → 0 < P.numVars → evaluate P r m = some (mle evals r % m)) ∧
    (r.length = P.numVars → P.numVars = 0 → evaluate P r m = some (mle evals r)) ∧
    (r.length ≠ P.numVars → evaluate P r m = none) := by
  obtain ⟨rfl, hl⟩ := mkPoly_some hP
  refine ⟨fun h hpos => ?_, fun h h0 => ?_, fun h => by unfold evaluate; rw [if_neg h]⟩
  · unfold evaluate
    rw [if_pos h, if_neg (by omega)]
    have hlen := foldl_bind_length (m : Int) P.evals r 0 (by rw [hl, h]; rfl)
    have hc := foldl_bind_cast (n := m) P.evals r (by rw [hl, h])
    obtain ⟨x, hx⟩ := List.length_eq_one_iff.1 (by simpa using hlen)
    have hr := foldl_bind_range hm P.evals r (by intro h2; subst h2; simp at h; omega) x (by rw [hx]; simp)
    rw [hx] at hc ⊢
    simp only [List.getElem?_cons_zero]
    congr 1
    exact Vss.eq_of_cast hr (by simpa using hc)
  · unfold evaluate
    rw [if_pos h, if_pos h0]
    rw [h0] at h hl
    have := List.length_eq_zero_iff.1 h
    subst this
    obtain ⟨x, hx⟩ := List.length_eq_one_iff.1 (by simpa using hl)
    rw [hx]
    simp [mle]

/-- C82: at the corner of the cube numbered `i` (most significant bit first) the extension is entry `i`. -/
theorem C82_corner (e : List Int) (k i : ℕ) (hi : i < 2 ^ k) :
    mle e ((List.range k).map fun j => if i.testBit (k - 1 - j) then 1 else 0) = e.getD i 0 := by
  unfold mle
  simp only [List.length_map, List.length_range]
  rw [Finset.sum_eq_single i]
  · rw [Finset.prod_eq_one, mul_one]
    intro j hj
    rw [getD_map_range _ _ _ (Finset.mem_range.1 hj)]
    split <;> simp_all
  · intro b hb hne
    have hb := Finset.mem_range.1 hb
    have : ∃ j, j < k ∧ b.testBit j ≠ i.testBit j := by
      by_contra hcon
      push Not at hcon
      apply hne
      apply Nat.eq_of_testBit_eq
      intro j
      by_cases hj : j < k
      · exact hcon j hj
      · rw [Nat.testBit_lt_two_pow (lt_of_lt_of_le hb (Nat.pow_le_pow_right (by omega) (by omega))),
          Nat.testBit_lt_two_pow (lt_of_lt_of_le hi (Nat.pow_le_pow_right (by omega) (by omega)))]
    obtain ⟨j, hj, hd⟩ := this
    rw [Finset.prod_eq_zero (i := k - 1 - j) (Finset.mem_range.2 (by omega)), mul_zero]
    rw [getD_map_range _ _ _ (by omega), show k - 1 - (k - 1 - j) = j by omega]
    cases hb : b.testBit j <;> cases hi2 : i.testBit j <;> simp_all
  · intro h; exact absurd (Finset.mem_range.2 hi) h

/-- Non-vacuity. -/
example : ∃ P, mkPoly [3, 5, 1, 6] = some P ∧ evaluate P [4, 2] 7 = some 2 ∧ evaluate P [4] 7 = none ∧
    mle [3, 5, 1, 6] [4, 2] = 23 := by
  refine ⟨_, rfl, ?_, ?_, ?_⟩ <;> decide +kernel

end
end Yacl.Sumcheck
