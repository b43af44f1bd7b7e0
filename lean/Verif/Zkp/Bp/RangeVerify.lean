/-
C92: the verdict of `VerifyMultiple` on any proof.
-/
import Verif.Zkp.Bp.RangeSound

namespace Yacl.Bp

open Finset

variable {F M : Type} [Field F] [DecidableEq F] [AddCommGroup M] [Module F M] [DecidableEq M]

/-- The challenges `y`, `z`, `x`, `w` of the transcript and its state after them. -/
def rangeAll (E : Env F M) (pf : RangeProof F M) (Vs : List M) (n : Nat) (st : List Nat) :
    (F × F × F × F) × List Nat :=
  let st := appendPoint E "S" pf.S (appendPoint E "A" pf.A
    (Vs.foldl (fun st V => appendPoint E "V" V st) (rangeDomainSep E n Vs.length st)))
  let cy := challengeScalar E "y" st
  let cz := challengeScalar E "z" cy.2
  let cx := challengeScalar E "x" (appendPoint E "T_2" pf.T2 (appendPoint E "T_1" pf.T1 cz.2))
  let cw := challengeScalar E "w" (appendScalar E "e_blinding" pf.eBlinding
    (appendScalar E "t_x_blinding" pf.txBlinding (appendScalar E "t_x" pf.tx cx.2)))
  ((cy.1, cz.1, cx.1, cw.1), cw.2)

/-- C92 (f): a verdict of `VerifyMultiple` is the verdict of the inner product verifier on
    the point of C92 (e), with the transcript's challenges. -/
theorem C92_verify_iff (E : Env F M) (B Bb : M) (gens : Gens M) (pf : RangeProof F M) (Vs : List M)
    (n : Nat) (st : List Nat) (v : Bool) (hn8 : n = 8 ∨ n = 16 ∨ n = 32 ∨ n = 64)
    (hcap : n ≤ gens.gensCapacity ∧ Vs.length ≤ gens.partyCapacity)
    (h : verifyMultiple E B Bb gens pf Vs n st = some v) :
    v = true ↔
      recursiveCheck (rounds (challenges E pf.ipp (n * Vs.length) (rangeAll E pf Vs n st).2) pf.ipp)
        (rangePoint B Bb gens n Vs.length pf.A pf.S pf.T1 pf.T2 (fun j => Vs.getD j 0) pf.txBlinding pf.eBlinding
          (rangeAll E pf Vs n st).1.1 (rangeAll E pf Vs n st).1.2.1 (rangeAll E pf Vs n st).1.2.2.1
          (rangeAll E pf Vs n st).1.2.2.2)
        (getAll gens.G n Vs.length)
        (scaled (expIter (rangeAll E pf Vs n st).1.1⁻¹ (n * Vs.length)) (getAll gens.H n Vs.length))
        ((rangeAll E pf Vs n st).1.2.2.2 • B) pf.ipp.a pf.ipp.b := by
  have hn : 0 < n := by omega
  generalize hm : Vs.length = m at *
  unfold verifyMultiple at h
  simp only [hm] at h
  rw [if_neg (by omega), if_neg (by omega), if_neg (by omega)] at h
  simp only [validateAndAppendPoint] at h
  split at h
  · cases h
  simp only [Option.bind_eq_bind, Option.bind_some] at h
  split at h
  · cases h
  simp only [Option.bind_some] at h
  split at h
  · cases h
  simp only [Option.bind_some] at h
  split at h
  · cases h
  simp only [Option.bind_some] at h
  unfold rangeAll
  simp only [hm]
  generalize challengeScalar E "y" _ = cy at *
  generalize challengeScalar E "z" _ = cz at *
  generalize challengeScalar E "x" _ = cx at *
  generalize challengeScalar E "w" _ = cw at *
  rw [Option.bind_eq_some_iff] at h
  obtain ⟨out, hout, h⟩ := h
  obtain ⟨us, st', hrep, hN, hL, hR, h32, hz, rfl⟩ := verificationScalars_eq E pf.ipp _ _ out hout
  have hch : challenges E pf.ipp (n * m) cw.2 = us := by simp [challenges, hrep]
  rw [hch]
  have hy : cy.1 ≠ 0 := by
    intro h0
    simp [invert, h0] at h
  have hd := delta_eq n m cy.1 cz.1
  simp only [invert, if_neg hy, Option.bind_some, hd, expIter_eq, getAll, share] at h
  have hconcat : (((List.range m).map fun i => cz.1 ^ i).flatMap fun ez =>
      ((List.range n).map fun i => (2 : F) ^ i).map fun e2 => ez * e2)
      = (List.range (n * m)).map fun k => cz.1 ^ (k / n) * 2 ^ (k % n) := by
    rw [List.flatMap_map]
    simp only [List.map_map, Function.comp_def]
    exact flat_eq n m hn (fun j i => cz.1 ^ j * (2 : F) ^ i)
  have hsl := sSpec_length us
  rw [← hN] at hsl
  rw [hconcat, flat_eq n m hn gens.G, flat_eq n m hn gens.H] at h
  rw [msm_eq (by simp [hsl, hL, hR, hm])] at h
  simp only [Option.bind_some, Option.some.injEq] at h
  have hG : getAll gens.G n m = (List.range (n * m)).map fun k => gens.G (k / n) (k % n) := by
    simp only [getAll, share]
    exact flat_eq n m hn gens.G
  have hH : scaled (expIter cy.1⁻¹ (n * m)) (getAll gens.H n m)
      = (List.range (n * m)).map fun k => cy.1⁻¹ ^ k • gens.H (k / n) (k % n) := by
    simp only [getAll, share]
    rw [flat_eq n m hn gens.H, expIter_eq, scaled_range]
  rw [hG, hH]
  unfold rounds
  rw [recursive_iff us pf.ipp.L pf.ipp.R _ _ _ _ _ _ hL hR (by simpa using hN) (by simpa using hN)]
  rw [← h, decide_eq_true_iff]
  generalize sSpec us = s at *
  rw [dot_append (by simp [hsl, hL, hR]), dot_append (by simp [hsl, hL, hR]),
    dot_append (by simp [hsl, hL, hR]), dot_append (by simp [hL, hR]), dot_append (by simp [hL]),
    dot_append (by simp)]
  simp only [dot_cons, dot_nil_left, add_zero, one_smul]
  rw [dot_affine _ _ _ _ (by simpa using hsl), range_sum, dot_range]
  have hsr := list_eq_range s.reverse 0 (n * m) (by simpa using hsl)
  have eH : ∑ k ∈ Finset.range (n * m), (cz.1 +
        ((List.range (n * m)).map fun i => cy.1⁻¹ ^ i).getD k 0 *
          (cz.1 * cz.1 * ((List.range (n * m)).map fun k => cz.1 ^ (k / n) * (2 : F) ^ (k % n)).getD k 0
            - pf.ipp.b * s.reverse.getD k 0)) • gens.H (k / n) (k % n)
      = (∑ k ∈ range (n * m), (cz.1 + cy.1⁻¹ ^ k * (cz.1 ^ 2 * (cz.1 ^ (k / n) * 2 ^ (k % n)))) • gens.H (k / n) (k % n))
        - pf.ipp.b • dot s.reverse ((List.range (n * m)).map fun k => cy.1⁻¹ ^ k • gens.H (k / n) (k % n)) := by
    conv_rhs => rw [hsr]
    rw [dot_range, Finset.smul_sum, ← Finset.sum_sub_distrib]
    refine sum_congr rfl fun k hk => ?_
    rw [Finset.mem_range] at hk
    rw [getD_range _ _ _ _ hk, getD_range _ _ _ _ hk]
    module
  have hV : dot (List.map (fun pz => cw.1 * (cz.1 * cz.1) * pz) (List.map (fun j => cz.1 ^ j) (List.range m))) Vs
      = (cw.1 * cz.1 ^ 2) • ∑ j ∈ range m, cz.1 ^ j • Vs.getD j 0 := by
    conv_lhs => rw [list_eq_range Vs 0 m hm]
    rw [List.map_map, dot_range, Finset.smul_sum]
    refine sum_congr rfl fun j _ => ?_
    simp only [Function.comp_def]
    module
  rw [eH, hV]
  have hdelta : cz.1 ^ 3 * (∑ i ∈ range n, 2 ^ i) * ∑ j ∈ range m, cz.1 ^ j
      = cz.1 ^ 3 * ∑ k ∈ range (n * m), cz.1 ^ (k / n) * 2 ^ (k % n) := by
    rw [sum_flat n m hn (fun j i => cz.1 ^ j * (2 : F) ^ i), mul_assoc, Finset.sum_mul_sum, Finset.sum_comm]
    refine congrArg _ (sum_congr rfl fun j _ => sum_congr rfl fun i _ => by ring)
  rw [hdelta]
  unfold rangePoint
  conv_rhs => rw [← sub_eq_zero]
  refine Eq.congr ?_ rfl
  module

end Yacl.Bp
