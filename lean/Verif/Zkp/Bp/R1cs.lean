/-
C115 (f)-(h): what the verifier of a rank-1 constraint system decides on a proof of the prover.
-/
import Verif.Zkp.Bp.R1csCircuit
import Mathlib.Tactic.Module
import Mathlib.Algebra.Polynomial.Roots

namespace Yacl.Bp.R1cs

open Finset

variable {F M : Type} [Field F] [DecidableEq F] [AddCommGroup M] [Module F M] [DecidableEq M]

/-! ### sums -/

omit [DecidableEq F] [DecidableEq M] in
theorem dot_list (a : List F) (n : Nat) (g : Nat → M) (h : a.length = n) :
    dot a ((List.range n).map g) = ∑ i ∈ Finset.range n, a.getD i 0 • g i := by
  conv_lhs => rw [list_eq_range a 0 n h]
  rw [dot_range]

omit [DecidableEq F] in
theorem dot_lists (a b : List F) (n : Nat) (h : a.length = n) (h' : b.length = n) :
    dot a b = ∑ i ∈ Finset.range n, a.getD i 0 * b.getD i 0 := by
  conv_lhs => rw [list_eq_range b 0 n h']
  rw [dot_list a n _ h]
  rfl

omit [DecidableEq F] [DecidableEq M] in
/-- The two phases as one weighted sum. -/
theorem phase_sum (n1 n N : Nat) (h1 : n1 ≤ n) (hN : n ≤ N) (u : F) (f : Nat → M) (hf : ∀ i, n ≤ i → f i = 0) :
    ∑ i ∈ Finset.range n1, f i + u • ∑ k ∈ Finset.range (n - n1), f (n1 + k)
      = ∑ i ∈ Finset.range N, (if n1 ≤ i then u else 1) • f i := by
  have e : N = n1 + ((n - n1) + (N - n)) := by omega
  conv_rhs => rw [e]
  rw [Finset.sum_range_add, Finset.sum_range_add, Finset.smul_sum]
  have z : ∑ x ∈ Finset.range (N - n), (if n1 ≤ n1 + (n - n1 + x) then u else (1 : F)) • f (n1 + (n - n1 + x)) = 0 := by
    refine sum_eq_zero fun k _ => ?_
    rw [hf _ (by omega), smul_zero]
  rw [z, add_zero]
  congr 1
  · refine sum_congr rfl fun i hi => ?_
    rw [Finset.mem_range] at hi
    rw [if_neg (by omega), one_smul]
  · refine sum_congr rfl fun i hi => ?_
    rw [if_pos (by omega)]

omit [DecidableEq F] in
theorem sum_extend (n N : Nat) (hN : n ≤ N) (f : Nat → F) (hf : ∀ i, n ≤ i → f i = 0) :
    ∑ i ∈ Finset.range N, f i = ∑ i ∈ Finset.range n, f i := by
  have e : N = n + (N - n) := by omega
  rw [e, Finset.sum_range_add, sum_eq_zero (s := Finset.range (N - n)) (fun k _ => hf _ (by omega)), add_zero]

theorem getD_beyond {X : Type} (l : List X) (d : X) (i : Nat) (h : l.length ≤ i) : l.getD i d = d := by
  rw [List.getD_eq_getElem?_getD, List.getElem?_eq_none_iff.2 h]
  rfl

theorem next_pow (n : Nat) : ∃ k, nextPowerOfTwo n = 2 ^ k ∧ n ≤ nextPowerOfTwo n := by
  unfold nextPowerOfTwo
  split
  · exact ⟨0, rfl, by omega⟩
  · split
    · obtain ⟨k, hk⟩ := pow2_of_and n (by omega) ‹_›
      exact ⟨k, hk, Nat.le_refl _⟩
    · refine ⟨Nat.log2 n + 1, by rw [Nat.one_shiftLeft], ?_⟩
      rw [Nat.one_shiftLeft]
      exact Nat.le_of_lt Nat.lt_log2_self

/-! ### the polynomials -/

omit [DecidableEq F] in
theorem specialInner_eq (n : Nat) (l0 l1 l2 l3 r0 r1 r2 r3 : Nat → F) :
    ∃ t, specialInner ⟨(List.range n).map l0, (List.range n).map l1, (List.range n).map l2, (List.range n).map l3⟩
        ⟨(List.range n).map r0, (List.range n).map r1, (List.range n).map r2, (List.range n).map r3⟩ = some t ∧
      t.T0 = ∑ i ∈ Finset.range n, l0 i * r0 i ∧
      t.T2 = ∑ i ∈ Finset.range n, (l0 i * r2 i + l1 i * r1 i + l2 i * r0 i) ∧
      ∀ x, t.eval x = ∑ i ∈ Finset.range n,
        (l0 i + l1 i * x + l2 i * (x * x) + l3 i * (x * x * x)) * (r0 i + r1 i * x + r2 i * (x * x) + r3 i * (x * x * x)) := by
  have hd : ∀ f g : Nat → F, innerProduct ((List.range n).map f) ((List.range n).map g)
      = some (∑ i ∈ Finset.range n, f i * g i) := by
    intro f g
    rw [innerProduct_eq (by simp), dot_range]
    rfl
  unfold specialInner
  simp only [hd, Option.bind_eq_bind, Option.bind_some]
  refine ⟨_, rfl, rfl, ?_, ?_⟩
  · simp only [Finset.sum_add_distrib]
  · intro x
    simp only [Poly6.eval, ← Finset.sum_add_distrib, Finset.sum_mul]
    refine sum_congr rfl fun i _ => ?_
    ring

/-- `l_i(x)` and `r_i(x)`. -/
def lAt (aL aO sL wR : Nat → F) (y x : F) (i : Nat) : F :=
  (aL i + y⁻¹ ^ i * wR i) * x + aO i * (x * x) + sL i * (x * x * x)

/-- `r_i(x)`. -/
def rAt (aR sR wL wO : Nat → F) (y x : F) (i : Nat) : F :=
  (wO i - y ^ i) + (y ^ i * aR i + wL i) * x + y ^ i * sR i * (x * x * x)

omit [DecidableEq F] [DecidableEq M] in
/-- The commitments of an honest prover, combined by the verifier, are a commitment to the
    evaluated vectors. -/
theorem vector_identity (N : Nat) (aL aR aO sL sR wL wR wO uG : Nat → F) (y x : F) (hy : y ≠ 0)
    (G H : Nat → M) :
    x • (∑ i ∈ Finset.range N, uG i • (aL i • G i) + ∑ i ∈ Finset.range N, uG i • (aR i • H i))
      + (x * x) • ∑ i ∈ Finset.range N, uG i • (aO i • G i)
      + (x * x * x) • (∑ i ∈ Finset.range N, uG i • (sL i • G i) + ∑ i ∈ Finset.range N, uG i • (sR i • H i))
      + ∑ i ∈ Finset.range N, (uG i * (x * (wR i * y⁻¹ ^ i))) • G i
      + ∑ i ∈ Finset.range N, (uG i * (y⁻¹ ^ i * (x * wL i + wO i) - 1)) • H i
    = ∑ i ∈ Finset.range N, lAt aL aO sL wR y x i • (uG i • G i)
      + ∑ i ∈ Finset.range N, rAt aR sR wL wO y x i • ((y⁻¹ ^ i * uG i) • H i) := by
  simp only [Finset.smul_sum, smul_add, ← Finset.sum_add_distrib]
  refine sum_congr rfl fun i _ => ?_
  have hyy : y ^ i * y⁻¹ ^ i = 1 := by rw [← mul_pow, mul_inv_cancel₀ hy, one_pow]
  have hr : rAt aR sR wL wO y x i * (y⁻¹ ^ i * uG i)
      = uG i * (y⁻¹ ^ i * (x * wL i + wO i) - 1) + uG i * (x * aR i + x * x * x * sR i) := by
    unfold rAt
    linear_combination (-uG i + uG i * aR i * x + uG i * sR i * x * x * x) * hyy
  rw [smul_smul (rAt aR sR wL wO y x i), hr]
  unfold lAt
  module

omit [DecidableEq F] in
/-- The coefficient of `x²` of an honest prover. -/
theorem t2_identity (n : Nat) (aL aR aO wL wR wO : Nat → F) (y : F) (hy : y ≠ 0)
    (hg : ∀ i, aO i = aL i * aR i) :
    ∑ i ∈ Finset.range n, (0 * 0 + (aL i + y⁻¹ ^ i * wR i) * (y ^ i * aR i + wL i) + aO i * (wO i - y ^ i))
      = ∑ i ∈ Finset.range n, wL i * aL i + ∑ i ∈ Finset.range n, wR i * aR i + ∑ i ∈ Finset.range n, wO i * aO i
        + ∑ i ∈ Finset.range n, wL i * (wR i * y⁻¹ ^ i) := by
  simp only [← Finset.sum_add_distrib]
  refine sum_congr rfl fun i _ => ?_
  have hyy : y ^ i * y⁻¹ ^ i = 1 := by rw [← mul_pow, mul_inv_cancel₀ hy, one_pow]
  rw [hg i]
  linear_combination (wR i * aR i) * hyy

/-! ### commitments of one phase -/

theorem commitPhase_eq (Bb : M) (ib ob sb : F) (aL aR aO sL sR : List F) (G H : Nat → M) (n : Nat)
    (h1 : aL.length = n) (h2 : aR.length = n) (h3 : aO.length = n) (h4 : sL.length = n) (h5 : sR.length = n) :
    commitPhase Bb ib ob sb aL aR aO sL sR ((List.range n).map G) ((List.range n).map H)
      = some (ib • Bb + (∑ i ∈ Finset.range n, aL.getD i 0 • G i + ∑ i ∈ Finset.range n, aR.getD i 0 • H i),
          ob • Bb + ∑ i ∈ Finset.range n, aO.getD i 0 • G i,
          sb • Bb + (∑ i ∈ Finset.range n, sL.getD i 0 • G i + ∑ i ∈ Finset.range n, sR.getD i 0 • H i)) := by
  unfold commitPhase
  rw [msm_eq (by simp [h1, h2]), msm_eq (by simp [h3]), msm_eq (by simp [h4, h5])]
  simp only [Option.bind_eq_bind, Option.bind_some, dot_cons]
  rw [dot_append (by simp [h1]), dot_append (by simp [h4]), dot_list _ _ _ h1, dot_list _ _ _ h2, dot_list _ _ _ h3,
    dot_list _ _ _ h4, dot_list _ _ _ h5]

theorem drop_range_map {X : Type} (f : Nat → X) (n n1 : Nat) :
    ((List.range n).map f).drop n1 = (List.range (n - n1)).map fun k => f (n1 + k) := by
  apply List.ext_getElem
  · simp
  · intro i h1 h2
    simp

theorem getD_drop {X : Type} (l : List X) (d : X) (n1 k : Nat) : (l.drop n1).getD k d = l.getD (n1 + k) d := by
  simp [List.getD_eq_getElem?_getD]

omit [DecidableEq F] in
theorem lrPolys_eq (n N : Nat) (hN : n ≤ N) (aL aR aO sL sR : List F) (y yi : F) (w : Weights F) :
    lrPolys n aL aR aO sL sR (expIter y N) (expIter yi N) w
      = (⟨(List.range n).map fun _ => 0, (List.range n).map fun i => aL.getD i 0 + yi ^ i * w.wR.getD i 0,
          (List.range n).map fun i => aO.getD i 0, (List.range n).map fun i => sL.getD i 0⟩,
         ⟨(List.range n).map fun i => w.wO.getD i 0 - y ^ i, (List.range n).map fun i => y ^ i * aR.getD i 0 + w.wL.getD i 0,
          (List.range n).map fun _ => 0, (List.range n).map fun i => y ^ i * sR.getD i 0⟩) := by
  have hz : List.replicate n (0 : F) = (List.range n).map fun _ => 0 := by
    rw [List.map_const', List.length_range]
  have hp : ∀ b : F, ∀ i, i < n → (expIter b N).getD i 0 = b ^ i := by
    intro b i hi
    rw [expIter_eq, getD_range _ _ _ _ (by omega)]
  unfold lrPolys
  rw [hz]
  congr 2
  · exact List.map_congr_left fun i hi => by rw [hp _ i (List.mem_range.1 hi)]
  · exact List.map_congr_left fun i hi => by rw [hp _ i (List.mem_range.1 hi)]
  · exact List.map_congr_left fun i hi => by rw [hp _ i (List.mem_range.1 hi)]
  · exact List.map_congr_left fun i hi => by rw [hp _ i (List.mem_range.1 hi)]

omit [DecidableEq F] in
theorem vecPoly3_eval (n : Nat) (f0 f1 f2 f3 : Nat → F) (x : F) :
    VecPoly3.eval ⟨(List.range n).map f0, (List.range n).map f1, (List.range n).map f2, (List.range n).map f3⟩ x
      = (List.range n).map fun i => f0 i + f1 i * x + f2 i * (x * x) + f3 i * (x * x * x) := by
  unfold VecPoly3.eval
  simp only [List.length_map, List.length_range]
  exact List.map_congr_left fun i hi => by
    rw [List.mem_range] at hi
    rw [getD_range _ _ _ _ hi, getD_range _ _ _ _ hi, getD_range _ _ _ _ hi, getD_range _ _ _ _ hi]

theorem pad_range {X : Type} (n N : Nat) (hN : n ≤ N) (f : Nat → X) (g : List X) (hg : g.length = N - n)
    (h : ∀ k (hk : k < g.length), g[k] = f (n + k)) :
    (List.range n).map f ++ g = (List.range N).map f := by
  apply List.ext_getElem
  · simp [hg]; omega
  · intro i h1 h2
    by_cases hi : i < n
    · rw [List.getElem_append_left (by simpa using hi)]
      simp
    · rw [List.getElem_append_right (by simpa using hi), h]
      simp only [List.length_map, List.length_range, List.getElem_map, List.getElem_range]
      congr 1
      omega

omit [DecidableEq F] [DecidableEq M] in
theorem dot_commitments (B Bb : M) (w v b : List F) (h : b.length = v.length) (hw : w.length = v.length) :
    dot w (List.zipWith (fun v b => v • B + b • Bb) v b) = dot w v • B + dot w b • Bb := by
  induction w generalizing v b with
  | nil => cases v <;> cases b <;> simp_all
  | cons x w ih =>
    cases v with
    | nil => simp at hw
    | cons y v =>
      cases b with
      | nil => simp at h
      | cons c b =>
        simp only [List.zipWith_cons_cons, dot_cons, smul_eq_mul]
        rw [ih v b (by simpa using h) (by simpa using hw)]
        module

/-! ### the verdict -/

/-- The challenges `z`, `x` and `r` of a verifier that ended the second phase with transcript `st`
    and reads a proof for `n` padded multipliers. -/
def checkChallenges (E : Env F M) (pf : Proof F M) (n : Nat) (st : List Nat) : F × F × F :=
  let c := challengesV E pf st
  (c.1.2.1, c.1.2.2.2.1, (challengeScalar E "r" (match verificationScalars E pf.ipp n c.2 with
    | some o => o.2
    | none => [])).1)

/-- C115 (f): a verifier that makes the calls of the prover and is given its commitments and its
    proof accepts exactly when the values of the constraints, combined with powers of the
    challenge `z`, vanish (or one of the challenges `r`, `x` or the base point does). -/
theorem C115_honest_verdict (E : Env F M) (B Bb : M) (gens : Gens M) (rand : Rand F) (prog : Prog F)
    (st : List Nat) (s s' : PSt F M) (pf : Proof F M)
    (hrun : runP E B Bb prog (newP E st) = some s) (h : prove E B Bb gens rand s = some (pf, s'))
    (hsize : nextPowerOfTwo s'.aL.length < 2 ^ 32)
    (hL : ∀ L ∈ pf.ipp.L, L ≠ 0) (hR : ∀ R ∈ pf.ipp.R, R ≠ 0) :
    ∃ vs ph, runV E prog (newV E st s'.Vs) = some vs ∧ secondPhase E pf vs = some ph ∧
      verify E B Bb gens pf vs = some (decide
        (((checkChallenges E pf (nextPowerOfTwo ph.2.num) ph.2.st).2.2
          * (checkChallenges E pf (nextPowerOfTwo ph.2.num) ph.2.st).2.1 ^ 2
          * combined (asg s') (checkChallenges E pf (nextPowerOfTwo ph.2.num) ph.2.st).1 s'.cons) • B = 0)) := by
  have hw := (runP_spec E B Bb prog _ s (wf_new E B Bb st) hrun).1
  have hrunV := (C115_same_circuit E B Bb prog st s hrun).1
  unfold prove at h
  simp only at h
  split at h
  · cases h
  rename_i hcap1
  simp only [share] at h
  rw [commitPhase_eq Bb _ _ _ _ _ _ _ _ _ _ s.aL.length rfl hw.lenR hw.lenO (by simp) (by simp)] at h
  simp only [Option.bind_eq_bind, Option.bind_some] at h
  generalize hA1 : rand.i1 • Bb + _ = AI1 at h
  generalize hO1 : rand.o1 • Bb + _ = AO1 at h
  generalize hS1 : rand.s1 • Bb + _ = S1 at h
  rw [Option.bind_eq_some_iff] at h
  obtain ⟨s₂, hrand, h⟩ := h
  obtain ⟨hw2, hkn, new, hVs, hv2⟩ := randomize_spec E B Bb _ s₂
    (by exact ⟨hw.lenR, hw.lenO, hw.lenB, hw.comm, hw.gate, hw.pend⟩) hrand
  split at h
  · cases h
  rename_i hcap2
  have hle : s.aL.length ≤ s₂.aL.length := by
    by_contra hc
    have := (hkn (.left s₂.aL.length) (by simp only [Known]; omega)).1
    simp [Known] at this
  obtain ⟨kp, hkp, hnN⟩ := next_pow s₂.aL.length
  -- the second phase
  generalize hsL : (List.range s.aL.length).map rand.sL1
    ++ (List.range (s₂.aL.length - s.aL.length)).map rand.sL2 = sL at h
  generalize hsR : (List.range s.aL.length).map rand.sR1
    ++ (List.range (s₂.aL.length - s.aL.length)).map rand.sR2 = sR at h
  have hp2 : ∃ p2, commitPhase2 Bb gens rand s.aL.length s₂ = some p2 ∧
      p2.AI2 = p2.i2 • Bb + (∑ k ∈ Finset.range (s₂.aL.length - s.aL.length), s₂.aL.getD (s.aL.length + k) 0 • gens.G 0 (s.aL.length + k)
        + ∑ k ∈ Finset.range (s₂.aL.length - s.aL.length), s₂.aR.getD (s.aL.length + k) 0 • gens.H 0 (s.aL.length + k)) ∧
      p2.AO2 = p2.o2 • Bb + ∑ k ∈ Finset.range (s₂.aL.length - s.aL.length), s₂.aO.getD (s.aL.length + k) 0 • gens.G 0 (s.aL.length + k) ∧
      p2.S2 = p2.s2 • Bb + (∑ k ∈ Finset.range (s₂.aL.length - s.aL.length), sL.getD (s.aL.length + k) 0 • gens.G 0 (s.aL.length + k)
        + ∑ k ∈ Finset.range (s₂.aL.length - s.aL.length), sR.getD (s.aL.length + k) 0 • gens.H 0 (s.aL.length + k)) := by
    unfold commitPhase2
    simp only [share]
    split
    · rw [drop_range_map, drop_range_map, commitPhase_eq Bb _ _ _ _ _ _ _ _ _ _ (s₂.aL.length - s.aL.length)
        (by simp) (by simp [hw2.lenR]) (by simp [hw2.lenO]) (by simp) (by simp)]
      simp only [Option.bind_eq_bind, Option.bind_some, Option.some.injEq, getD_drop]
      refine ⟨_, rfl, rfl, rfl, ?_⟩
      have e1 : ∀ k, k < s₂.aL.length - s.aL.length → sL.getD (s.aL.length + k) 0 = ((List.range (s₂.aL.length - s.aL.length)).map rand.sL2).getD k 0 := by
        intro k hk
        rw [← hsL]
        simp [List.getD_eq_getElem?_getD, List.getElem?_append_right]
      have e2 : ∀ k, k < s₂.aL.length - s.aL.length → sR.getD (s.aL.length + k) 0 = ((List.range (s₂.aL.length - s.aL.length)).map rand.sR2).getD k 0 := by
        intro k hk
        rw [← hsR]
        simp [List.getD_eq_getElem?_getD, List.getElem?_append_right]
      simp only
      congr 2
      · exact sum_congr rfl fun k hk => by rw [e1 k (Finset.mem_range.1 hk)]
      · exact sum_congr rfl fun k hk => by rw [e2 k (Finset.mem_range.1 hk)]
    · refine ⟨_, rfl, ?_⟩
      have : s₂.aL.length - s.aL.length = 0 := by omega
      rw [this]
      simp
  obtain ⟨p2, hp2, hAI2, hAO2, hS2⟩ := hp2
  rw [hp2] at h
  simp only [Option.bind_some] at h
  generalize hcy : challengeScalar E "y" _ = cy at h
  generalize hcz : challengeScalar E "z" _ = cz at h
  unfold respond at h
  simp only [Option.bind_eq_bind, Option.bind_eq_some_iff] at h
  obtain ⟨w, hfl, yi, hyi, t, ht, t2b, ht2b, h⟩ := h
  have hy : cy.1 ≠ 0 := by
    intro h0
    simp [invert, h0] at hyi
  obtain rfl : yi = cy.1⁻¹ := by
    simp only [invert, if_neg hy] at hyi
    exact (Option.some.inj hyi).symm
  obtain ⟨cst, hflT, hfit, -, hcomb⟩ := C115_flatten B Bb s₂ hw2 cz.1 w hfl
  rw [lrPolys_eq _ _ hnN] at ht h
  obtain ⟨t', ht', ht0, ht2, htx⟩ := specialInner_eq s₂.aL.length (fun _ => 0)
    (fun i => s₂.aL.getD i 0 + cy.1⁻¹ ^ i * w.wR.getD i 0) (fun i => s₂.aO.getD i 0) (fun i => sL.getD i 0)
    (fun i => w.wO.getD i 0 - cy.1 ^ i) (fun i => cy.1 ^ i * s₂.aR.getD i 0 + w.wL.getD i 0) (fun _ => 0)
    (fun i => cy.1 ^ i * sR.getD i 0)
  rw [ht'] at ht
  obtain rfl : t' = t := Option.some.inj ht
  simp only [vecPoly3_eval, pedersen_eq] at h
  generalize hcu : challengeScalar E "u" _ = cu at h
  generalize hcx : challengeScalar E "x" _ = cx at h
  unfold finish at h
  simp only [Option.bind_eq_bind] at h
  have hsLl : sL.length = s₂.aL.length := by rw [← hsL]; simp; omega
  have hsRl : sR.length = s₂.aL.length := by rw [← hsR]; simp; omega
  have hfR := hfit.R
  have hfO := hfit.O
  rw [hw2.lenR] at hfR
  rw [hw2.lenO] at hfO
  have zaL : ∀ i, s₂.aL.length ≤ i → s₂.aL.getD i 0 = 0 := fun i hi => getD_beyond _ _ _ hi
  have zaR : ∀ i, s₂.aL.length ≤ i → s₂.aR.getD i 0 = 0 := fun i hi => getD_beyond _ _ _ (by rw [hw2.lenR]; exact hi)
  have zaO : ∀ i, s₂.aL.length ≤ i → s₂.aO.getD i 0 = 0 := fun i hi => getD_beyond _ _ _ (by rw [hw2.lenO]; exact hi)
  have zsL : ∀ i, s₂.aL.length ≤ i → sL.getD i 0 = 0 := fun i hi => getD_beyond _ _ _ (by rw [hsLl]; exact hi)
  have zsR : ∀ i, s₂.aL.length ≤ i → sR.getD i 0 = 0 := fun i hi => getD_beyond _ _ _ (by rw [hsRl]; exact hi)
  have zwL : ∀ i, s₂.aL.length ≤ i → w.wL.getD i 0 = 0 := fun i hi => getD_beyond _ _ _ (by rw [hfit.L]; exact hi)
  have zwR : ∀ i, s₂.aL.length ≤ i → w.wR.getD i 0 = 0 := fun i hi => getD_beyond _ _ _ (by rw [hfR]; exact hi)
  have zwO : ∀ i, s₂.aL.length ≤ i → w.wO.getD i 0 = 0 := fun i hi => getD_beyond _ _ _ (by rw [hfO]; exact hi)
  generalize hN : nextPowerOfTwo s₂.aL.length = N at *
  generalize hn : s₂.aL.length = n at *
  generalize hn1 : s.aL.length = n1 at *
  generalize heb : cx.1 * (rand.i1 + cu.1 * p2.i2 + cx.1 * (rand.o1 + cu.1 * p2.o2 + cx.1 * (rand.s1 + cu.1 * p2.s2))) = eb at h
  generalize htxb : Poly6.eval ⟨0, rand.t1, t2b, rand.t3, rand.t4, rand.t5, rand.t6⟩ cx.1 = txb at h
  generalize htxv : t'.eval cx.1 = tx at h
  generalize hcw : challengeScalar E "w" _ = cw at h
  -- the vectors of the inner product argument
  have el : (List.range n).map (fun i => 0 + (s₂.aL.getD i 0 + cy.1⁻¹ ^ i * w.wR.getD i 0) * cx.1
        + s₂.aO.getD i 0 * (cx.1 * cx.1) + sL.getD i 0 * (cx.1 * cx.1 * cx.1)) ++ List.replicate (N - n) 0
      = (List.range N).map (lAt (fun i => s₂.aL.getD i 0) (fun i => s₂.aO.getD i 0) (fun i => sL.getD i 0)
          (fun i => w.wR.getD i 0) cy.1 cx.1) := by
    rw [← pad_range n N hnN _ (List.replicate (N - n) 0) (by simp) (by
      intro k hk
      simp only [List.getElem_replicate, lAt]
      rw [zaL _ (by omega), zaO _ (by omega), zsL _ (by omega), zwR _ (by omega)]
      ring)]
    congr 1
    exact List.map_congr_left fun i _ => by unfold lAt; ring
  have er : (List.range n).map (fun i => w.wO.getD i 0 - cy.1 ^ i + (cy.1 ^ i * s₂.aR.getD i 0 + w.wL.getD i 0) * cx.1
        + 0 * (cx.1 * cx.1) + cy.1 ^ i * sR.getD i 0 * (cx.1 * cx.1 * cx.1))
        ++ (List.range (N - n)).map (fun k => -(expIter cy.1 N).getD (n + k) 0)
      = (List.range N).map (rAt (fun i => s₂.aR.getD i 0) (fun i => sR.getD i 0) (fun i => w.wL.getD i 0)
          (fun i => w.wO.getD i 0) cy.1 cx.1) := by
    rw [← pad_range n N hnN _ ((List.range (N - n)).map (fun k => -(expIter cy.1 N).getD (n + k) 0)) (by simp) (by
      intro k hk
      simp only [List.length_map, List.length_range] at hk
      simp only [List.getElem_map, List.getElem_range, rAt]
      rw [zaR _ (by omega), zwO _ (by omega), zsR _ (by omega), zwL _ (by omega), expIter_eq, getD_range _ _ _ _ (by omega)]
      ring)]
    congr 1
    exact List.map_congr_left fun i _ => by unfold rAt; ring
  have eh : (List.range N).map (fun i => (expIter cy.1⁻¹ N).getD i 0
        * ((List.range N).map (fun i => if n1 ≤ i then cu.1 else 1)).getD i 0)
      = (List.range N).map (fun i => cy.1⁻¹ ^ i * (if n1 ≤ i then cu.1 else 1)) := by
    refine List.map_congr_left fun i hi => ?_
    rw [List.mem_range] at hi
    rw [expIter_eq, getD_range _ _ _ _ hi, getD_range _ _ _ _ hi]
  rw [hyi] at h
  simp only [Option.bind_some] at h
  rw [el, er, eh] at h
  rw [Option.bind_eq_some_iff] at h
  obtain ⟨ipp, hipp, h⟩ := h
  simp only [Option.some.injEq, Prod.mk.injEq] at h
  obtain ⟨hpf, hs'⟩ := h
  subst hpf
  simp only at hL hR
  have hs'aL : s'.aL.length = n := by rw [← hs']; exact hn
  have hasg : asg s' = asg s₂ := by
    rw [← hs']
    funext x
    cases x <;> rfl
  have hcons : s'.cons = s₂.cons := by rw [← hs']
  have hVs' : s'.Vs = s.Vs ++ new := by rw [← hs']; exact hVs
  rw [hs'aL, hN] at hsize
  obtain ⟨us, hk, -, -, -, -, -, hLl, hRl, -, hvs, hrec⟩ := create_scalars E _ _ _ _ _ _ _ _ ipp.1 ipp.2
    (by simpa [share] using hsize) hipp hL hR
  simp only [share, List.length_map, List.length_range] at hk hvs
  simp only [share] at hrec
  rw [scaled_range, scaled_range] at hrec
  unfold rounds at hrec
  rw [recursive_iff us ipp.1.L ipp.1.R _ _ _ _ _ _ hLl hRl (by simpa using hk) (by simpa using hk)] at hrec
  have hsl := sSpec_length us
  rw [← hk] at hsl
  have hVlen : s.Vs.length = s.v.length := by rw [hw.comm]; simp [hw.lenB]
  have hVlen2 : s₂.Vs.length = s₂.v.length := by rw [hw2.comm]; simp [hw2.lenB]
  generalize hpfe : (Proof.mk AI1 AO1 S1 p2.AI2 p2.AO2 p2.S2 _ _ _ _ _ tx txb eb ipp.1 : Proof F M) = pf
  have eAI1 := congrArg Proof.AI1 hpfe
  have eAO1 := congrArg Proof.AO1 hpfe
  have eS1 := congrArg Proof.S1 hpfe
  have eAI2 := congrArg Proof.AI2 hpfe
  have eAO2 := congrArg Proof.AO2 hpfe
  have eS2 := congrArg Proof.S2 hpfe
  have eT1 := congrArg Proof.T1 hpfe
  have eT3 := congrArg Proof.T3 hpfe
  have eT4 := congrArg Proof.T4 hpfe
  have eT5 := congrArg Proof.T5 hpfe
  have eT6 := congrArg Proof.T6 hpfe
  have etx := congrArg Proof.tx hpfe
  have etxb := congrArg Proof.txBlinding hpfe
  have eeb := congrArg Proof.eBlinding hpfe
  have eipp := congrArg Proof.ipp hpfe
  simp only at eAI1 eAO1 eS1 eAI2 eAO2 eS2 eT1 eT3 eT4 eT5 eT6 etx etxb eeb eipp
  clear hpfe
  have hph : secondPhase E pf (verifierOf s new) = some (n1, verifierOf s₂ []) := by
    unfold secondPhase
    have := hv2 []
    rw [List.append_nil] at this
    simp only [verifierOf, hVlen] at this ⊢
    rw [hn1] at this ⊢
    rw [← eAI1, ← eAO1, ← eS1, this]
    rfl
  have hch : challengesV E pf s₂.st = ((cy.1, cz.1, cu.1, cx.1, cw.1), cw.2) := by
    unfold challengesV
    simp only [← eAI2, ← eAO2, ← eS2, ← eT1, ← eT3, ← eT4, ← eT5, ← eT6, ← etx, ← etxb, ← eeb, hcy, hcz, hcu, hcx, hcw]
  have hcc : checkChallenges E pf N s₂.st = (cz.1, cx.1, (challengeScalar E "r" ipp.2).1) := by
    unfold checkChallenges
    simp only [hch, ← eipp, hvs]
  refine ⟨verifierOf s new, (n1, verifierOf s₂ []), ?_, hph, ?_⟩
  · rw [hVs']
    exact hrunV new
  rw [hcons, hasg]
  have hnum : (verifierOf s₂ []).num = n := hn
  have hst : (verifierOf s₂ []).st = s₂.st := rfl
  have hVV : (verifierOf s₂ []).V = s₂.Vs := rfl
  have hcc' : (verifierOf s₂ []).cons = s₂.cons := rfl
  simp only [hnum, hN, hst, hcc]
  unfold verify
  rw [hph]
  simp only [Option.bind_eq_bind, Option.bind_some, hnum, hN, hst, hVV, hcc']
  rw [if_neg hcap2]
  simp only [hch, hVlen2, hflT, Option.bind_some, ← eipp, hvs, hyi]
  generalize challengeScalar E "r" ipp.2 = cr
  generalize sSpec us = sv at *
  have hyn : (List.range n).map (fun i => w.wR.getD i 0 * (expIter cy.1⁻¹ N).getD i 0)
      = (List.range n).map (fun i => w.wR.getD i 0 * cy.1⁻¹ ^ i) := by
    refine List.map_congr_left fun i hi => ?_
    rw [List.mem_range] at hi
    rw [expIter_eq, getD_range _ _ _ _ (by omega)]
  rw [hyn]
  have hyz : ∀ i, ((List.range n).map (fun i => w.wR.getD i 0 * cy.1⁻¹ ^ i)).getD i 0 = w.wR.getD i 0 * cy.1⁻¹ ^ i := by
    intro i
    by_cases hi : i < n
    · rw [getD_range _ _ _ _ hi]
    · rw [getD_beyond _ _ _ (by simpa using hi), zwR i (by omega), zero_mul]
  have hug : ∀ i, i < N → (List.replicate n1 (1 : F) ++ List.replicate (n - n1 + (N - n)) cu.1).getD i 0
      = if n1 ≤ i then cu.1 else 1 := by
    intro i hi
    by_cases h : n1 ≤ i
    · rw [if_pos h, List.getD_eq_getElem?_getD, List.getElem?_append_right (by simpa using h)]
      simp only [List.length_replicate, List.getElem?_replicate]
      rw [if_pos (by omega)]
      rfl
    · rw [if_neg h, List.getD_eq_getElem?_getD, List.getElem?_append_left (by simpa using h)]
      simp only [List.getElem?_replicate]
      rw [if_pos (by omega)]
      rfl
  have hdelta : innerProduct w.wL ((List.range n).map (fun i => w.wR.getD i 0 * cy.1⁻¹ ^ i))
      = some (∑ i ∈ Finset.range n, w.wL.getD i 0 * (w.wR.getD i 0 * cy.1⁻¹ ^ i)) := by
    have hl : w.wL.length = n := by rw [hfit.L]; exact hn
    rw [innerProduct_eq (by simpa using hl), dot_list _ _ _ hl]
    rfl
  rw [hdelta]
  simp only [Option.bind_some, hyz, share]
  rw [msm_eq (by simp [hLl, hRl, hfit.V, hVlen2])]
  simp only [Option.bind_some, Option.some.injEq]
  suffices hX : ∀ X : M, X = -((cr.1 * cx.1 ^ 2 * combined (asg s₂) cz.1 s₂.cons) • B) →
      decide (X = 0) = decide ((cr.1 * cx.1 ^ 2 * combined (asg s₂) cz.1 s₂.cons) • B = 0) by
    refine hX _ ?_
    rw [dot_append (by simp [hLl, hRl, hfit.V, hVlen2]), dot_append (by simp [hLl, hRl, hfit.V, hVlen2]),
      dot_append (by simp [hLl, hRl, hfit.V, hVlen2]), dot_append (by simp [hLl, hRl, hfit.V, hVlen2]),
      dot_append (by simp [hLl, hRl, hfit.V, hVlen2]), dot_append (by simp [hLl, hRl, hfit.V, hVlen2]),
      dot_append (by simp)]
    simp only [dot_cons, dot_nil_left, add_zero]
    rw [dot_range, dot_range]
    -- generators
    have eG : ∑ i ∈ Finset.range N, ((List.replicate n1 1 ++ List.replicate (n - n1 + (N - n)) cu.1).getD i 0 *
          (cx.1 * (w.wR.getD i 0 * cy.1⁻¹ ^ i) - ipp.1.a * sv.getD i 0)) • gens.G 0 i
        = ∑ i ∈ Finset.range N, ((if n1 ≤ i then cu.1 else 1) * (cx.1 * (w.wR.getD i 0 * cy.1⁻¹ ^ i))) • gens.G 0 i
          - ipp.1.a • dot sv ((List.range N).map fun i => (if n1 ≤ i then cu.1 else 1) • gens.G 0 i) := by
      rw [dot_list _ _ _ hsl, Finset.smul_sum, ← Finset.sum_sub_distrib]
      refine sum_congr rfl fun i hi => ?_
      rw [Finset.mem_range] at hi
      rw [hug i hi]
      module
    have eH : ∑ i ∈ Finset.range N, ((List.replicate n1 1 ++ List.replicate (n - n1 + (N - n)) cu.1).getD i 0 *
          ((expIter cy.1⁻¹ N).getD i 0 * (cx.1 * w.wL.getD i 0 + w.wO.getD i 0 - ipp.1.b * sv.reverse.getD i 0) - 1)) • gens.H 0 i
        = ∑ i ∈ Finset.range N, ((if n1 ≤ i then cu.1 else 1) * (cy.1⁻¹ ^ i * (cx.1 * w.wL.getD i 0 + w.wO.getD i 0) - 1)) • gens.H 0 i
          - ipp.1.b • dot sv.reverse ((List.range N).map fun i => (cy.1⁻¹ ^ i * (if n1 ≤ i then cu.1 else 1)) • gens.H 0 i) := by
      rw [dot_list _ _ _ (by simpa using hsl), Finset.smul_sum, ← Finset.sum_sub_distrib]
      refine sum_congr rfl fun i hi => ?_
      rw [Finset.mem_range] at hi
      rw [hug i hi, expIter_eq, getD_range _ _ _ _ hi]
      module
    rw [eG, eH]
    -- commitments
    have eV : dot (w.wV.map fun c => cr.1 * (cx.1 * cx.1) * c) s₂.Vs
        = (cr.1 * (cx.1 * cx.1)) • (dot w.wV s₂.v • B + t2b • Bb) := by
      have e2 : dot w.wV s₂.vBlinding = t2b := by
        rw [innerProduct_eq (by rw [hfit.V, hw2.lenB])] at ht2b
        exact Option.some.inj ht2b
      rw [dot_map_mul, hw2.comm, dot_commitments _ _ _ _ _ hw2.lenB hfit.V, e2]
    rw [eV]
    have hpre : ∀ i, i < n1 → s.aL.getD i 0 = s₂.aL.getD i 0 ∧ s.aR.getD i 0 = s₂.aR.getD i 0 ∧ s.aO.getD i 0 = s₂.aO.getD i 0 := by
      intro i hi
      refine ⟨((hkn (.left i) (by simp only [Known]; omega)).2).symm, ((hkn (.right i) ?_).2).symm, ((hkn (.out i) ?_).2).symm⟩
      · simp only [Known, hw.lenR]; omega
      · simp only [Known, hw.lenO]; omega
    have hpreL : ∀ i, i < n1 → ((List.range n1).map rand.sL1).getD i 0 = sL.getD i 0 := by
      intro i hi
      rw [← hsL, List.getD_eq_getElem?_getD, List.getD_eq_getElem?_getD, List.getElem?_append_left (by simpa using hi)]
    have hpreR : ∀ i, i < n1 → ((List.range n1).map rand.sR1).getD i 0 = sR.getD i 0 := by
      intro i hi
      rw [← hsR, List.getD_eq_getElem?_getD, List.getD_eq_getElem?_getD, List.getElem?_append_left (by simpa using hi)]
    have pL := phase_sum n1 n N hle hnN cu.1 (fun i => s₂.aL.getD i 0 • gens.G 0 i) (fun i hi => by rw [zaL i hi, zero_smul])
    have pR := phase_sum n1 n N hle hnN cu.1 (fun i => s₂.aR.getD i 0 • gens.H 0 i) (fun i hi => by rw [zaR i hi, zero_smul])
    have pO := phase_sum n1 n N hle hnN cu.1 (fun i => s₂.aO.getD i 0 • gens.G 0 i) (fun i hi => by rw [zaO i hi, zero_smul])
    have pSL := phase_sum n1 n N hle hnN cu.1 (fun i => sL.getD i 0 • gens.G 0 i) (fun i hi => by rw [zsL i hi, zero_smul])
    have pSR := phase_sum n1 n N hle hnN cu.1 (fun i => sR.getD i 0 • gens.H 0 i) (fun i hi => by rw [zsR i hi, zero_smul])
    have qL : ∑ i ∈ Finset.range n1, s.aL.getD i 0 • gens.G 0 i = ∑ i ∈ Finset.range n1, s₂.aL.getD i 0 • gens.G 0 i :=
      sum_congr rfl fun i hi => by rw [(hpre i (Finset.mem_range.1 hi)).1]
    have qR : ∑ i ∈ Finset.range n1, s.aR.getD i 0 • gens.H 0 i = ∑ i ∈ Finset.range n1, s₂.aR.getD i 0 • gens.H 0 i :=
      sum_congr rfl fun i hi => by rw [(hpre i (Finset.mem_range.1 hi)).2.1]
    have qO : ∑ i ∈ Finset.range n1, s.aO.getD i 0 • gens.G 0 i = ∑ i ∈ Finset.range n1, s₂.aO.getD i 0 • gens.G 0 i :=
      sum_congr rfl fun i hi => by rw [(hpre i (Finset.mem_range.1 hi)).2.2]
    have qSL : ∑ i ∈ Finset.range n1, ((List.range n1).map rand.sL1).getD i 0 • gens.G 0 i = ∑ i ∈ Finset.range n1, sL.getD i 0 • gens.G 0 i :=
      sum_congr rfl fun i hi => by rw [hpreL i (Finset.mem_range.1 hi)]
    have qSR : ∑ i ∈ Finset.range n1, ((List.range n1).map rand.sR1).getD i 0 • gens.H 0 i = ∑ i ∈ Finset.range n1, sR.getD i 0 • gens.H 0 i :=
      sum_congr rfl fun i hi => by rw [hpreR i (Finset.mem_range.1 hi)]
    rw [qL, qR] at hA1
    rw [qO] at hO1
    rw [qSL, qSR] at hS1
    have hvi := vector_identity N (fun i => s₂.aL.getD i 0) (fun i => s₂.aR.getD i 0) (fun i => s₂.aO.getD i 0)
      (fun i => sL.getD i 0) (fun i => sR.getD i 0) (fun i => w.wL.getD i 0) (fun i => w.wR.getD i 0)
      (fun i => w.wO.getD i 0) (fun i => if n1 ≤ i then cu.1 else 1) cy.1 cx.1 hy (gens.G 0) (gens.H 0)
    rw [← pL, ← pR, ← pO, ← pSL, ← pSR] at hvi
    -- the inner product
    unfold commitment at hrec
    rw [dot_range, dot_range, dot_range] at hrec
    have hip : ∑ i ∈ Finset.range N, lAt (fun i => s₂.aL.getD i 0) (fun i => s₂.aO.getD i 0) (fun i => sL.getD i 0)
          (fun i => w.wR.getD i 0) cy.1 cx.1 i • rAt (fun i => s₂.aR.getD i 0) (fun i => sR.getD i 0) (fun i => w.wL.getD i 0)
          (fun i => w.wO.getD i 0) cy.1 cx.1 i = pf.tx := by
      rw [← etx, ← htxv, htx]
      rw [sum_extend n N hnN _ (fun i hi => by
        simp only [lAt, smul_eq_mul]
        rw [zaL i hi, zaO i hi, zsL i hi, zwR i hi]
        ring)]
      exact sum_congr rfl fun i _ => by simp only [lAt, rAt, smul_eq_mul]; ring
    rw [hip] at hrec
    -- the coefficient of the second degree
    have hz0 : t'.T0 = 0 := by rw [ht0]; simp
    rw [t2_identity n (fun i => s₂.aL.getD i 0) (fun i => s₂.aR.getD i 0) (fun i => s₂.aO.getD i 0)
      (fun i => w.wL.getD i 0) (fun i => w.wR.getD i 0) (fun i => w.wO.getD i 0) cy.1 hy hw2.gate] at ht2
    rw [dot_lists w.wL s₂.aL n (by rw [hfit.L]; exact hn) hn, dot_lists w.wR s₂.aR n hfR (by rw [hw2.lenR]; exact hn),
      dot_lists w.wO s₂.aO n hfO (by rw [hw2.lenO]; exact hn)] at hcomb
    have ht2' : t'.T2 = combined (asg s₂) cz.1 s₂.cons + dot w.wV s₂.v + cst
        + ∑ i ∈ Finset.range n, w.wL.getD i 0 * (w.wR.getD i 0 * cy.1⁻¹ ^ i) := by
      rw [ht2, ← hcomb]
      ring
    simp only [Poly6.eval, hz0, ht2'] at htxv
    simp only [Poly6.eval] at htxb
    rw [← eAI1, ← eAO1, ← eS1, ← eAI2, ← eAO2, ← eS2, ← eT1, ← eT3, ← eT4, ← eT5, ← eT6, ← hA1, ← hO1, ← hS1, hAI2, hAO2, hS2]
    rw [← etx] at hrec ⊢
    rw [← eeb, ← etxb, ← heb, ← htxb]
    generalize (∑ i ∈ Finset.range n, w.wL.getD i 0 * (w.wR.getD i 0 * cy.1⁻¹ ^ i)) = delta at *
    generalize combined (asg s₂) cz.1 s₂.cons = cmb at *
    generalize dot w.wV s₂.v = wv at *
    have htxs := congrArg (fun c : F => (cr.1 * c) • B) htxv
    beta_reduce at htxs
    linear_combination (norm := module) hvi + hrec + htxs
  intro X hX
  rw [hX]
  simp only [neg_eq_zero]

/-- C115 (g): when the prover's values satisfy all constraints, those of callbacks included, the
    verifier accepts; assumed is that no point of the inner product argument is the identity. -/
theorem C115_complete_partial (E : Env F M) (B Bb : M) (gens : Gens M) (rand : Rand F) (prog : Prog F)
    (st : List Nat) (s s' : PSt F M) (pf : Proof F M)
    (hrun : runP E B Bb prog (newP E st) = some s) (h : prove E B Bb gens rand s = some (pf, s'))
    (hsize : nextPowerOfTwo s'.aL.length < 2 ^ 32)
    (hL : ∀ L ∈ pf.ipp.L, L ≠ 0) (hR : ∀ R ∈ pf.ipp.R, R ≠ 0)
    (hsat : ∀ lc ∈ s'.cons, lcVal (asg s') lc = 0) :
    ∃ vs, runV E prog (newV E st s'.Vs) = some vs ∧ verify E B Bb gens pf vs = some true := by
  obtain ⟨vs, ph, h1, -, h3⟩ := C115_honest_verdict E B Bb gens rand prog st s s' pf hrun h hsize hL hR
  refine ⟨vs, h1, h3.trans ?_⟩
  have h0 : ∀ z, combined (asg s') z s'.cons = 0 := by
    intro z
    unfold combined
    refine List.sum_eq_zero fun x hx => ?_
    obtain ⟨q, hq, rfl⟩ := List.mem_map.1 hx
    rw [List.mem_range] at hq
    rw [hsat _ (by rw [List.getD_eq_getElem _ _ hq]; exact List.getElem_mem hq), mul_zero]
  rw [h0, mul_zero, zero_smul]
  simp

omit [DecidableEq F] in
/-- The combination is a polynomial in `z` without constant term. -/
theorem combined_roots (a : Var → F) (cons : List (LC F)) (lc : LC F) (hlc : lc ∈ cons) (hv : lcVal a lc ≠ 0) :
    ∃ bad : Finset F, bad.card ≤ cons.length ∧ ∀ z, combined a z cons = 0 → z ∈ bad := by
  classical
  let p : Polynomial F := ∑ q ∈ Finset.range cons.length, Polynomial.monomial (q + 1) (lcVal a (cons.getD q []))
  have heval : ∀ z, p.eval z = combined a z cons := by
    intro z
    simp only [p, combined, Polynomial.eval_finset_sum, Polynomial.eval_monomial, range_sum]
    exact sum_congr rfl fun q _ => mul_comm _ _
  obtain ⟨q, hq, hqe⟩ := List.getElem_of_mem hlc
  have hcoef : p.coeff (q + 1) ≠ 0 := by
    simp only [p, Polynomial.finset_sum_coeff, Polynomial.coeff_monomial]
    rw [Finset.sum_eq_single q]
    · rw [if_pos rfl, List.getD_eq_getElem _ _ hq, hqe]
      exact hv
    · intro b _ hb
      rw [if_neg (by omega)]
    · intro h
      exact absurd (Finset.mem_range.2 hq) h
  have hp : p ≠ 0 := by
    intro h0
    rw [h0] at hcoef
    simp at hcoef
  have hdeg : p.natDegree ≤ cons.length := by
    refine Polynomial.natDegree_sum_le_of_forall_le _ _ fun q hq => ?_
    rw [Finset.mem_range] at hq
    exact (Polynomial.natDegree_monomial_le _).trans (by omega)
  refine ⟨p.roots.toFinset, (Multiset.toFinset_card_le _).trans ((Polynomial.card_roots' p).trans hdeg), fun z hz => ?_⟩
  rw [Multiset.mem_toFinset, Polynomial.mem_roots hp, Polynomial.IsRoot.def, heval, hz]

/-- C115 (h): when some constraint does not hold for the prover's values, a set of at most as many
    scalars as there are constraints, fixed by the values and the constraints alone, holds every
    challenge `z` for which the proof can be accepted (for non-zero `r`, `x` and base point). -/
theorem C115_unsatisfied (E : Env F M) (B Bb : M) (gens : Gens M) (rand : Rand F) (prog : Prog F)
    (st : List Nat) (s s' : PSt F M) (pf : Proof F M) (hB : B ≠ 0)
    (hrun : runP E B Bb prog (newP E st) = some s) (h : prove E B Bb gens rand s = some (pf, s'))
    (hsize : nextPowerOfTwo s'.aL.length < 2 ^ 32)
    (hL : ∀ L ∈ pf.ipp.L, L ≠ 0) (hR : ∀ R ∈ pf.ipp.R, R ≠ 0)
    (lc : LC F) (hlc : lc ∈ s'.cons) (hv : lcVal (asg s') lc ≠ 0) :
    ∃ bad : Finset F, bad.card ≤ s'.cons.length ∧ (∀ z, combined (asg s') z s'.cons = 0 → z ∈ bad) ∧
      ∀ vs ph, runV E prog (newV E st s'.Vs) = some vs → secondPhase E pf vs = some ph →
        (checkChallenges E pf (nextPowerOfTwo ph.2.num) ph.2.st).2.1 ≠ 0 →
        (checkChallenges E pf (nextPowerOfTwo ph.2.num) ph.2.st).2.2 ≠ 0 →
        verify E B Bb gens pf vs = some true →
        (checkChallenges E pf (nextPowerOfTwo ph.2.num) ph.2.st).1 ∈ bad := by
  obtain ⟨bad, hcard, hbad⟩ := combined_roots (asg s') s'.cons lc hlc hv
  refine ⟨bad, hcard, hbad, ?_⟩
  intro vs ph h1 h2 hx hr hacc
  obtain ⟨vs', ph', h1', h2', h3⟩ := C115_honest_verdict E B Bb gens rand prog st s s' pf hrun h hsize hL hR
  rw [h1] at h1'
  cases h1'
  rw [h2] at h2'
  cases h2'
  rw [hacc, Option.some.injEq, eq_comm, decide_eq_true_eq] at h3
  rcases smul_eq_zero.1 h3 with h0 | h0
  · refine hbad _ ?_
    rcases mul_eq_zero.1 h0 with h0 | h0
    · rcases mul_eq_zero.1 h0 with h0 | h0
      · exact absurd h0 hr
      · exact absurd (pow_eq_zero_iff (by decide) |>.1 h0) hx
    · exact h0
  · exact absurd h0 hB

/-! ### gadgets -/

omit [DecidableEq F] [AddCommGroup M] [Module F M] [DecidableEq M] in
theorem runV_cons (E : Env F M) (p : Prog F) (s s' : VSt F M) (h : runV E p s = some s') (lc : LC F)
    (hlc : lc ∈ s.cons) : lc ∈ s'.cons := by
  induction p generalizing s with
  | ret => cases h; exact hlc
  | fail => cases h
  | commit v b k ih =>
    simp only [runV] at h
    split at h
    · cases h
    · exact ih _ _ h hlc
  | append label msg k ih => exact ih _ h hlc
  | challenge label k ih => exact ih _ _ h hlc
  | multiply l r k ih => exact ih _ _ _ _ h (by simp [hlc])
  | allocate val k ih =>
    simp only [runV] at h
    split at h
    · exact ih _ _ h hlc
    · exact ih _ _ h hlc
  | allocMul val k ih => exact ih _ _ _ _ h hlc
  | constrain c k ih => exact ih _ h (by simp [hlc])
  | defer cb k _ ih => exact ih _ h hlc

omit [DecidableEq F] [AddCommGroup M] [Module F M] [DecidableEq M] in
theorem runV_num (E : Env F M) (p : Prog F) (s s' : VSt F M) (h : runV E p s = some s') : s.num ≤ s'.num := by
  induction p generalizing s with
  | ret => cases h; exact Nat.le_refl _
  | fail => cases h
  | commit v b k ih =>
    simp only [runV] at h
    split at h
    · cases h
    · have h' := ih _ _ h; exact h'
  | append label msg k ih => have h' := ih _ h; exact h'
  | challenge label k ih => have h' := ih _ _ h; exact h'
  | multiply l r k ih => exact Nat.le_of_succ_le (ih _ _ _ _ h)
  | allocate val k ih =>
    simp only [runV] at h
    split at h
    · exact Nat.le_of_succ_le (ih _ _ h)
    · have h' := ih _ _ h; exact h'
  | allocMul val k ih => exact Nat.le_of_succ_le (ih _ _ _ _ h)
  | constrain c k ih => have h' := ih _ h; exact h'
  | defer cb k _ ih => have h' := ih _ h; exact h'

omit [DecidableEq F] [AddCommGroup M] [Module F M] [DecidableEq M] in
/-- C115 (i): whatever values satisfy the verifier's gates and constraints, the output variable of
    `Multiply` is the product of the two linear combinations. -/
theorem C115_multiply (E : Env F M) (l r : LC F) (k : Var → Var → Var → Prog F) (s s' : VSt F M)
    (h : runV E (.multiply l r k) s = some s') (a : Var → F)
    (hg : ∀ i, i < s'.num → a (.out i) = a (.left i) * a (.right i))
    (hc : ∀ lc ∈ s'.cons, lcVal a lc = 0) :
    a (.out s.num) = lcVal a l * lcVal a r := by
  simp only [runV] at h
  have h1 := hc _ (runV_cons E _ _ s' h (lcSub l (ofVar (.left s.num))) (by simp))
  have h2 := hc _ (runV_cons E _ _ s' h (lcSub r (ofVar (.right s.num))) (by simp))
  rw [(C115_linear a l (ofVar (.left s.num)) 0 .one).2.1, (C115_linear a l l 0 (.left s.num)).2.2.2.2.1] at h1
  rw [(C115_linear a r (ofVar (.right s.num)) 0 .one).2.1, (C115_linear a l l 0 (.right s.num)).2.2.2.2.1] at h2
  rw [hg _ (runV_num E _ _ s' h), sub_eq_zero.1 h1, sub_eq_zero.1 h2]

/-! ### the blinding factor -/

/-- C115 (j), violated: a proof is to hide the blinding factors of its commitments.  `e_blinding` is not
    reduced modulo the order, so that of a proof of one phase gives, together with the public
    challenge `x`, the blinding factor of `A_I1` modulo `x`; and all three of them when the first
    two are below `x`. -/
theorem C115_hiding_violated (x i o s : Nat) (hx : 0 < x) :
    (eBlindingInt x 0 i o s 0 0 0 / x) % x = i % x ∧
    (i < x → o < x → (eBlindingInt x 0 i o s 0 0 0 / x) % x = i ∧ (eBlindingInt x 0 i o s 0 0 0 / x / x) % x = o ∧
      eBlindingInt x 0 i o s 0 0 0 / x / x / x = s) := by
  have e : eBlindingInt x 0 i o s 0 0 0 / x = i + x * (o + x * s) := by
    simp [eBlindingInt, Nat.mul_div_cancel_left _ hx]
  rw [e]
  refine ⟨by simp, fun hi ho => ?_⟩
  have e2 : (i + x * (o + x * s)) / x = o + x * s := by
    rw [Nat.add_mul_div_left _ _ hx, Nat.div_eq_of_lt hi, zero_add]
  rw [e2, Nat.add_mul_div_left _ _ hx, Nat.div_eq_of_lt ho]
  simp [Nat.mod_eq_of_lt hi, Nat.mod_eq_of_lt ho]

example : (eBlindingInt 1000003 77 123456 654321 999 0 0 0 / 1000003) % 1000003 = 123456 := by decide +kernel

omit [DecidableEq F] in
/-- The integer is a representative of the scalar of the model. -/
theorem eBlindingInt_cast (x u i1 o1 s1 i2 o2 s2 : Nat) :
    ((eBlindingInt x u i1 o1 s1 i2 o2 s2 : Nat) : F)
      = x * ((i1 + u * i2) + x * ((o1 + u * o2) + x * (s1 + u * s2))) := by
  simp [eBlindingInt]

end Yacl.Bp.R1cs
