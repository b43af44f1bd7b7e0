/-
C91: the Bulletproofs inner product argument.
-/
import Verif.Zkp.Bp.Vec

namespace Yacl.Bp

variable {F M : Type} [Field F] [DecidableEq F] [AddCommGroup M] [Module F M] [DecidableEq M]

/-! ### specification: the recursive protocol -/

/-- Generators scaled by their factors. -/
def scaled {F M : Type} [Field F] [AddCommGroup M] [Module F M] (f : List F) (g : List M) : List M :=
  List.zipWith (fun x p => x • p) f g

/-- `Σ a_i G_i + Σ b_i H_i + <a,b> Q`. -/
def commitment {F M : Type} [Field F] [AddCommGroup M] [Module F M] (G H : List M) (Q : M)
    (a b : List F) : M := dot a G + dot b H + dot a b • Q

/-- Halve a list of generators with weights `x` (left) and `y` (right). -/
def halve {F M : Type} [Field F] [AddCommGroup M] [Module F M] (x y : F) (g : List M) : List M :=
  List.zipWith (fun l r => x • l + y • r) (g.take (g.length / 2)) (g.drop (g.length / 2))

/-- The verifier of the textbook protocol, which folds the statement round by round. -/
def recursiveCheck {F M : Type} [Field F] [AddCommGroup M] [Module F M] :
    List (F × M × M) → M → List M → List M → M → F → F → Prop
  | [], P, G, H, Q, a, b => P = commitment G H Q [a] [b]
  | (u, L, R) :: rest, P, G, H, Q, a, b =>
      recursiveCheck rest (P + (u * u) • L + (u⁻¹ * u⁻¹) • R) (halve u⁻¹ u G) (halve u u⁻¹ H) Q a b

/-! ### the `s` vector -/

/-- Closed form of the `s` vector. -/
def sSpec : List F → List F
  | [] => [1]
  | u :: us => ((sSpec us).map fun x => x * u⁻¹) ++ (sSpec us).map fun x => x * u

omit [DecidableEq F] in
theorem sSpec_length (us : List F) : (sSpec us).length = 2 ^ us.length := by
  induction us with
  | nil => rfl
  | cons u us ih => simp [sSpec, ih, pow_succ]; ring

omit [DecidableEq F] in
theorem sSpec_zero (us : List F) : (sSpec us).getD 0 0 = (us.map fun u => u⁻¹).prod := by
  induction us with
  | nil => rfl
  | cons u us ih =>
    have hl := sSpec_length us
    cases h : sSpec us with
    | nil =>
      rw [h] at hl
      exact absurd hl.symm (by simp)
    | cons x xs =>
      rw [h] at ih
      simp only [sSpec, h, List.map_cons, List.cons_append, List.getD_cons_zero, List.prod_cons] at ih ⊢
      rw [ih, mul_comm]

/-- The recurrence the code uses holds of the closed form. -/
theorem sSpec_rec (us : List F) (hu : ∀ u ∈ us, u ≠ 0) (i : Nat) (h1 : 1 ≤ i) (hi : i < 2 ^ us.length) :
    (sSpec us).getD i 0 = (sSpec us).getD (i - 2 ^ Nat.log2 i) 0 *
      ((us.map fun u => u * u).getD (us.length - 1 - Nat.log2 i) 0) := by
  induction us generalizing i with
  | nil => simp at hi; omega
  | cons u us ih =>
    have hl := sSpec_length us
    have hi2 : i < 2 ^ us.length * 2 := by rw [← pow_succ]; simpa using hi
    have hlog : 2 ^ Nat.log2 i ≤ i := Nat.log2_self_le (by omega)
    have hlog2 : i < 2 ^ (Nat.log2 i + 1) := Nat.lt_log2_self
    by_cases hlow : i < 2 ^ us.length
    · -- in the left half
      have hlt : Nat.log2 i < us.length := by
        by_contra hc
        have : 2 ^ us.length ≤ 2 ^ Nat.log2 i := Nat.pow_le_pow_right (by decide) (by omega)
        omega
      have e1 : ∀ j, j < 2 ^ us.length → (sSpec (u :: us)).getD j 0 = (sSpec us).getD j 0 * u⁻¹ := by
        intro j hj
        have hj' : j < (sSpec us).length := by rw [hl]; exact hj
        simp only [sSpec]
        rw [List.getD_append _ _ _ _ (by simpa using hj'), List.getD_eq_getElem _ _ (by simpa using hj'),
          List.getD_eq_getElem _ _ hj']
        simp
      rw [e1 i hlow, e1 (i - 2 ^ Nat.log2 i) (by omega), ih (fun u h => hu u (by simp [h])) i h1 hlow]
      have e2 : (u :: us).length - 1 - Nat.log2 i = (us.length - 1 - Nat.log2 i) + 1 := by
        simp only [List.length_cons]; omega
      rw [e2, List.map_cons, List.getD_cons_succ]
      ring
    · have hlogeq : Nat.log2 i = us.length := by
        have h3 : Nat.log2 i ≤ us.length := by
          by_contra hc
          have : 2 ^ (us.length + 1) ≤ 2 ^ Nat.log2 i := Nat.pow_le_pow_right (by decide) (by omega)
          rw [pow_succ] at this
          omega
        have h4 : us.length ≤ Nat.log2 i := by
          by_contra hc
          have : 2 ^ (Nat.log2 i + 1) ≤ 2 ^ us.length := Nat.pow_le_pow_right (by decide) (by omega)
          omega
        omega
      rw [hlogeq]
      have hj : i - 2 ^ us.length < (sSpec us).length := by rw [hl]; omega
      have e3 : (u :: us).length - 1 - us.length = 0 := by simp
      rw [e3]
      simp only [sSpec, List.map_cons, List.getD_cons_zero]
      rw [List.getD_append_right _ _ _ _ (by simp [hl]; omega), List.getD_append _ _ _ _ (by simpa using hj)]
      simp only [List.length_map, hl]
      rw [List.getD_eq_getElem _ _ (by simpa using hj), List.getD_eq_getElem _ _ (by simpa using hj)]
      simp only [List.getElem_map]
      have := hu u (by simp)
      field_simp

omit [DecidableEq F] in
theorem sFold_length (uSq : List F) (lg : Nat) (is : List Nat) (s : List F) :
    (is.foldl (sStep uSq lg) s).length = s.length + is.length := by
  induction is generalizing s with
  | nil => rfl
  | cons i is ih => rw [List.foldl_cons, ih]; simp [sStep]; omega

theorem foldl_mul (l : List F) (x : F) : l.foldl (· * ·) x = x * l.prod := by
  induction l generalizing x with
  | nil => simp
  | cons y l ih => rw [List.foldl_cons, ih, List.prod_cons]; ring

/-- The computed `s` vector. -/
theorem sVec_eq (us : List F) (hu : ∀ u ∈ us, u ≠ 0) :
    sVec (2 ^ us.length) (us.map fun u => u * u) (us.map fun u => u⁻¹) = sSpec us := by
  have key : ∀ k, k < 2 ^ us.length →
      (List.range' 1 k).foldl (sStep (us.map fun u => u * u) us.length)
        [(us.map fun u => u⁻¹).foldl (· * ·) 1] = (sSpec us).take (k + 1) := by
    intro k
    induction k with
    | zero =>
      intro hk
      have hl := sSpec_length us
      have h0 := sSpec_zero us
      rw [foldl_mul, one_mul]
      cases h : sSpec us with
      | nil =>
        rw [h] at hl
        exact absurd hl.symm (by simp)
      | cons x xs =>
        rw [h] at h0
        simp at h0
        simp [h0]
    | succ k ih =>
      intro hk
      rw [List.range'_1_concat, List.foldl_append, ih (by omega)]
      have hl := sSpec_length us
      simp only [List.foldl_cons, List.foldl_nil, sStep]
      have hlt : k + 1 < (sSpec us).length := by rw [hl]; exact hk
      rw [List.take_succ_eq_append_getElem hlt]
      congr 1
      have hr := sSpec_rec us hu (1 + k) (by omega) (by omega)
      have hpos : 0 < 2 ^ Nat.log2 (1 + k) := Nat.pos_of_ne_zero (by simp)
      have hget : ((sSpec us).take (k + 1)).getD (1 + k - 2 ^ Nat.log2 (1 + k)) 0
          = (sSpec us).getD (1 + k - 2 ^ Nat.log2 (1 + k)) 0 := by
        have hlt2 : 1 + k - 2 ^ Nat.log2 (1 + k) < k + 1 := by omega
        rw [List.getD_eq_getElem _ _ (by rw [List.length_take]; omega),
          List.getD_eq_getElem _ _ (by omega), List.getElem_take]
      rw [hget, ← hr, List.getD_eq_getElem _ _ (by omega)]
      simp [Nat.add_comm]
  unfold sVec
  have hpos : 0 < 2 ^ us.length := Nat.pos_of_ne_zero (by simp)
  rw [List.length_map, key _ (by omega), show 2 ^ us.length - 1 + 1 = (sSpec us).length by
    rw [sSpec_length]; omega, List.take_length]

omit [DecidableEq F] [DecidableEq M] in
theorem halve_length (x y : F) (G : List M) (k : Nat) (h : G.length = 2 ^ (k + 1)) :
    (halve x y G).length = 2 ^ k := by
  unfold halve
  rw [pow_succ] at h
  simp [h]
  omega

omit [DecidableEq F] [DecidableEq M] in
/-- Folding the generators and then summing is summing with the weights `s`. -/
theorem dot_sSpec (u : F) (us : List F) (G : List M) (h : G.length = 2 ^ (us.length + 1)) :
    dot (sSpec (u :: us)) G = dot (sSpec us) (halve u⁻¹ u G) := by
  rw [pow_succ] at h
  have hl := sSpec_length us
  have hh : G.length / 2 = 2 ^ us.length := by omega
  unfold halve
  rw [dot_add_right (by simp [h]; omega)]
  conv_lhs => rw [← List.take_append_drop (G.length / 2) G, sSpec]
  rw [dot_append (by simp [hl, h])]
  simp only [mul_comm _ u⁻¹, mul_comm _ u, dot_map_mul]

omit [DecidableEq F] [DecidableEq M] in
theorem dot_sSpec_rev (u : F) (us : List F) (G : List M) (h : G.length = 2 ^ (us.length + 1)) :
    dot (sSpec (u :: us)).reverse G = dot (sSpec us).reverse (halve u u⁻¹ G) := by
  rw [pow_succ] at h
  have hl := sSpec_length us
  have hh : G.length / 2 = 2 ^ us.length := by omega
  unfold halve
  rw [dot_add_right (by simp [h]; omega)]
  conv_lhs => rw [← List.take_append_drop (G.length / 2) G, sSpec, List.reverse_append,
    ← List.map_reverse, ← List.map_reverse]
  rw [dot_append (by simp [hl, h])]
  simp only [mul_comm _ u⁻¹, mul_comm _ u, dot_map_mul]

/-! ### the verifier decides the recursive relation -/

/-- Challenges, `L` and `R` of the rounds. -/
def rounds (us : List F) (pf : Ipp F M) : List (F × M × M) := us.zip (pf.L.zip pf.R)

omit [DecidableEq F] [DecidableEq M] in
theorem recursive_iff (us : List F) (Ls Rs : List M) (P : M) (G H : List M) (Q : M) (a b : F)
    (hL : Ls.length = us.length) (hR : Rs.length = us.length)
    (hG : G.length = 2 ^ us.length) (hH : H.length = 2 ^ us.length) :
    recursiveCheck (us.zip (Ls.zip Rs)) P G H Q a b ↔
      P + dot (us.map fun u => u * u) Ls + dot (us.map fun u => u⁻¹ * u⁻¹) Rs
        = a • dot (sSpec us) G + b • dot (sSpec us).reverse H + (a * b) • Q := by
  induction us generalizing Ls Rs P G H with
  | nil =>
    obtain ⟨g, rfl⟩ : ∃ g, G = [g] := List.length_eq_one_iff.1 (by simpa using hG)
    obtain ⟨h, rfl⟩ : ∃ h, H = [h] := List.length_eq_one_iff.1 (by simpa using hH)
    simp [recursiveCheck, commitment, sSpec]
  | cons u us ih =>
    obtain ⟨L, Ls, rfl⟩ : ∃ L Ls', Ls = L :: Ls' := by
      cases Ls with
      | nil => simp at hL
      | cons L Ls => exact ⟨L, Ls, rfl⟩
    obtain ⟨R, Rs, rfl⟩ : ∃ R Rs', Rs = R :: Rs' := by
      cases Rs with
      | nil => simp at hR
      | cons R Rs => exact ⟨R, Rs, rfl⟩
    simp only [List.length_cons] at hL hR hG hH
    simp only [List.zip_cons_cons, recursiveCheck]
    rw [ih _ _ _ _ _ (by omega) (by omega) (halve_length _ _ _ _ hG) (halve_length _ _ _ _ hH),
      dot_sSpec u us G hG, dot_sSpec_rev u us H hH]
    simp only [List.map_cons, dot_cons]
    constructor
    · intro h; rw [← h]; abel
    · intro h; rw [← h]; abel

theorem inverses_eq (us : List F) :
    inverses us = if ∀ u ∈ us, u ≠ 0 then some (us.map fun u => u⁻¹) else none := by
  induction us with
  | nil => simp [inverses]
  | cons u us ih =>
    unfold inverses
    rw [ih]
    by_cases hu : u = 0
    · simp [invert, hu]
    · by_cases hus : ∀ v ∈ us, v ≠ 0
      · have hall : ∀ v ∈ u :: us, v ≠ 0 := by
          intro v hv
          rcases List.mem_cons.1 hv with rfl | hv
          · exact hu
          · exact hus v hv
        rw [if_pos hus, if_pos hall]
        simp [invert, hu]
      · have hall : ¬ ∀ v ∈ u :: us, v ≠ 0 := fun h => hus fun v hv => h v (List.mem_cons_of_mem _ hv)
        rw [if_neg hus, if_neg hall]
        simp [invert, hu]

theorem replay_length (E : Env F M) (Ls Rs : List M) (st : List Nat) (r : List F × List Nat)
    (hlen : Ls.length = Rs.length) (h : replay E Ls Rs st = some r) : r.1.length = Ls.length := by
  induction Ls generalizing Rs st r with
  | nil =>
    simp only [replay] at h
    cases h
    rfl
  | cons L Ls ih =>
    cases Rs with
    | nil => simp at hlen
    | cons R Rs =>
      unfold replay at h
      simp only [Option.bind_eq_bind, Option.bind_eq_some_iff] at h
      obtain ⟨s1, _, s2, _, r', hr', he⟩ := h
      cases he
      have := ih Rs _ r' (by simpa using hlen) hr'
      simp [this]

omit [DecidableEq F] [DecidableEq M] in
theorem zip3 (c : F) (s f : List F) (G : List M) :
    dot (List.zipWith (fun s f => c * s * f) s f) G = c • dot s (scaled f G) := by
  have : List.zipWith (fun s f => c * s * f) s f = (List.zipWith (fun s f => s * f) s f).map fun x => c * x := by
    rw [List.map_zipWith]
    simp only [mul_assoc]
  rw [this, dot_map_mul, dot_zipMul]
  rfl

/-- The challenges an accepting or rejecting verifier used. -/
def challenges (E : Env F M) (pf : Ipp F M) (n : Nat) (st : List Nat) : List F :=
  match replay E pf.L pf.R (innerproductDomainSep E n st) with
  | some r => r.1
  | none => []

/-- `verificationScalars` when the checks pass. -/
theorem verificationScalars_eq (E : Env F M) (pf : Ipp F M) (n : Nat) (st : List Nat)
    (out : (List F × List F × List F) × List Nat) (h : verificationScalars E pf n st = some out) :
    ∃ us st', replay E pf.L pf.R (innerproductDomainSep E n st) = some (us, st') ∧
      n = 2 ^ us.length ∧ pf.L.length = us.length ∧ pf.R.length = us.length ∧ us.length < 32 ∧
      (∀ u ∈ us, u ≠ 0) ∧
      out = ((us.map fun u => u * u, us.map fun u => u⁻¹ * u⁻¹, sSpec us), st') := by
  unfold verificationScalars at h
  simp only at h
  by_cases h1 : pf.L.length < 32
  · rw [if_neg (by omega)] at h
    by_cases h2 : 0 < n ∧ n = 2 ^ pf.L.length
    · rw [if_neg (by simpa using h2)] at h
      by_cases h3 : pf.R.length = pf.L.length
      · rw [if_neg (by simpa using h3)] at h
        simp only [Option.bind_eq_bind, Option.bind_eq_some_iff] at h
        obtain ⟨r, hr, ui, hui, he⟩ := h
        have hlen := replay_length E _ _ _ r h3.symm hr
        rw [inverses_eq] at hui
        by_cases hz : ∀ u ∈ r.1, u ≠ 0
        · rw [if_pos hz] at hui
          cases hui
          refine ⟨r.1, r.2, hr, by rw [hlen]; exact h2.2, hlen.symm, by rw [hlen]; exact h3,
            by rw [hlen]; exact h1, hz, ?_⟩
          rw [Option.some.injEq] at he
          rw [← he, h2.2, ← hlen, sVec_eq r.1 hz, List.map_map]
          rfl
        · rw [if_neg hz] at hui; cases hui
      · rw [if_pos (by simpa using h3)] at h; cases h
    · rw [if_pos h2] at h; cases h
  · rw [if_pos h1] at h; cases h

/-- C91 (a): a verdict of `Verify` is the verdict of the textbook verifier, which folds
    the statement with the transcript's challenges round by round. -/
theorem C91_verify_iff (E : Env F M) (pf : Ipp F M) (Gf Hf : List F) (P Q : M) (G H : List M)
    (st : List Nat) (hGf : Gf.length = G.length) (hHf : Hf.length = H.length) (v : Bool)
    (h : verify E pf Gf Hf P Q G H st = some v) :
    v = true ↔ recursiveCheck (rounds (challenges E pf G.length st) pf) P (scaled Gf G) (scaled Hf H)
      Q pf.a pf.b := by
  unfold verify at h
  simp only [Option.bind_eq_bind, Option.bind_eq_some_iff] at h
  obtain ⟨out, hout, h⟩ := h
  obtain ⟨us, st', hrep, hn, hL, hR, h32, hz, rfl⟩ := verificationScalars_eq E pf _ st out hout
  have hch : challenges E pf G.length st = us := by simp [challenges, hrep]
  rw [hch]
  split at h
  · cases h
  · rename_i hsz
    push Not at hsz
    simp only [Option.bind_eq_some_iff] at h
    obtain ⟨e, he, hv⟩ := h
    have hs := sSpec_length us
    -- sizes agree, otherwise `msm` has thrown
    have hHlen : H.length = 2 ^ us.length := by
      unfold msm at he
      by_contra hne
      rw [if_neg] at he
      · cases he
      · simp only [List.length_cons, List.length_append, List.length_zipWith, List.length_map,
          List.length_reverse, hs, hL, hR]
        omega
    rw [msm_eq (by
      simp only [List.length_cons, List.length_append, List.length_zipWith, List.length_map,
        List.length_reverse, hs, hL, hR]
      omega)] at he
    cases he
    cases hv
    rw [decide_eq_true_iff]
    unfold rounds
    rw [recursive_iff us pf.L pf.R P _ _ Q pf.a pf.b hL hR (by simp [scaled]; omega)
      (by simp [scaled]; omega)]
    have hlg : (List.zipWith (fun s f => pf.a * s * f) (sSpec us) Gf).length = G.length := by
      simp [hs]; omega
    have hlh : (List.zipWith (fun s f => pf.b * s * f) (sSpec us).reverse Hf).length = H.length := by
      simp [hs]; omega
    rw [dot_cons, dot_append (by simp [hlg, hlh, hL]), dot_append (by simp [hlg, hlh]), dot_append hlg,
      zip3, zip3]
    have hneg : ∀ (l : List F) (X : List M), dot (l.map fun x => 0 - x) X = - dot l X := by
      intro l X
      have := dot_map_mul (-1 : F) l X
      simp only [neg_mul, one_mul, neg_smul, one_smul] at this
      rw [← this]
      simp
    rw [hneg, hneg]
    constructor
    · intro h; rw [← h]; abel
    · intro h
      have : P = pf.a • dot (sSpec us) (scaled Gf G) + pf.b • dot (sSpec us).reverse (scaled Hf H)
          + (pf.a * pf.b) • Q - dot (us.map fun u => u * u) pf.L - dot (us.map fun u => u⁻¹ * u⁻¹) pf.R := by
        rw [← h]; abel
      rw [this]; abel


/-! ### completeness -/

omit [DecidableEq F] [DecidableEq M] in
/-- One round of the textbook protocol preserves the shape of the statement. -/
theorem round_identity (u : F) (hu : u ≠ 0) (h : Nat) (G H : List M) (Q : M) (a b : List F)
    (hG : G.length = h * 2) (hH : H.length = h * 2) (ha : a.length = h * 2) (hb : b.length = h * 2) :
    commitment G H Q a b
      + (u * u) • (dot (a.take h) (G.drop h) + dot (b.drop h) (H.take h) + dot (a.take h) (b.drop h) • Q)
      + (u⁻¹ * u⁻¹) • (dot (a.drop h) (G.take h) + dot (b.take h) (H.drop h) + dot (a.drop h) (b.take h) • Q)
      = commitment (halve u⁻¹ u G) (halve u u⁻¹ H) Q (foldScalars u u⁻¹ a h) (foldScalars u⁻¹ u b h) := by
  unfold commitment halve foldScalars
  have e1 : G.length / 2 = h := by omega
  have e2 : H.length / 2 = h := by omega
  rw [e1, e2]
  have l1 : (a.take h).length = (a.drop h).length := by simp [ha]; omega
  have l2 : (b.take h).length = (b.drop h).length := by simp [hb]; omega
  have l3 : (G.take h).length = (G.drop h).length := by simp [hG]; omega
  have l4 : (H.take h).length = (H.drop h).length := by simp [hH]; omega
  rw [dot_split h a G (by omega), dot_split h b H (by omega), dot_split h a b (by omega)]
  simp only [dot_add_left l1, dot_add_left l2, dot_add_right l3, dot_add_right l4]
  have key : ∀ x : List F, dot x (List.zipWith (fun l r => l * u⁻¹ + r * u) (b.take h) (b.drop h))
      = u⁻¹ * dot x (b.take h) + u * dot x (b.drop h) := by
    intro x
    rw [dot_comm, dot_add_left l2, dot_comm (a := b.take h), dot_comm (a := b.drop h)]
    rfl
  rw [key, key]
  simp only [smul_eq_mul]
  match_scalars <;> field_simp
  ring

omit [DecidableEq M] in
theorem foldPoints_eq (x y : F) (v : List M) (h : Nat) (hv : v.length = h * 2) :
    foldPoints x y v h = halve x y v := by
  unfold foldPoints halve
  rw [show v.length / 2 = h by omega]
  simp only [two_eq]

omit [DecidableEq F] [DecidableEq M] in
theorem zipWith_zip_zip (x y : F) (f g : List F) (l r : List M)
    (h1 : l.length = r.length) (h2 : f.length = l.length) (h3 : g.length = l.length) :
    List.zipWith (fun (lr : M × M) (f : F × F) => (x * f.1) • lr.1 + (y * f.2) • lr.2) (l.zip r) (f.zip g)
      = List.zipWith (fun p q => x • p + y • q) (List.zipWith (fun a p => a • p) f l)
          (List.zipWith (fun a p => a • p) g r) := by
  induction l generalizing r f g with
  | nil => cases f <;> simp_all
  | cons p l ih =>
    cases r with
    | nil => simp at h1
    | cons q r =>
      cases f with
      | nil => simp at h2
      | cons c f =>
        cases g with
        | nil => simp at h3
        | cons d g =>
          simp only [List.zip_cons_cons, List.zipWith_cons_cons]
          rw [ih f g r (by simpa using h1) (by simpa using h2) (by simpa using h3), mul_smul, mul_smul]

omit [DecidableEq M] in
theorem foldPointsFirst_eq (x y : F) (f : List F) (v : List M) (h : Nat) (hv : v.length = h * 2)
    (hf : f.length = h * 2) : foldPointsFirst x y f v h = halve x y (scaled f v) := by
  unfold foldPointsFirst halve scaled
  simp only [two_eq]
  rw [zipWith_zip_zip x y _ _ _ _ (by simp [hv]; omega) (by simp [hf, hv]) (by simp [hf, hv]; omega),
    List.take_zipWith, List.drop_zipWith, List.length_zipWith,
    show min f.length v.length / 2 = h by omega]

/-- The generators of a round: scaled by the factors while they have not been folded in. -/
def eff (first : Bool) (f : List F) (g : List M) : List M := if first then scaled f g else g

omit [DecidableEq F] [DecidableEq M] in
theorem eff_length (first : Bool) (f : List F) (g : List M) (h : first = true → f.length = g.length) :
    (eff first f g).length = g.length := by
  unfold eff
  cases first
  · rfl
  · simp [scaled, h rfl]

omit [DecidableEq M] in
theorem roundLR_eq (first : Bool) (h : Nat) (Gf Hf : List F) (Q : M) (G H : List M) (a b : List F)
    (hG : G.length = h * 2) (hH : H.length = h * 2) (ha : a.length = h * 2) (hb : b.length = h * 2)
    (hGf : first = true → Gf.length = h * 2) (hHf : first = true → Hf.length = h * 2) :
    roundLR first h Gf Hf Q G H a b = some
      (dot (a.take h) ((eff first Gf G).drop h) + dot (b.drop h) ((eff first Hf H).take h)
          + dot (a.take h) (b.drop h) • Q,
       dot (a.drop h) ((eff first Gf G).take h) + dot (b.take h) ((eff first Hf H).drop h)
          + dot (a.drop h) (b.take h) • Q) := by
  unfold roundLR
  simp only [Option.bind_eq_bind]
  rw [innerProduct_eq (by simp [ha, hb]; omega), innerProduct_eq (by simp [ha, hb]; omega)]
  simp only [Option.bind_some]
  cases first with
  | true =>
    have hGf := hGf rfl
    have hHf := hHf rfl
    simp only [if_true]
    rw [msm_eq (by simp [ha, hb, hG, hH, hGf, hHf]; omega), msm_eq (by simp [ha, hb, hG, hH, hGf, hHf]; omega)]
    simp only [Option.bind_some]
    rw [dot_append_one (by simp [ha, hb, hG, hH, hGf, hHf]; omega), dot_append_one (by simp [ha, hb, hG, hH, hGf, hHf]; omega),
      dot_append (by simp [ha, hG, hGf]; omega), dot_append (by simp [ha, hG, hGf]; omega)]
    simp only [dot_zipMul, eff, if_true, scaled, List.take_zipWith, List.drop_zipWith]
  | false =>
    simp only [Bool.false_eq_true, if_false, eff]
    rw [msm_eq (by simp [ha, hb, hG, hH]; omega), msm_eq (by simp [ha, hb, hG, hH]; omega)]
    simp only [Option.bind_some]
    rw [dot_append_one (by simp [ha, hb, hG, hH]; omega), dot_append_one (by simp [ha, hb, hG, hH]; omega),
      dot_append (by simp [ha, hG]; omega), dot_append (by simp [ha, hG]; omega)]

theorem createLoop_sound (E : Env F M) (orig : Nat) (Gf Hf : List F) (Q : M) (k : Nat) :
    ∀ (G H : List M) (a b : List F) (st : List Nat) (pf : Ipp F M) (st' : List Nat),
      2 ^ k ≤ orig → G.length = 2 ^ k → H.length = 2 ^ k → a.length = 2 ^ k → b.length = 2 ^ k →
      Gf.length = orig → Hf.length = orig →
      createLoop E orig Gf Hf Q (2 ^ k) G H a b st = some (pf, st') →
      (∀ L ∈ pf.L, L ≠ 0) → (∀ R ∈ pf.R, R ≠ 0) →
      ∃ us, replay E pf.L pf.R st = some (us, st') ∧ (∀ u ∈ us, u ≠ 0) ∧ us.length = k ∧
        pf.L.length = k ∧ pf.R.length = k ∧
        recursiveCheck (rounds us pf)
          (commitment (eff (2 ^ k == orig) Gf G) (eff (2 ^ k == orig) Hf H) Q a b)
          (eff (2 ^ k == orig) Gf G) (eff (2 ^ k == orig) Hf H) Q pf.a pf.b := by
  induction k with
  | zero =>
    intro G H a b st pf st' hk hG hH ha hb hGf hHf hc hL hR
    unfold createLoop at hc
    rw [dif_neg (by simp)] at hc
    cases hc
    obtain ⟨a, rfl⟩ : ∃ x, a = [x] := List.length_eq_one_iff.1 (by simpa using ha)
    obtain ⟨b, rfl⟩ : ∃ x, b = [x] := List.length_eq_one_iff.1 (by simpa using hb)
    exact ⟨[], rfl, by simp, rfl, rfl, rfl, rfl⟩
  | succ k ih =>
    intro G H a b st pf st' hk hG hH ha hb hGf hHf hc hL hR
    have hp : 2 ^ (k + 1) = 2 ^ k * 2 := pow_succ 2 k
    have hpos : 0 < 2 ^ k := Nat.pos_of_ne_zero (by simp)
    have hdiv : 2 ^ (k + 1) / 2 = 2 ^ k := by omega
    unfold createLoop at hc
    rw [dif_pos (by omega)] at hc
    simp only [hdiv] at hc
    rw [hp] at hG hH ha hb
    have hfG : ((2 ^ (k + 1) == orig) = true) → Gf.length = 2 ^ k * 2 := by
      intro h; rw [beq_iff_eq] at h; omega
    have hfH : ((2 ^ (k + 1) == orig) = true) → Hf.length = 2 ^ k * 2 := by
      intro h; rw [beq_iff_eq] at h; omega
    rw [roundLR_eq (2 ^ (k + 1) == orig) (2 ^ k) Gf Hf Q G H a b hG hH ha hb hfG hfH] at hc
    generalize hf : (2 ^ (k + 1) == orig) = first at *
    simp only [Option.bind_eq_bind, Option.bind_some, Option.bind_eq_some_iff] at hc
    obtain ⟨uInv, hinv, rest, hrest, he⟩ := hc
    obtain ⟨c, hcd⟩ : ∃ c, challengeScalar E "u" (appendPoint E "R" (dot (a.drop (2 ^ k)) ((eff first Gf G).take (2 ^ k))
        + dot (b.take (2 ^ k)) ((eff first Hf H).drop (2 ^ k)) + dot (a.drop (2 ^ k)) (b.take (2 ^ k)) • Q)
        (appendPoint E "L" (dot (a.take (2 ^ k)) ((eff first Gf G).drop (2 ^ k))
        + dot (b.drop (2 ^ k)) ((eff first Hf H).take (2 ^ k)) + dot (a.take (2 ^ k)) (b.drop (2 ^ k)) • Q)
          st)) = c := ⟨_, rfl⟩
    rw [hcd] at hinv hrest
    have hun : c.1 ≠ 0 := by
      intro h0
      simp [invert, h0] at hinv
    have hinv' := hinv
    unfold invert at hinv'
    rw [if_neg hun, Option.some.injEq] at hinv'
    subst hinv'
    rw [Option.some.injEq, Prod.mk.injEq] at he
    obtain ⟨rfl, rfl⟩ := he
    have hG' : ∀ x y : F, (if first = true then foldPointsFirst x y Gf G (2 ^ k) else foldPoints x y G (2 ^ k))
        = halve x y (eff first Gf G) := by
      intro x y
      cases first with
      | true =>
        simp only [if_true, eff]
        exact foldPointsFirst_eq _ _ Gf G _ hG (hfG rfl)
      | false =>
        simp only [Bool.false_eq_true, if_false, eff]
        exact foldPoints_eq _ _ G _ hG
    have hH' : ∀ x y : F, (if first = true then foldPointsFirst x y Hf H (2 ^ k) else foldPoints x y H (2 ^ k))
        = halve x y (eff first Hf H) := by
      intro x y
      cases first with
      | true =>
        simp only [if_true, eff]
        exact foldPointsFirst_eq _ _ Hf H _ hH (hfH rfl)
      | false =>
        simp only [Bool.false_eq_true, if_false, eff]
        exact foldPoints_eq _ _ H _ hH
    rw [hG', hH'] at hrest
    have hLn := hL _ (List.mem_cons_self ..)
    have hRn := hR _ (List.mem_cons_self ..)
    have heG : (eff first Gf G).length = 2 ^ k * 2 := by
      rw [eff_length first Gf G (fun h => by rw [hfG h, hG]), hG]
    have heH : (eff first Hf H).length = 2 ^ k * 2 := by
      rw [eff_length first Hf H (fun h => by rw [hfH h, hH]), hH]
    have hid := round_identity _ hun (2 ^ k) (eff first Gf G) (eff first Hf H) Q a b heG heH ha hb
    have hnf : (2 ^ k == orig) = false := by
      rw [beq_eq_false_iff_ne]; omega
    obtain ⟨us, h1, h2, h3, h4, h5, h6⟩ := ih _ _ _ _ _ rest.1 rest.2 (by omega)
      (halve_length _ _ _ _ (by rw [heG, hp])) (halve_length _ _ _ _ (by rw [heH, hp]))
      (by simp [foldScalars, ha]; omega) (by simp [foldScalars, hb]; omega) hGf hHf hrest
      (fun L hl => hL L (List.mem_cons_of_mem _ hl)) (fun R hr => hR R (List.mem_cons_of_mem _ hr))
    rw [hnf] at h6
    simp only [eff, Bool.false_eq_true, if_false] at h6
    refine ⟨c.1 :: us, ?_, ?_, by simp [h3], by simp [h4], by simp [h5], ?_⟩
    · unfold replay
      simp only [validateAndAppendPoint]
      rw [if_neg hLn]
      simp only [Option.bind_eq_bind, Option.bind_some]
      rw [if_neg hRn]
      simp only [Option.bind_some, hcd, h1]
    · intro u hu
      rcases List.mem_cons.1 hu with rfl | hu
      · exact hun
      · exact h2 u hu
    · simp only [rounds, List.zip_cons_cons, recursiveCheck]
      rw [hid]
      exact h6

theorem pow2_of_and (n : Nat) (h0 : 0 < n) (h : n &&& (n - 1) = 0) : ∃ k, n = 2 ^ k := by
  refine ⟨Nat.log2 n, ?_⟩
  have hle : 2 ^ Nat.log2 n ≤ n := Nat.log2_self_le (by omega)
  have hlt : n < 2 ^ (Nat.log2 n + 1) := Nat.lt_log2_self
  by_contra hne
  have hk : 2 ^ Nat.log2 n ≤ n - 1 := by omega
  have b1 : n.testBit (Nat.log2 n) = true := by
    rw [Nat.testBit_eq_decide_div_mod_eq]
    have hp : 2 ^ (Nat.log2 n + 1) = 2 ^ Nat.log2 n * 2 := pow_succ 2 _
    have : n / 2 ^ Nat.log2 n = 1 := by
      rw [Nat.div_eq_iff (Nat.pos_of_ne_zero (by simp))]
      omega
    simp [this]
  have b2 : (n - 1).testBit (Nat.log2 n) = true := by
    rw [Nat.testBit_eq_decide_div_mod_eq]
    have hp : 2 ^ (Nat.log2 n + 1) = 2 ^ Nat.log2 n * 2 := pow_succ 2 _
    have : (n - 1) / 2 ^ Nat.log2 n = 1 := by
      rw [Nat.div_eq_iff (Nat.pos_of_ne_zero (by simp))]
      omega
    simp [this]
  have := congrArg (fun x => x.testBit (Nat.log2 n)) h
  simp [Nat.testBit_and, b1, b2] at this

/-- What a proof of `Create` gives a verifier. -/
theorem create_scalars (E : Env F M) (Q : M) (Gf Hf : List F) (G H : List M) (a b : List F)
    (st : List Nat) (pf : Ipp F M) (st' : List Nat) (hn : G.length < 2 ^ 32)
    (h : create E Q Gf Hf G H a b st = some (pf, st'))
    (hL : ∀ L ∈ pf.L, L ≠ 0) (hR : ∀ R ∈ pf.R, R ≠ 0) :
    ∃ us : List F, G.length = 2 ^ us.length ∧ H.length = G.length ∧ Gf.length = G.length ∧
      Hf.length = G.length ∧ a.length = G.length ∧ b.length = G.length ∧
      pf.L.length = us.length ∧ pf.R.length = us.length ∧
      challenges E pf G.length st = us ∧
      verificationScalars E pf G.length st
        = some ((us.map fun u => u * u, us.map fun u => u⁻¹ * u⁻¹, sSpec us), st') ∧
      recursiveCheck (rounds us pf) (commitment (scaled Gf G) (scaled Hf H) Q a b)
        (scaled Gf G) (scaled Hf H) Q pf.a pf.b := by
  unfold create at h
  simp only at h
  split at h
  · cases h
  · rename_i hp
    push Not at hp
    obtain ⟨k, hk⟩ := pow2_of_and _ hp.1 hp.2
    split at h
    · cases h
    · rename_i hs
      push Not at hs
      obtain ⟨hH, ha, hb, hGf, hHf⟩ := hs
      have hk32 : k < 32 := by
        rw [hk] at hn
        exact (Nat.pow_lt_pow_iff_right (by decide)).1 hn
      rw [hk] at h
      obtain ⟨us, h1, h2, h3, h4, h5, h6⟩ := createLoop_sound E (2 ^ k) Gf Hf Q k G H a b _ pf st'
        (Nat.le_refl _) hk (by omega) (by omega) (by omega) (by omega) (by omega) h hL hR
      refine ⟨us, by rw [h3]; exact hk, hH, hGf, hHf, ha, hb, by omega, by omega, ?_, ?_, ?_⟩
      · simp only [challenges, hk, h1]
      · unfold verificationScalars
        simp only
        rw [if_neg (by omega), if_neg (by rw [h4]; push Not; exact ⟨by omega, hk⟩), if_neg (by omega), hk, h1]
        simp only [Option.bind_eq_bind, Option.bind_some]
        rw [inverses_eq, if_pos h2]
        simp only [Option.bind_some]
        rw [← h3, sVec_eq us h2, List.map_map]
        rfl
      · simpa [eff] using h6

/-- C91 (b): a proof made by `Create` for vectors `a`, `b` is accepted for the commitment
    `Σ a_i Gf_i G_i + Σ b_i Hf_i H_i + <a,b> Q` by a verifier whose transcript started in
    the same state, provided no `L` or `R` of the proof is the identity. -/
theorem C91_complete_partial (E : Env F M) (Q : M) (Gf Hf : List F) (G H : List M) (a b : List F)
    (st : List Nat) (pf : Ipp F M) (st' : List Nat) (hn : G.length < 2 ^ 32)
    (h : create E Q Gf Hf G H a b st = some (pf, st'))
    (hL : ∀ L ∈ pf.L, L ≠ 0) (hR : ∀ R ∈ pf.R, R ≠ 0) :
    verify E pf Gf Hf (commitment (scaled Gf G) (scaled Hf H) Q a b) Q G H st = some true := by
  obtain ⟨us, hk, hH, hGf, hHf, ha, hb, hLl, hRl, hch, hv, h6⟩ :=
    create_scalars E Q Gf Hf G H a b st pf st' hn h hL hR
  have hsome : ∃ v, verify E pf Gf Hf (commitment (scaled Gf G) (scaled Hf H) Q a b) Q G H st = some v := by
    unfold verify
    simp only [hv, Option.bind_eq_bind, Option.bind_some]
    rw [if_neg (by omega), msm_eq (by simp [sSpec_length, hLl, hRl]; omega)]
    simp
  obtain ⟨v, hvv⟩ := hsome
  have := (C91_verify_iff E pf Gf Hf _ Q G H st (by omega) (by omega) v hvv).2 (by rw [hch]; exact h6)
  rw [hvv, this]

/-- C91 (c): a proof with an identity point among its `L`, `R` is never rejected with
    `false`: the verifier throws. -/
theorem C91_identity_throws (E : Env F M) (pf : Ipp F M) (Gf Hf : List F) (P Q : M) (G H : List M)
    (st : List Nat) (hid : (0 : M) ∈ pf.L ∨ (0 : M) ∈ pf.R) :
    verify E pf Gf Hf P Q G H st = none := by
  have hrep : ∀ (Ls Rs : List M) (st : List Nat), Ls.length = Rs.length →
      ((0 : M) ∈ Ls ∨ (0 : M) ∈ Rs) → replay E Ls Rs st = none := by
    intro Ls
    induction Ls with
    | nil =>
      intro Rs st hl h
      have : Rs = [] := List.length_eq_zero_iff.1 hl.symm
      subst this
      simp at h
    | cons L Ls ih =>
      intro Rs st hl h
      cases Rs with
      | nil => simp at hl
      | cons R Rs =>
        unfold replay validateAndAppendPoint
        by_cases hL : L = 0
        · simp [hL]
        · rw [if_neg hL]
          simp only [Option.bind_eq_bind, Option.bind_some]
          by_cases hR : R = 0
          · simp [hR]
          · rw [if_neg hR]
            simp only [Option.bind_some]
            rw [ih Rs _ (by simpa using hl) (by
              rcases h with h | h
              · rcases List.mem_cons.1 h with h | h
                · exact absurd h.symm hL
                · exact Or.inl h
              · rcases List.mem_cons.1 h with h | h
                · exact absurd h.symm hR
                · exact Or.inr h)]
            rfl
  unfold verify verificationScalars
  simp only
  by_cases h1 : pf.L.length < 32
  · rw [if_neg (by omega)]
    by_cases h2 : 0 < G.length ∧ G.length = 2 ^ pf.L.length
    · rw [if_neg (by simpa using h2)]
      by_cases h3 : pf.R.length = pf.L.length
      · rw [if_neg (by simpa using h3), hrep pf.L pf.R _ h3.symm hid]
        rfl
      · rw [if_pos (by simpa using h3)]; rfl
    · rw [if_pos h2]; rfl
  · rw [if_pos h1]; rfl

end Yacl.Bp
