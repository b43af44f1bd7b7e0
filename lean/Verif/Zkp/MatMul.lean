import Verif.Zkp.Sumcheck

/-! Matrix products through multilinear extensions: yacl/crypto/experimental/zkp/sumcheck/matmul_check.cc.
Property C83.  Conventions as in Sumcheck.lean. -/
namespace Yacl.Sumcheck
open Vss (addMod subMod mulMod cast_add cast_sub cast_mul cast_mod)

/-! ### Model -/

/-- matmul_check.cc L49-54: the coordinates of `i`, filled from the last one with the low bit. -/
def bitsLoop : Nat → Nat → List Int → List Int
  | 0, _, acc => acc
  | n + 1, t, acc => bitsLoop n (t / 2) (((t % 2 : Nat) : Int) :: acc)

/-- matmul_check.cc L44-72: the accumulation, for a term `f i`. -/
def sumLoop (N : Nat) (f : Nat → Option Int) (m : Int) : Option Int :=
  (List.range N).foldlM (fun tot i => (f i).map fun p => addMod tot p m) 0

/-- matmul_check.cc L22-73 `MatMatMultiplication`; `1 << logN` on an int is undefined from 31 on. -/
def matMat (A B : Poly) (u v : List Int) (m : Int) : Option Int :=
  if ¬ u.length < A.numVars then none else
  if ¬ v.length < B.numVars then none else
  if A.numVars - u.length ≠ B.numVars - v.length then none else
  let logN := A.numVars - u.length
  if logN ≥ 31 then none else
  sumLoop (2 ^ logN) (fun i => do
    let y := bitsLoop logN i []
    let a ← evaluate A (u ++ y) m
    let b ← evaluate B (y ++ v) m
    some (mulMod a b m)) m

/-- matmul_check.cc L75-114 `MatVecMultiplication`. -/
def matVec (M t : Poly) (r : List Int) (m : Int) : Option Int :=
  if ¬ r.length < M.numVars then none else
  if M.numVars - r.length ≠ t.numVars then none else
  let logN := t.numVars
  if logN ≥ 31 then none else
  sumLoop (2 ^ logN) (fun i => do
    let y := bitsLoop logN i []
    let a ← evaluate M (r ++ y) m
    let b ← evaluate t y m
    some (mulMod a b m)) m

/-! ### Specification -/

/-- The product of a `rows × n` and an `n × cols` matrix, all stored row by row. -/
def matProduct (rows n cols : Nat) (A B : List Int) : List Int :=
  (List.range (rows * cols)).map fun x =>
    ((List.range n).map fun l => A.getD (x / cols * n + l) 0 * B.getD (l * cols + x % cols) 0).sum

/-! ### Lemmas -/

theorem bitsLoop_eq (n t : Nat) (acc : List Int) :
    bitsLoop n t acc = ((List.range n).map fun j => if t.testBit (n - 1 - j) then (1 : Int) else 0) ++ acc := by
  induction n generalizing t acc with
  | zero => rfl
  | succ n ih =>
    rw [bitsLoop, ih, List.range_succ, List.map_append, List.append_assoc]
    congr 1
    · apply List.map_congr_left
      intro j hj
      have := List.mem_range.1 hj
      rw [show n + 1 - 1 - j = (n - 1 - j) + 1 by omega, Nat.testBit_succ]
    · simp only [List.map_cons, List.map_nil, List.singleton_append, Nat.add_sub_cancel, Nat.sub_self]
      congr 1
      rw [Nat.testBit_zero]
      rcases Nat.mod_two_eq_zero_or_one t with h | h <;> simp [h]

theorem sumLoop_cast {n : ℕ} (hn : 0 < n) (N : ℕ) (f : ℕ → Option Int) (g : ℕ → ZMod n)
    (h : ∀ i, i < N → ∃ x, f i = some x ∧ (x : ZMod n) = g i) :
    ∃ x, sumLoop N f n = some x ∧ (0 ≤ x ∧ x < n) ∧ (x : ZMod n) = ∑ i ∈ Finset.range N, g i := by
  induction N with
  | zero => exact ⟨0, rfl, ⟨le_rfl, by exact_mod_cast hn⟩, by simp⟩
  | succ N ih =>
    obtain ⟨x, hx, _, hc⟩ := ih fun i hi => h i (by omega)
    obtain ⟨y, hy, hyc⟩ := h N (by omega)
    unfold sumLoop at hx ⊢
    refine ⟨addMod x y n, ?_, mod_range hn _, ?_⟩
    · rw [List.range_succ, List.foldlM_append, hx]
      simp [hy]
    · rw [cast_add, hc, hyc, Finset.sum_range_succ]

/-- The multilinear extension of `f` over any ring. -/
def ext {R : Type*} [CommRing R] (k : ℕ) (f r : ℕ → R) : R :=
  ∑ i ∈ Finset.range (2 ^ k), f i * ∏ j ∈ Finset.range k, if i.testBit (k - 1 - j) then r j else 1 - r j

theorem ext_step {R : Type*} [CommRing R] (k : ℕ) (f r : ℕ → R) :
    ext (k + 1) f r = ext k (fun i => f i * (1 - r 0) + f (i + 2 ^ k) * r 0) (fun j => r (j + 1)) := ext_succ k f r

theorem ext_congr {R : Type*} [CommRing R] (k : ℕ) (f g r s : ℕ → R) (h : ∀ i, i < 2 ^ k → f i = g i)
    (h' : ∀ j, j < k → r j = s j) : ext k f r = ext k g s := by
  unfold ext
  apply Finset.sum_congr rfl
  intro i hi
  rw [h i (Finset.mem_range.1 hi)]
  congr 1
  apply Finset.prod_congr rfl
  intro j hj
  rw [h' j (Finset.mem_range.1 hj)]

theorem ext_lin {R : Type*} [CommRing R] (k : ℕ) (f g r : ℕ → R) (a b : R) :
    ext k (fun i => f i * a + g i * b) r = ext k f r * a + ext k g r * b := by
  unfold ext
  rw [Finset.sum_mul, Finset.sum_mul, ← Finset.sum_add_distrib]
  apply Finset.sum_congr rfl
  intro i _
  ring

theorem ext_sum {R : Type*} [CommRing R] (k N : ℕ) (f : ℕ → ℕ → R) (c r : ℕ → R) :
    ext k (fun i => ∑ l ∈ Finset.range N, f l i * c l) r = ∑ l ∈ Finset.range N, ext k (f l) r * c l := by
  unfold ext
  simp only [Finset.sum_mul]
  rw [Finset.sum_comm]
  apply Finset.sum_congr rfl
  intro l _
  apply Finset.sum_congr rfl
  intro i _
  ring

theorem ext_split {R : Type*} [CommRing R] (a n : ℕ) (f r : ℕ → R) :
    ext (a + n) f r = ext a (fun i => ext n (fun l => f (i * 2 ^ n + l)) (fun j => r (j + a))) r := by
  induction a generalizing f r with
  | zero => simp [ext]
  | succ a ih =>
    rw [show a + 1 + n = (a + n) + 1 by omega, ext_step, ih, ext_step]
    apply ext_congr
    · intro i _
      rw [ext_lin n (fun l => f (i * 2 ^ n + l)) (fun l => f (i * 2 ^ n + l + 2 ^ (a + n)))]
      have e1 : ext n (fun l => f (i * 2 ^ n + l)) (fun j => r (j + a + 1)) =
          ext n (fun l => f (i * 2 ^ n + l)) (fun j => r (j + (a + 1))) := rfl
      have e2 : ext n (fun l => f (i * 2 ^ n + l + 2 ^ (a + n))) (fun j => r (j + a + 1)) =
          ext n (fun l => f ((i + 2 ^ a) * 2 ^ n + l)) (fun j => r (j + (a + 1))) := by
        apply ext_congr
        · intro l _
          have : i * 2 ^ n + l + 2 ^ (a + n) = (i + 2 ^ a) * 2 ^ n + l := by rw [pow_add]; ring
          rw [this]
        · intro j _; rfl
      rw [e1, e2]
    · intro _ _; rfl

theorem ext_corner {R : Type*} [CommRing R] (k i : ℕ) (hi : i < 2 ^ k) (f : ℕ → R) (r : ℕ → R)
    (hr : ∀ j, j < k → r j = if i.testBit (k - 1 - j) then 1 else 0) : ext k f r = f i := by
  unfold ext
  rw [Finset.sum_eq_single i]
  · rw [Finset.prod_eq_one, mul_one]
    intro j hj
    rw [hr j (Finset.mem_range.1 hj)]
    split <;> simp
  · intro b hb hne
    have hb := Finset.mem_range.1 hb
    obtain ⟨q, hq⟩ : ∃ q, b.testBit q ≠ i.testBit q := by
      by_contra hcon
      push Not at hcon
      exact hne (Nat.eq_of_testBit_eq hcon)
    have hqk : q < k := by
      by_contra hge
      push Not at hge
      apply hq
      rw [Nat.testBit_lt_two_pow (lt_of_lt_of_le hb (Nat.pow_le_pow_right (by omega) hge)),
        Nat.testBit_lt_two_pow (lt_of_lt_of_le hi (Nat.pow_le_pow_right (by omega) hge))]
    rw [Finset.prod_eq_zero (i := k - 1 - q) (Finset.mem_range.2 (by omega)), mul_zero]
    rw [hr _ (by omega), show k - 1 - (k - 1 - q) = q by omega]
    cases hb' : b.testBit q <;> cases hi' : i.testBit q <;> simp_all
  · intro h
    exact absurd (Finset.mem_range.2 hi) h

theorem mle_ext {n : ℕ} (e r : List Int) : ((mle e r : Int) : ZMod n) =
    ext r.length (fun i => ((e.getD i 0 : Int) : ZMod n)) (fun j => ((r.getD j 0 : Int) : ZMod n)) := by
  unfold mle ext
  push_cast
  rfl

theorem evaluate_cast {n : ℕ} (hn : 0 < n) (P : Poly) (hP : P.evals.length = 2 ^ P.numVars) (r : List Int)
    (hr : r.length = P.numVars) : ∃ x, evaluate P r n = some x ∧ (x : ZMod n) = ext P.numVars
      (fun i => ((P.evals.getD i 0 : Int) : ZMod n)) (fun j => ((r.getD j 0 : Int) : ZMod n)) := by
  have hmk : mkPoly P.evals = some P := mkPoly_pow _ _ hP
  obtain ⟨h1, h2, _⟩ := C82_evaluate n hn P.evals P hmk r
  by_cases h0 : P.numVars = 0
  · exact ⟨_, h2 hr h0, by rw [mle_ext, hr]⟩
  · exact ⟨_, h1 hr (by omega), by rw [cast_mod, mle_ext, hr]⟩

theorem getD_append_left (a b : List Int) (j : ℕ) (h : j < a.length) : (a ++ b).getD j 0 = a.getD j 0 := by
  simp [List.getD, List.getElem?_append_left h]

theorem getD_append_add (a b : List Int) (j k : ℕ) (h : a.length = k) : (a ++ b).getD (j + k) 0 = b.getD j 0 := by
  subst h
  simp [List.getD, List.getElem?_append_right]

theorem bits_getD (k i j : ℕ) (hj : j < k) :
    (bitsLoop k i []).getD j 0 = if i.testBit (k - 1 - j) then 1 else 0 := by
  rw [bitsLoop_eq, List.append_nil, getD_map_range _ _ _ hj]

theorem bits_length (k i : ℕ) : (bitsLoop k i []).length = k := by simp [bitsLoop_eq]

theorem bits_cast {n : ℕ} (k i j : ℕ) (hj : j < k) :
    (((bitsLoop k i []).getD j 0 : Int) : ZMod n) = if i.testBit (k - 1 - j) then 1 else 0 := by
  rw [bits_getD k i j hj]
  split <;> simp

/-! ### C83 -/

/-- C83, matrix times matrix.  For every modulus, all `2^a × 2^n` and `2^n × 2^b` matrices with `1 ≤ n < 31` and
every point, the value returned is the one the multilinear extension of the product matrix takes at the joint
point `u ++ v`, reduced. -/
theorem C83_matmat (m : ℕ) (hm : 0 < m) (A B : Poly) (a n b : ℕ) (hn : 0 < n) (hn31 : n < 31)
    (hA : mkPoly A.evals = some A) (hB : mkPoly B.evals = some B) (hAv : A.numVars = a + n) (hBv : B.numVars = n + b)
    (u v : List Int) (hu : u.length = a) (hv : v.length = b) :
    matMat A B u v m = some (mle (matProduct (2 ^ a) (2 ^ n) (2 ^ b) A.evals B.evals) (u ++ v) % m) := by
  have hAl := (mkPoly_some hA).2
  have hBl := (mkPoly_some hB).2
  unfold matMat
  rw [if_neg (by omega), if_neg (by omega), if_neg (by omega)]
  have hlog : A.numVars - u.length = n := by omega
  simp only [hlog]
  rw [if_neg (by omega)]
  obtain ⟨x, hx, hxr, hxc⟩ := sumLoop_cast hm (2 ^ n) (fun i => do
      let y := bitsLoop n i []
      let a ← evaluate A (u ++ y) m
      let b ← evaluate B (y ++ v) m
      some (mulMod a b m))
    (fun l => ext a (fun i => ((A.evals.getD (i * 2 ^ n + l) 0 : Int) : ZMod m)) (fun j => ((u.getD j 0 : Int) : ZMod m)) *
      ext b (fun i => ((B.evals.getD (l * 2 ^ b + i) 0 : Int) : ZMod m)) (fun j => ((v.getD j 0 : Int) : ZMod m))) (by
    intro l hl
    obtain ⟨x1, h1, c1⟩ := evaluate_cast hm A hAl (u ++ bitsLoop n l []) (by simp [bits_length]; omega)
    obtain ⟨x2, h2, c2⟩ := evaluate_cast hm B hBl (bitsLoop n l [] ++ v) (by simp [bits_length]; omega)
    refine ⟨mulMod x1 x2 m, by simp [h1, h2], ?_⟩
    rw [cast_mul, c1, c2, hAv, hBv, ext_split, ext_split]
    congr 1
    · apply ext_congr
      · intro i _
        refine ext_corner n l hl _ _ ?_
        intro j hj
        rw [getD_append_add _ _ _ _ hu, bits_cast n l j hj]
      · intro j hj
        rw [getD_append_left _ _ _ (by omega)]
    · rw [ext_corner n l hl]
      · apply ext_congr
        · intro _ _; rfl
        · intro j _
          rw [getD_append_add _ _ _ _ (bits_length n l)]
      · intro j hj
        rw [getD_append_left _ _ _ (by rw [bits_length]; exact hj), bits_cast n l j hj])
  refine hx.trans ?_
  congr 1
  refine Vss.eq_of_cast hxr ?_
  rw [hxc, mle_ext, List.length_append, hu, hv, ext_split]
  have hin : ∀ i, i < 2 ^ a → ext b (fun l => (((matProduct (2 ^ a) (2 ^ n) (2 ^ b) A.evals B.evals).getD (i * 2 ^ b + l) 0 : Int) : ZMod m))
      (fun j => (((u ++ v).getD (j + a) 0 : Int) : ZMod m)) =
      ∑ l ∈ Finset.range (2 ^ n), ((A.evals.getD (i * 2 ^ n + l) 0 : Int) : ZMod m) *
        ext b (fun i => ((B.evals.getD (l * 2 ^ b + i) 0 : Int) : ZMod m)) (fun j => ((v.getD j 0 : Int) : ZMod m)) := by
    intro i hi
    have e : ∀ l ∈ Finset.range (2 ^ n), ((A.evals.getD (i * 2 ^ n + l) 0 : Int) : ZMod m) *
        ext b (fun i => ((B.evals.getD (l * 2 ^ b + i) 0 : Int) : ZMod m)) (fun j => ((v.getD j 0 : Int) : ZMod m)) =
        ext b (fun i => ((B.evals.getD (l * 2 ^ b + i) 0 : Int) : ZMod m)) (fun j => ((v.getD j 0 : Int) : ZMod m)) *
          ((A.evals.getD (i * 2 ^ n + l) 0 : Int) : ZMod m) := fun l _ => mul_comm _ _
    rw [Finset.sum_congr rfl e, ← ext_sum b (2 ^ n) (fun l i => ((B.evals.getD (l * 2 ^ b + i) 0 : Int) : ZMod m))]
    apply ext_congr
    · intro j hj
      have hlt : i * 2 ^ b + j < 2 ^ a * 2 ^ b := by
        calc i * 2 ^ b + j < i * 2 ^ b + 2 ^ b := by omega
          _ = (i + 1) * 2 ^ b := by ring
          _ ≤ 2 ^ a * 2 ^ b := Nat.mul_le_mul_right _ hi
      unfold matProduct
      rw [getD_map_range _ _ _ hlt]
      have hd : (i * 2 ^ b + j) / 2 ^ b = i := by
        rw [Nat.mul_comm, Nat.mul_add_div (by positivity), Nat.div_eq_of_lt hj, Nat.add_zero]
      have hmod : (i * 2 ^ b + j) % 2 ^ b = j := by
        rw [Nat.mul_comm, Nat.mul_add_mod, Nat.mod_eq_of_lt hj]
      rw [hd, hmod, sum_getD, List.length_map, List.length_range]
      push_cast
      apply Finset.sum_congr rfl
      intro l hl
      rw [getD_map_range _ _ _ (Finset.mem_range.1 hl)]
      push_cast
      ring
    · intro j _
      rw [getD_append_add _ _ _ _ hu]
  rw [ext_congr a _ _ _ (fun j => ((u.getD j 0 : Int) : ZMod m)) hin (by
    intro j hj
    rw [getD_append_left _ _ _ (by omega)])]
  rw [ext_sum a (2 ^ n) (fun l i => ((A.evals.getD (i * 2 ^ n + l) 0 : Int) : ZMod m))]

/-- C83, matrix times vector: the value of the extension of the product vector. -/
theorem C83_matvec (m : ℕ) (hm : 0 < m) (M t : Poly) (a n : ℕ) (hn : 0 < n) (hn31 : n < 31)
    (hM : mkPoly M.evals = some M) (ht : mkPoly t.evals = some t) (hMv : M.numVars = a + n) (htv : t.numVars = n)
    (r : List Int) (hr : r.length = a) :
    matVec M t r m = some (mle (matProduct (2 ^ a) (2 ^ n) 1 M.evals t.evals) r % m) := by
  have h := C83_matmat m hm M t a n 0 hn hn31 hM ht hMv (by omega) r [] hr rfl
  rw [List.append_nil, pow_zero] at h
  rw [← h]
  unfold matVec matMat
  have hlog : M.numVars - r.length = n := by omega
  rw [if_neg (by omega), if_neg (by omega), if_neg (by omega), if_neg (by simp; omega), if_neg (by simp; omega)]
  simp only [hlog, htv, List.append_nil]
  rw [if_neg (by simp), if_neg (by omega)]

/-- C83, dimension mismatches are refused. -/
theorem C83_refused (A B : Poly) (u v : List Int) (m : Int)
    (h : A.numVars ≤ u.length ∨ B.numVars ≤ v.length ∨ A.numVars - u.length ≠ B.numVars - v.length) :
    matMat A B u v m = none := by
  unfold matMat
  rcases h with h | h | h
  · rw [if_pos (by omega)]
  · rw [if_pos h.not_gt]; simp
  · rw [if_pos h]; simp

/-- Non-vacuity: a 2×2 times 2×2 product at a corner and at a random point. -/
example : ∃ A B, mkPoly [1, 2, 3, 4] = some A ∧ mkPoly [5, 6, 7, 8] = some B ∧
    matProduct 2 2 2 [1, 2, 3, 4] [5, 6, 7, 8] = [19, 22, 43, 50] ∧
    matMat A B [1] [0] 101 = some 43 ∧ matMat A B [7] [9] 101 = some 62 ∧ matVec A B [3] 101 = none := by
  refine ⟨_, _, rfl, rfl, ?_, ?_, ?_, ?_⟩ <;> decide +kernel

end Yacl.Sumcheck
