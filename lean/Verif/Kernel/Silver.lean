import Verif.Kernel.SilverLemmas

/-! Property C117: the Silver code. -/
namespace Yacl.Silver
open Yacl.Code (Additive Correlated)

/-! ### Lemmas -/

/-- What the constructor leaves. -/
theorem mk_some (n weight : Nat) (starts : List Nat) (hn : n < 2 ^ 31) (c : Code) (h : mk n weight starts = some c) (hs : starts.length = weight) :
    c.n = n ∧ c.m = 2 * n ∧ c.weight = weight ∧ (weight = 5 ∨ weight = 11) ∧ weight ≤ n ∧ c.idx.length = weight ∧ c.idx.Pairwise (· < ·) ∧ ∀ j ∈ c.idx, j < n := by
  have h1 : n % 2 ^ 32 = n := Nat.mod_eq_of_lt (by omega)
  have h2 : 2 * n % 2 ^ 32 = 2 * n := Nat.mod_eq_of_lt (by omega)
  unfold mk at h
  simp only [h1, h2] at h
  have key : ∀ w, w ≤ 11 → weight = w → w ≤ n → (initLeft n weight starts).map (fun idx => (⟨n, 2 * n, weight, idx⟩ : Code)) = some c →
      c.n = n ∧ c.m = 2 * n ∧ c.weight = weight ∧ c.idx.length = weight ∧ c.idx.Pairwise (· < ·) ∧ ∀ j ∈ c.idx, j < n := by
    intro w hw e hwn hc
    obtain ⟨idx, i1, i2, i3, i4⟩ := initLeft_ok n weight starts (by omega) hs (by omega)
    rw [i1] at hc
    obtain rfl := Option.some.inj hc
    exact ⟨rfl, rfl, rfl, i2, i3, i4⟩
  by_cases h5 : weight = 5
  · rw [if_pos h5] at h
    by_cases hn5 : n ≥ 5
    · rw [if_pos hn5] at h
      obtain ⟨k1, k2, k3, k4, k5, k6⟩ := key 5 (by omega) h5 hn5 h
      exact ⟨k1, k2, k3, Or.inl h5, by omega, k4, k5, k6⟩
    · rw [if_neg hn5] at h
      exact absurd h (by simp)
  · rw [if_neg h5] at h
    by_cases h11 : weight = 11
    · rw [if_pos h11] at h
      by_cases hn11 : n ≥ 11
      · rw [if_pos hn11] at h
        obtain ⟨k1, k2, k3, k4, k5, k6⟩ := key 11 (by omega) h11 hn11 h
        exact ⟨k1, k2, k3, Or.inr h11, by omega, k4, k5, k6⟩
      · rw [if_neg hn11] at h
        exact absurd h (by simp)
    · rw [if_neg h11] at h
      exact absurd h (by simp)

theorem at_append {w : Nat} (l r : List (BitVec w)) (k : Nat) : at_ (l ++ r) k = if k < l.length then at_ l k else at_ r (k - l.length) := by
  unfold at_
  simp only [List.getD_eq_getElem?_getD]
  by_cases h : k < l.length
  · rw [if_pos h, List.getElem?_append_left h]
  · rw [if_neg h, List.getElem?_append_right (by omega)]

theorem at_take {w : Nat} (x : List (BitVec w)) (n k : Nat) (h : k < n) : at_ (x.take n) k = at_ x k := by
  unfold at_
  simp only [List.getD_eq_getElem?_getD]
  rw [List.getElem?_take, if_pos h]

theorem at_drop {w : Nat} (x : List (BitVec w)) (n k : Nat) : at_ (x.drop n) k = at_ x (n + k) := by
  unfold at_
  simp only [List.getD_eq_getElem?_getD]
  rw [List.getElem?_drop]

theorem list_ext {w : Nat} (x y : List (BitVec w)) (hl : x.length = y.length) (h : ∀ k < x.length, at_ x k = at_ y k) : x = y := by
  apply List.ext_getElem hl
  intro k h1 h2
  have := h k h1
  unfold at_ at this
  rw [List.getD_eq_getElem?_getD, List.getD_eq_getElem?_getD, List.getElem?_eq_getElem h1, List.getElem?_eq_getElem h2] at this
  exact this

/-! ### C117 -/

/-- C117. For weight 5 and 11 and any `n` with `weight ≤ n < 2^31` the constructor succeeds, whatever the floating-point products are: linear probing always finds a free
place within its 1000 tries. The code has length `n`, dimension `2n`, and a left matrix with `weight` distinct ones per column. Other weights, or `n < weight`, throw. -/
theorem C117_construct (n weight : Nat) (starts : List Nat) (hs : starts.length = weight) (hn : n < 2 ^ 31) :
    ((weight = 5 ∨ weight = 11) ∧ weight ≤ n → ∃ c, mk n weight starts = some c ∧ c.n = n ∧ c.m = 2 * n ∧ c.weight = weight ∧ c.idx.length = weight ∧ c.idx.Nodup ∧ ∀ j ∈ c.idx, j < n) ∧
    (¬ ((weight = 5 ∨ weight = 11) ∧ weight ≤ n) → mk n weight starts = none) := by
  constructor
  · rintro ⟨hw, hle⟩
    have h1 : n % 2 ^ 32 = n := Nat.mod_eq_of_lt (by omega)
    obtain ⟨idx, i1, -⟩ := initLeft_ok n weight starts (by omega) hs hle
    have hm : mk n weight starts = some ⟨n % 2 ^ 32, 2 * n % 2 ^ 32, weight, idx⟩ := by
      unfold mk
      simp only [h1, i1, Option.map_some]
      rcases hw with rfl | rfl
      · rw [if_pos rfl, if_pos hle]
      · rw [if_neg (by omega), if_pos rfl, if_pos hle]
    obtain ⟨k1, k2, k3, -, -, k6, k7, k8⟩ := mk_some n weight starts hn _ hm hs
    exact ⟨_, hm, k1, k2, k3, k6, k7.imp (fun h => Nat.ne_of_lt h), k8⟩
  · intro h
    cases hm : mk n weight starts with
    | none => rfl
    | some c =>
      obtain ⟨-, -, -, k4, k5, -⟩ := mk_some n weight starts hn c hm hs
      exact absurd ⟨k4, k5⟩ h

/-- The constructor does not keep its argument when it has more than 32 bits: it silently builds the code of length `n mod 2^32`. -/
theorem C117_truncated_violated (n weight : Nat) (starts : List Nat) (hs : starts.length = weight) (hw : weight = 5 ∨ weight = 11) (hbig : 2 ^ 32 ≤ n) (hle : weight ≤ n % 2 ^ 32) :
    ∃ c, mk n weight starts = some c ∧ c.n ≠ n ∧ c.n < 2 ^ 32 := by
  obtain ⟨idx, i1, -⟩ := initLeft_ok (n % 2 ^ 32) weight starts (by omega) hs hle
  refine ⟨⟨n % 2 ^ 32, 2 * n % 2 ^ 32, weight, idx⟩, ?_, ?_, Nat.mod_lt _ (by omega)⟩
  · unfold mk
    simp only [i1, Option.map_some]
    rcases hw with rfl | rfl
    · rw [if_pos rfl, if_pos (by omega)]
    · rw [if_neg (by omega), if_pos rfl, if_pos (by omega)]
  · have := Nat.mod_lt n (show 0 < 2 ^ 32 by omega)
    show n % 2 ^ 32 ≠ n
    omega

/-- C117. `DualEncodeInplace` on a buffer `(xL, xR, rest)` of at least `2n` elements never leaves the buffer and gives `(xL + z * L, z, rest)`, where `z` is the solution of `z * R = xR`:
`L` is the circulant matrix of the code's first column, `R` the unit lower triangular band matrix. `z` is the only solution. A shorter buffer throws. -/
theorem C117_inplace {w : Nat} (n weight : Nat) (starts : List Nat) (hs : starts.length = weight) (hn : n < 2 ^ 31) (c : Code) (hc : mk n weight starts = some c) (x : List (BitVec w)) :
    (2 * n ≤ x.length → ∃ r, dualEncodeInplace c x = some r ∧ r.length = x.length ∧
      (∀ k < n, mulMat n (R weight) (fun i => at_ r (n + i)) k = at_ x (n + k)) ∧
      (∀ k < n, at_ r k = at_ x k ^^^ mulMat n (L n c.idx) (fun i => at_ r (n + i)) k) ∧
      (∀ k, 2 * n ≤ k → at_ r k = at_ x k) ∧
      ∀ z : Nat → BitVec w, (∀ k < n, mulMat n (R weight) z k = at_ x (n + k)) → ∀ k < n, z k = at_ r (n + k)) ∧
    (x.length < 2 * n → dualEncodeInplace c x = none) := by
  obtain ⟨k1, k2, k3, k4, k5, k6, k7, k8⟩ := mk_some n weight starts hn c hc hs
  subst k1
  subst k3
  constructor
  · intro hx
    have hlen : ((x.drop c.n).take c.n).length = c.n := by
      rw [List.length_take, List.length_drop]
      omega
    obtain ⟨r, r1, r2, r3⟩ := rightEncode_steps c k4 hn ((x.drop c.n).take c.n) (by omega)
    obtain ⟨-, -, r4⟩ := steps_inv c.weight c.n k4 0 _ r r3
    obtain ⟨l, l1, l2, l3⟩ := leftEncode_ok c k4 k6 k7 k8 r (x.take c.n) (by omega) (by rw [List.length_take]; omega)
    have ll : l.length = c.n := by
      rw [l2, List.length_take]
      omega
    have rr : r.length = c.n := by omega
    have hR : ∀ k, at_ (l ++ r ++ x.drop (c.n + c.n)) (c.n + k) = if k < c.n then at_ r k else at_ x (c.n + k) := by
      intro k
      rw [List.append_assoc, at_append, if_neg (by omega), at_append, ll, Nat.add_sub_cancel_left, rr]
      by_cases hk : k < c.n
      · rw [if_pos hk, if_pos hk]
      · rw [if_neg hk, if_neg hk, at_drop]
        congr 1
        omega
    have hR' : ∀ (M : Nat → Nat → Bool) k, mulMat c.n M (fun i => at_ (l ++ r ++ x.drop (c.n + c.n)) (c.n + i)) k = mulMat c.n M (at_ r) k := by
      intro M k
      rw [mulMat_eq, mulMat_eq]
      apply xsum_congr
      intro i hi
      simp only [hR, if_pos hi]
    have hsol : ∀ k < c.n, mulMat c.n (R c.weight) (at_ r) k = at_ x (c.n + k) := by
      intro k hk
      rw [mulR_eq c.weight c.n k4 _ k hk]
      have e := r4 k
      rw [at_take _ _ _ hk, at_drop] at e
      have e2 : xsum (fun i => if 0 ≤ i ∧ below c.weight i k then at_ r i else 0) c.n = xsum (fun i => if below c.weight i k then at_ r i else 0) c.n := by
        apply xsum_congr
        intro i _
        apply if_congr _ rfl rfl
        simp
      rw [e2] at e
      rw [e, BitVec.xor_assoc, BitVec.xor_self]
      simp
    refine ⟨l ++ r ++ x.drop (c.n + c.n), ?_, ?_, ?_, ?_, ?_, ?_⟩
    · unfold dualEncodeInplace
      rw [if_pos (by omega), if_pos (by omega), r1]
      simp only [l1]
    · rw [List.length_append, List.length_append, List.length_drop]
      omega
    · intro k hk
      rw [hR', hsol k hk]
    · intro k hk
      rw [hR', List.append_assoc, at_append, if_pos (by omega), l3, if_pos hk, at_take _ _ _ hk]
    · intro k hk
      have e : k = c.n + (k - c.n) := by omega
      rw [e, hR, if_neg (by omega)]
    · intro z hz k hk
      rw [hR, if_pos hk]
      exact mulR_unique c.weight c.n k4 z (at_ r) (fun k hk => (hz k hk).trans (hsol k hk).symm) k hk
  · intro hx
    unfold dualEncodeInplace
    rw [if_neg (by omega)]

/-- C117. `DualEncode` writes the first `n` elements that `DualEncodeInplace` gives to the first `n` elements of the output and leaves the rest of the output alone; it throws exactly if a
buffer is too short. -/
theorem C117_copy {w : Nat} (n weight : Nat) (starts : List Nat) (hs : starts.length = weight) (hn : n < 2 ^ 31) (c : Code) (hc : mk n weight starts = some c) (x out : List (BitVec w)) :
    (2 * n ≤ x.length ∧ n ≤ out.length → ∃ r, dualEncodeInplace c x = some r ∧ dualEncode c x out = some (r.take n ++ out.drop n)) ∧
    (x.length < 2 * n ∨ out.length < n → dualEncode c x out = none) := by
  obtain ⟨k1, k2, k3, k4, k5, k6, k7, k8⟩ := mk_some n weight starts hn c hc hs
  subst k1
  subst k3
  constructor
  · rintro ⟨hx, ho⟩
    have hlen : ((x.drop c.n).take c.n).length = c.n := by
      rw [List.length_take, List.length_drop]
      omega
    obtain ⟨r, r1, r2, r3⟩ := rightEncode_steps c k4 hn ((x.drop c.n).take c.n) (by omega)
    obtain ⟨l, l1, l2, l3⟩ := leftEncode_ok c k4 k6 k7 k8 r (x.take c.n) (by omega) (by rw [List.length_take]; omega)
    have ll : l.length = c.n := by
      rw [l2, List.length_take]
      omega
    refine ⟨l ++ r ++ x.drop (c.n + c.n), ?_, ?_⟩
    · unfold dualEncodeInplace
      rw [if_pos (by omega), if_pos (by omega), r1]
      simp only [l1]
    · unfold dualEncode
      have e : c.m - c.n = c.n := by omega
      rw [if_pos (by omega), e, r1]
      simp only [l1]
      rw [List.append_assoc, List.take_append_of_le_length (by omega), List.take_of_length_le (by omega)]
  · intro h
    unfold dualEncode
    rw [if_neg (by omega)]

/-- C117. Encoding keeps linear correlations: if `c = f(a) + b` element by element for an additive `f`, such as multiplication by a field constant, the same holds of the encodings. With
`f` the identity: the code is linear. -/
theorem C117_correlated {v w : Nat} (n weight : Nat) (starts : List Nat) (hs : starts.length = weight) (hn : n < 2 ^ 31) (code : Code) (hc : mk n weight starts = some code)
    (f : BitVec v → BitVec w) (hf : Additive f) (c : List (BitVec w)) (a : List (BitVec v)) (b : List (BitVec w)) (hlen : 2 * n ≤ c.length) (h : Correlated f c a b) :
    ∃ rc ra rb, dualEncodeInplace code c = some rc ∧ dualEncodeInplace code a = some ra ∧ dualEncodeInplace code b = some rb ∧ Correlated f rc ra rb := by
  obtain ⟨h1, h2, h3⟩ := h
  obtain ⟨rc, c1, c2, c3, c4, c5, c6⟩ := (C117_inplace n weight starts hs hn code hc c).1 hlen
  obtain ⟨ra, a1, a2, a3, a4, a5, -⟩ := (C117_inplace n weight starts hs hn code hc a).1 (by omega)
  obtain ⟨rb, b1, b2, b3, b4, b5, -⟩ := (C117_inplace n weight starts hs hn code hc b).1 (by omega)
  refine ⟨rc, ra, rb, c1, a1, b1, by omega, by omega, fun k hk => ?_⟩
  have hf0 : f 0 = 0 := by simpa using hf 0 0
  have hmul : ∀ (M : Nat → Nat → Bool) (p : Nat → BitVec v) (q : Nat → BitVec w) k, mulMat n M (fun i => f (p i) ^^^ q i) k = f (mulMat n M p k) ^^^ mulMat n M q k := by
    intro M p q k
    rw [mulMat_eq, mulMat_eq, mulMat_eq, xsum_map f hf, ← xsum_xor]
    apply xsum_congr
    intro i _
    by_cases hM : M i k = true
    · rw [if_pos hM, if_pos hM, if_pos hM]
    · rw [if_neg hM, if_neg hM, if_neg hM, hf0]
      simp
  have h3' : ∀ k < c.length, at_ c k = f (at_ a k) ^^^ at_ b k := h3
  have hz := c6 (fun i => f (at_ ra (n + i)) ^^^ at_ rb (n + i)) (fun k hk => by
    rw [hmul, a3 k hk, b3 k hk, h3' _ (by omega)])
  show at_ rc k = f (at_ ra k) ^^^ at_ rb k
  by_cases hk1 : k < n
  · have e : mulMat n (L n code.idx) (fun i => at_ rc (n + i)) k = mulMat n (L n code.idx) (fun i => f (at_ ra (n + i)) ^^^ at_ rb (n + i)) k := by
      rw [mulMat_eq, mulMat_eq]
      apply xsum_congr
      intro i hi
      rw [hz i hi]
    rw [c4 k hk1, a4 k hk1, b4 k hk1, e, hmul, h3' k (by omega), hf]
    ac_rfl
  · by_cases hk2 : k < 2 * n
    · have e : k = n + (k - n) := by omega
      rw [e]
      exact (hz (k - n) (by omega)).symm
    · rw [c5 k (by omega), a5 k (by omega), b5 k (by omega), h3' k (by omega)]

/-- C117. `[L R]` is a parity-check pair for the code: a message encodes to zero exactly if it is `z * [L R]` for some `z`. -/
theorem C117_kernel {w : Nat} (n weight : Nat) (starts : List Nat) (hs : starts.length = weight) (hn : n < 2 ^ 31) (c : Code) (hc : mk n weight starts = some c) (x r : List (BitVec w))
    (hx : 2 * n ≤ x.length) (hr : dualEncodeInplace c x = some r) :
    (∀ k < n, at_ r k = 0) ↔ ∃ z : Nat → BitVec w, ∀ k < n, at_ x k = mulMat n (L n c.idx) z k ∧ at_ x (n + k) = mulMat n (R weight) z k := by
  obtain ⟨r', e1, -, e3, e4, -, e6⟩ := (C117_inplace n weight starts hs hn c hc x).1 hx
  obtain rfl : r' = r := Option.some.inj (e1.symm.trans hr)
  constructor
  · intro h
    refine ⟨fun i => at_ r' (n + i), fun k hk => ⟨?_, (e3 k hk).symm⟩⟩
    have := e4 k hk
    rw [h k hk] at this
    exact BitVec.xor_eq_zero_iff.mp this.symm
  · rintro ⟨z, hz⟩ k hk
    have hzr := e6 z (fun k hk => (hz k hk).2.symm)
    have e : mulMat n (L n c.idx) (fun i => at_ r' (n + i)) k = mulMat n (L n c.idx) z k := by
      rw [mulMat_eq, mulMat_eq]
      apply xsum_congr
      intro i hi
      rw [hzr i hi]
    rw [e4 k hk, e, (hz k hk).1, BitVec.xor_self]
    rfl

/-! ### The versions for two messages -/

theorem fastDiag2_eq {v w : Nat} (i gap : Nat) (t0 : BitVec v) (t1 : BitVec w) (ds : List Nat) (x : List (BitVec v)) (y : List (BitVec w)) :
    fastDiag2 i gap t0 t1 ds x y = (fastDiag i gap t0 ds x).bind fun a => (fastDiag i gap t1 ds y).map fun b => (a, b) := by
  induction ds generalizing x y with
  | nil => rfl
  | cons d ds ih =>
    simp only [fastDiag2, fastDiag]
    cases ptr i gap d with
    | none => rfl
    | some p =>
      simp only
      cases h0 : xorIdx x p t0 with
      | none => rfl
      | some x' =>
        cases h1 : xorIdx y p t1 with
        | none => simp
        | some y' => exact ih x' y'

theorem tailDiag2_eq {v w : Nat} (n i gap : Nat) (t0 : BitVec v) (t1 : BitVec w) (ds : List Nat) (x : List (BitVec v)) (y : List (BitVec w)) :
    tailDiag2 n i gap t0 t1 ds x y = (tailDiag n i gap t0 ds x).bind fun a => (tailDiag n i gap t1 ds y).map fun b => (a, b) := by
  induction ds generalizing x y with
  | nil => rfl
  | cons d ds ih =>
    simp only [tailDiag2, tailDiag]
    generalize (BitVec.ofNat 32 d + BitVec.ofNat 32 i - BitVec.ofNat 32 gap).toNat = p
    by_cases hp : p ≥ n
    · rw [if_pos hp, if_pos hp, if_pos hp]
      rfl
    · rw [if_neg hp, if_neg hp, if_neg hp]
      cases h0 : xorIdx x p t0 with
      | none => rfl
      | some x' =>
        cases h1 : xorIdx y p t1 with
        | none => simp
        | some y' => exact ih x' y'

theorem tailOff2_eq {v w : Nat} (n : Nat) (t0 : BitVec v) (t1 : BitVec w) (x : List (BitVec v)) (y : List (BitVec w)) (o : BitVec 32) :
    tailOff2 n t0 t1 x y o = (tailOff n t0 x o).bind fun a => (tailOff n t1 y o).map fun b => (a.1, b.1, a.2) := by
  unfold tailOff2 tailOff
  by_cases hp : n > o.toNat
  · rw [if_pos hp, if_pos hp, if_pos hp]
    cases h0 : xorIdx x o.toNat t0 with
    | none => rfl
    | some x' =>
      cases h1 : xorIdx y o.toNat t1 with
      | none => simp
      | some y' => rfl
  · rw [if_neg hp, if_neg hp, if_neg hp]
    rfl

theorem tailOff_off {v w : Nat} (n : Nat) (t0 : BitVec v) (t1 : BitVec w) (x x' : List (BitVec v)) (y y' : List (BitVec w)) (o o0 o1 : BitVec 32) (h0 : tailOff n t0 x o = some (x', o0))
    (h1 : tailOff n t1 y o = some (y', o1)) : o0 = o1 := by
  unfold tailOff at h0 h1
  by_cases hp : n > o.toNat
  · rw [if_pos hp] at h0 h1
    cases e0 : xorIdx x o.toNat t0 with
    | none => rw [e0] at h0; exact absurd h0 (by simp)
    | some a =>
      cases e1 : xorIdx y o.toNat t1 with
      | none => rw [e1] at h1; exact absurd h1 (by simp)
      | some b =>
        rw [e0] at h0
        rw [e1] at h1
        simp only [Option.map_some, Option.some.injEq, Prod.mk.injEq] at h0 h1
        rw [← h0.2, ← h1.2]
  · rw [if_neg hp] at h0 h1
    simp only [Option.some.injEq, Prod.mk.injEq] at h0 h1
    rw [← h0.2, ← h1.2]

theorem fast2_eq {v w : Nat} (weight gap k : Nat) (x : List (BitVec v)) (y : List (BitVec w)) (o0 o1 : BitVec 32) :
    fast2 weight gap k x y o0 o1 = (fast weight gap k x o0 o1).bind fun a => (fast weight gap k y o0 o1).map fun b => (a.1, a.2.1, b.2.1, a.2.2) := by
  induction k generalizing x y o0 o1 with
  | zero => rfl
  | succ i ih =>
    rw [fast2, fast, fast]
    by_cases hc : i > max 5 31 + gap
    · rw [if_pos hc, if_pos hc, if_pos hc]
      simp only
      rw [fastDiag2_eq]
      cases e1 : fastDiag i gap (x.getD i 0) ((diag weight).getD (i &&& (gap - 1)) []) x with
      | none => rfl
      | some x1 =>
        cases f1 : fastDiag i gap (y.getD i 0) ((diag weight).getD (i &&& (gap - 1)) []) y with
        | none => simp
        | some y1 =>
          simp only [Option.bind_some, Option.map_some]
          cases e2 : xorIdx x1 o0.toNat (x.getD i 0) with
          | none => rfl
          | some x2 =>
            cases f2 : xorIdx y1 o0.toNat (y.getD i 0) with
            | none => simp
            | some y2 =>
              simp only
              cases e3 : xorIdx x2 o1.toNat (x.getD i 0) with
              | none => rfl
              | some x3 =>
                cases f3 : xorIdx y2 o1.toNat (y.getD i 0) with
                | none => simp
                | some y3 => exact ih x3 y3 (o0 - 1) (o1 - 1)
    · rw [if_neg hc, if_neg hc, if_neg hc]
      rfl

theorem tail2_eq {v w : Nat} (n weight gap k : Nat) (x : List (BitVec v)) (y : List (BitVec w)) (o0 o1 : BitVec 32) :
    tail2 n weight gap k x y o0 o1 = (tail n weight gap k x o0 o1).bind fun a => (tail n weight gap k y o0 o1).map fun b => (a, b) := by
  induction k generalizing x y o0 o1 with
  | zero => rfl
  | succ i ih =>
    rw [tail2, tail, tail]
    rw [tailDiag2_eq]
    cases e1 : tailDiag n i gap (x.getD i 0) ((diag weight).getD (i &&& (gap - 1)) []).reverse x with
    | none => rfl
    | some x1 =>
      cases f1 : tailDiag n i gap (y.getD i 0) ((diag weight).getD (i &&& (gap - 1)) []).reverse y with
      | none => simp
      | some y1 =>
        simp only [Option.bind_some, Option.map_some]
        rw [tailOff2_eq]
        cases e2 : tailOff n (x.getD i 0) x1 o0 with
        | none => rfl
        | some p2 =>
          obtain ⟨x2, q0⟩ := p2
          cases f2 : tailOff n (y.getD i 0) y1 o0 with
          | none => simp
          | some p2' =>
            obtain ⟨y2, q0'⟩ := p2'
            obtain rfl := tailOff_off _ _ _ _ _ _ _ _ _ _ e2 f2
            simp only [Option.bind_some, Option.map_some]
            rw [tailOff2_eq]
            cases e3 : tailOff n (x.getD i 0) x2 o1 with
            | none => rfl
            | some p3 =>
              obtain ⟨x3, q1⟩ := p3
              cases f3 : tailOff n (y.getD i 0) y2 o1 with
              | none => simp
              | some p3' =>
                obtain ⟨y3, q1'⟩ := p3'
                obtain rfl := tailOff_off _ _ _ _ _ _ _ _ _ _ e3 f3
                exact ih x3 y3 q0 q1

/-- The loop of `RightEncode2` leaves `k` and the offsets that `RightEncode` leaves; they do not depend on the data. -/
theorem fast_indep {v w : Nat} (weight gap k : Nat) (x : List (BitVec v)) (y : List (BitVec w)) (o0 o1 : BitVec 32) (a : Nat × List (BitVec v) × BitVec 32 × BitVec 32)
    (b : Nat × List (BitVec w) × BitVec 32 × BitVec 32) (ha : fast weight gap k x o0 o1 = some a) (hb : fast weight gap k y o0 o1 = some b) : a.1 = b.1 ∧ a.2.2 = b.2.2 := by
  induction k generalizing x y o0 o1 with
  | zero =>
    rw [fast] at ha hb
    obtain rfl := Option.some.inj ha
    obtain rfl := Option.some.inj hb
    exact ⟨rfl, rfl⟩
  | succ i ih =>
    rw [fast] at ha hb
    by_cases hc : i > max 5 31 + gap
    · rw [if_pos hc] at ha hb
      simp only at ha hb
      cases e1 : fastDiag i gap (x.getD i 0) ((diag weight).getD (i &&& (gap - 1)) []) x with
      | none => rw [e1] at ha; exact absurd ha (by simp)
      | some x1 =>
        cases f1 : fastDiag i gap (y.getD i 0) ((diag weight).getD (i &&& (gap - 1)) []) y with
        | none => rw [f1] at hb; exact absurd hb (by simp)
        | some y1 =>
          rw [e1] at ha
          rw [f1] at hb
          simp only at ha hb
          cases e2 : xorIdx x1 o0.toNat (x.getD i 0) with
          | none => rw [e2] at ha; exact absurd ha (by simp)
          | some x2 =>
            cases f2 : xorIdx y1 o0.toNat (y.getD i 0) with
            | none => rw [f2] at hb; exact absurd hb (by simp)
            | some y2 =>
              rw [e2] at ha
              rw [f2] at hb
              simp only at ha hb
              cases e3 : xorIdx x2 o1.toNat (x.getD i 0) with
              | none => rw [e3] at ha; exact absurd ha (by simp)
              | some x3 =>
                cases f3 : xorIdx y2 o1.toNat (y.getD i 0) with
                | none => rw [f3] at hb; exact absurd hb (by simp)
                | some y3 =>
                  rw [e3] at ha
                  rw [f3] at hb
                  exact ih x3 y3 _ _ ha hb
    · rw [if_neg hc] at ha hb
      obtain rfl := Option.some.inj ha
      obtain rfl := Option.some.inj hb
      exact ⟨rfl, rfl⟩

theorem rightEncode2_eq {v w : Nat} (c : Code) (x : List (BitVec v)) (y : List (BitVec w)) :
    rightEncode2 c x y = (rightEncode c x).bind fun a => (rightEncode c y).map fun b => (a, b) := by
  unfold rightEncode2 rightEncode
  simp only
  by_cases h0 : x.length ≥ c.n
  · by_cases h1 : y.length ≥ c.n
    · rw [if_pos ⟨h0, h1⟩, if_pos h0, if_pos h1, fast2_eq]
      cases e : fast c.weight (gapOf c.weight) c.n x (offset c.n (gapOf c.weight) 5) (offset c.n (gapOf c.weight) 31) with
      | none => rfl
      | some a =>
        cases f : fast c.weight (gapOf c.weight) c.n y (offset c.n (gapOf c.weight) 5) (offset c.n (gapOf c.weight) 31) with
        | none => simp
        | some b =>
          obtain ⟨i1, i2⟩ := fast_indep _ _ _ _ _ _ _ _ _ e f
          obtain ⟨a1, a2, a3, a4⟩ := a
          obtain ⟨b1, b2, b3, b4⟩ := b
          simp only [Prod.mk.injEq] at i1 i2
          obtain ⟨rfl, rfl⟩ := i2
          subst i1
          simp only [Option.bind_some, Option.map_some]
          exact tail2_eq _ _ _ _ _ _ _ _
    · rw [if_neg (fun h => h1 h.2), if_neg h1]
      simp
  · rw [if_neg (fun h => h0 h.1), if_neg h0]
    rfl

theorem leftChunk2_eq {v w : Nat} (in0 : List (BitVec v)) (in1 : List (BitVec w)) (es : List Nat) (i k t : Nat) (x : List (BitVec v)) (y : List (BitVec w)) :
    leftChunk2 in0 in1 es i k t x y = (leftChunk in0 es i k t x).bind fun a => (leftChunk in1 es i k t y).map fun b => (a, b) := by
  induction k generalizing t x y with
  | zero => rfl
  | succ k ih =>
    rw [leftChunk2, leftChunk, leftChunk]
    cases e0 : x[i + t]? with
    | none => rfl
    | some a =>
      cases e1 : y[i + t]? with
      | none => simp
      | some b =>
        simp only
        cases f0 : leftOne in0 t es a with
        | none => rfl
        | some u =>
          cases f1 : leftOne in1 t es b with
          | none => simp
          | some z => exact ih _ _ _

theorem leftLoop2_eq {v w : Nat} (n : Nat) (in0 : List (BitVec v)) (in1 : List (BitVec w)) (fuel : Nat) (es : List Nat) (i : Nat) (x : List (BitVec v)) (y : List (BitVec w)) :
    leftLoop2 n in0 in1 fuel es i x y = (leftLoop n in0 fuel es i x).bind fun a => (leftLoop n in1 fuel es i y).map fun b => (a, b) := by
  induction fuel generalizing es i x y with
  | zero =>
    rw [leftLoop2, leftLoop, leftLoop]
    by_cases h : i < n
    · rw [if_pos h, if_pos h, if_pos h]
      rfl
    · rw [if_neg h, if_neg h, if_neg h]
      rfl
  | succ fuel ih =>
    rw [leftLoop2, leftLoop, leftLoop]
    by_cases h : i < n
    · rw [if_pos h, if_pos h, if_pos h]
      cases es.getLast? with
      | none => rfl
      | some mx =>
        simp only
        by_cases hall : (es.all fun e => decide (e ≤ mx)) = true
        · rw [if_pos hall, if_pos hall, if_pos hall, leftChunk2_eq]
          cases e0 : leftChunk in0 es i (min (n - mx) (n - i)) 0 x with
          | none => rfl
          | some a =>
            cases e1 : leftChunk in1 es i (min (n - mx) (n - i)) 0 y with
            | none => simp
            | some b => exact ih _ _ _ _
        · rw [if_neg hall, if_neg hall, if_neg hall]
          rfl
    · rw [if_neg h, if_neg h, if_neg h]
      rfl

theorem leftEncode2_eq {v w : Nat} (c : Code) (in0 x : List (BitVec v)) (in1 y : List (BitVec w)) :
    leftEncode2 c in0 x in1 y = (leftEncode c in0 x).bind fun a => (leftEncode c in1 y).map fun b => (a, b) := by
  unfold leftEncode2 leftEncode
  by_cases h0 : in0.length ≥ c.n ∧ x.length ≥ c.n ∧ c.idx.length = c.weight ∧ (c.weight = 5 ∨ c.weight = 11)
  · by_cases h1 : in1.length ≥ c.n ∧ y.length ≥ c.n ∧ c.idx.length = c.weight ∧ (c.weight = 5 ∨ c.weight = 11)
    · rw [if_pos h0, if_pos h1, if_pos ⟨h0.1, h0.2.1, h1.1, h1.2.1, h0.2.2⟩, leftLoop2_eq]
    · rw [if_neg (fun h => h1 ⟨h.2.2.1, h.2.2.2.1, h.2.2.2.2⟩), if_neg h1]
      simp
  · rw [if_neg (fun h => h0 ⟨h.1, h.2.1, h.2.2.2.2⟩), if_neg h0]
    rfl

/-- C117. Encoding two messages at once, of the same or of different element types, is encoding each on its own, in place and into separate outputs, for every code, also when it throws. -/
theorem C117_two {v w : Nat} (c : Code) (x : List (BitVec v)) (y : List (BitVec w)) (ox : List (BitVec v)) (oy : List (BitVec w)) :
    dualEncodeInplace2 c x y = (dualEncodeInplace c x).bind (fun a => (dualEncodeInplace c y).map fun b => (a, b)) ∧
    dualEncode2 c x ox y oy = (dualEncode c x ox).bind (fun a => (dualEncode c y oy).map fun b => (a, b)) := by
  constructor
  · have hnone : ∀ {u : Nat} (z : List (BitVec u)), ¬ (z.length ≥ c.m ∧ c.n ≤ z.length) → dualEncodeInplace c z = none := by
      intro u z hz
      unfold dualEncodeInplace
      by_cases h2 : z.length ≥ c.m
      · rw [if_pos h2, if_neg (fun h => hz ⟨h2, h⟩)]
      · rw [if_neg h2]
    have hnone2 : ¬ ((x.length ≥ c.m ∧ c.n ≤ x.length) ∧ (y.length ≥ c.m ∧ c.n ≤ y.length)) → dualEncodeInplace2 c x y = none := by
      intro hz
      unfold dualEncodeInplace2
      by_cases h2 : x.length ≥ c.m ∧ y.length ≥ c.m
      · rw [if_pos h2, if_neg (fun h => hz ⟨⟨h2.1, h.1⟩, h2.2, h.2⟩)]
      · rw [if_neg h2]
    by_cases h0 : x.length ≥ c.m ∧ c.n ≤ x.length
    · by_cases h1 : y.length ≥ c.m ∧ c.n ≤ y.length
      · unfold dualEncodeInplace2 dualEncodeInplace
        rw [if_pos h0.1, if_pos h0.2, if_pos ⟨h0.1, h1.1⟩, if_pos ⟨h0.2, h1.2⟩, if_pos h1.1, if_pos h1.2, rightEncode2_eq]
        cases e0 : rightEncode c ((x.drop c.n).take c.n) with
        | none => rfl
        | some r =>
          cases e1 : rightEncode c ((y.drop c.n).take c.n) with
          | none => simp
          | some s =>
            simp only [Option.bind_some, Option.map_some]
            rw [leftEncode2_eq]
            cases f0 : leftEncode c r (x.take c.n) with
            | none => rfl
            | some l =>
              cases f1 : leftEncode c s (y.take c.n) with
              | none => simp
              | some k => rfl
      · rw [hnone2 (fun h => h1 h.2), hnone y h1]
        simp
    · rw [hnone2 (fun h => h0 h.1), hnone x h0]
      rfl
  · unfold dualEncode2 dualEncode
    by_cases h0 : x.length ≥ c.m ∧ ox.length ≥ c.n ∧ c.n ≤ c.m
    · by_cases h1 : y.length ≥ c.m ∧ oy.length ≥ c.n ∧ c.n ≤ c.m
      · rw [if_pos h0, if_pos h1, if_pos ⟨h0.1, h0.2.1, h1.1, h1.2.1, h0.2.2⟩, rightEncode2_eq]
        cases e0 : rightEncode c ((x.drop c.n).take (c.m - c.n)) with
        | none => rfl
        | some r =>
          cases e1 : rightEncode c ((y.drop c.n).take (c.m - c.n)) with
          | none => simp
          | some s =>
            simp only [Option.bind_some, Option.map_some]
            rw [leftEncode2_eq]
            cases f0 : leftEncode c r (x.take c.n) with
            | none => rfl
            | some l =>
              cases f1 : leftEncode c s (y.take c.n) with
              | none => simp
              | some k => rfl
      · rw [if_neg (fun h => h1 ⟨h.2.2.1, h.2.2.2.1, h.2.2.2.2⟩), if_neg h1]
        simp
    · rw [if_neg (fun h => h0 ⟨h.1, h.2.1, h.2.2.2.2⟩), if_neg h0]
      rfl

/-- A code of weight 5 and length 64 on 8-bit elements: the constructor's hypotheses hold and the loop for `i > lower_bound` runs. -/
example : ∃ c r, mk 64 5 [0, 23, 36, 38, 54] = some c ∧ dualEncodeInplace c ((List.range 128).map (BitVec.ofNat 8)) = some r ∧ r.length = 128 := by
  obtain ⟨c, h, -⟩ := (C117_construct 64 5 [0, 23, 36, 38, 54] rfl (by decide)).1 (by decide)
  obtain ⟨r, h1, h2, -⟩ := (C117_inplace 64 5 _ rfl (by decide) c h ((List.range 128).map (BitVec.ofNat 8))).1 (by simp)
  exact ⟨c, r, h, h1, by simpa using h2⟩

/-- Colliding start positions (all zero) are resolved by probing; the shortest code. -/
example : mk 5 5 [0, 0, 0, 0, 0] = some ⟨5, 10, 5, [0, 1, 2, 3, 4]⟩ := by decide +kernel

example : ∃ c, mk (2 ^ 32 + 7) 5 [0, 1, 2, 3, 4] = some c ∧ c.n ≠ 2 ^ 32 + 7 ∧ c.n < 2 ^ 32 := C117_truncated_violated _ _ _ rfl (Or.inl rfl) (by omega) (by omega)

end Yacl.Silver
