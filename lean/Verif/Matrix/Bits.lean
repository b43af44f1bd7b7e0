import Verif.Matrix.Model
import Mathlib.Tactic.Common
import Mathlib.Tactic.SplitIfs
/-! Bit-level lemmas about the primitive operations of the transposes. -/
namespace Yacl.Matrix

theorem or_fold_bits {w : Nat} (f : Nat → BitVec w) (g : Nat → Bool) (n : Nat)
    (hf : ∀ j < n, ∀ c < w, (f j).getLsbD c = (decide (c = j) && g j)) (acc : BitVec w) (c : Nat) (hc : c < w) :
    ((List.range n).foldl (fun t j => t ||| f j) acc).getLsbD c = (acc.getLsbD c || (decide (c < n) && g c)) := by
  induction n with
  | zero => simp
  | succ n ih =>
    rw [List.range_succ, List.foldl_append, List.foldl_cons, List.foldl_nil, BitVec.getLsbD_or,
      ih (fun j hj => hf j (by omega)), hf n (by omega) c hc]
    by_cases h : c = n
    · subst h; simp
    · have : (c < n + 1) = (c < n) := propext (by omega)
      simp [h, this]

theorem getBit_bit (x : BitVec 128) (pos j c : Nat) (hc : c < 128) :
    (getBit x pos <<< j).getLsbD c = (decide (c = j) && x.getLsbD pos) := by
  unfold getBit
  rw [BitVec.getLsbD_shiftLeft, BitVec.getLsbD_and, BitVec.getLsbD_ushiftRight]
  by_cases h : c = j
  · subst h; simp [hc]
  · by_cases h2 : c < j
    · simp [h, h2]
    · have h3 : c - j ≠ 0 := by omega
      simp [h, h3]

theorem naiveRow_bit (inp : Mat) (i c : Nat) (hc : c < 128) : (naiveRow inp i).getLsbD c = (inp c).getLsbD i := by
  unfold naiveRow
  rw [or_fold_bits _ (fun j => (inp j).getLsbD i) 128 (fun j _ c hc => getBit_bit _ _ _ _ hc) _ _ hc]
  simp [hc]

theorem movemask_bit (x : BitVec 128) (l : Nat) (hl : l < 16) : (movemask x).getLsbD l = x.getLsbD (8 * l + 7) := by
  unfold movemask
  rw [or_fold_bits _ (fun l => x.getLsbD (8 * l + 7)) 16 ?_ _ _ hl]
  · simp [hl]
  · intro j _ c hc
    rw [BitVec.getLsbD_shiftLeft, BitVec.getLsbD_setWidth]
    by_cases h : c = j
    · subst h; simp [hc]
    · by_cases h2 : c < j
      · simp [h, h2]
      · have h3 : c - j ≠ 0 := by omega
        simp [h, h3]

theorem shl_bit (x : BitVec 128) (n c : Nat) (hc : c < 128) :
    (shlEpi64 x n).getLsbD c = (decide (n ≤ c % 64) && x.getLsbD (c - n)) := by
  unfold shlEpi64
  simp only [BitVec.getLsbD_or, BitVec.getLsbD_shiftLeft, BitVec.getLsbD_setWidth, BitVec.getLsbD_extractLsb', hc,
    decide_true, Bool.true_and]
  by_cases h : c < 64
  · have e : c % 64 = c := Nat.mod_eq_of_lt h
    by_cases h2 : n ≤ c
    · have : ¬ c < n := by omega
      have h3 : c - n < 64 := by omega
      simp [h, e, h2, this, h3]
    · have : c < n := by omega
      simp [h, e, h2, this]
  · have e : c % 64 = c - 64 := by omega
    by_cases h2 : n ≤ c - 64
    · have h4 : ¬ c - 64 < n := by omega
      have h3 : c - 64 - n < 64 := by omega
      have h5 : c - 64 < 128 := by omega
      have h6 : c - 64 < 64 := by omega
      have h7 : 64 + (c - 64 - n) = c - n := by omega
      simp [h, e, h2, h4, h3, h5, h6, h7]
    · have h4 : c - 64 < n := by omega
      simp [h, e, h2, h4]

theorem shl_shl (x : BitVec 128) (n : Nat) : shlEpi64 (shlEpi64 x n) 1 = shlEpi64 x (n + 1) := by
  apply BitVec.eq_of_getLsbD_eq
  intro c hc
  rw [shl_bit _ _ _ hc, shl_bit _ _ _ hc]
  by_cases h : 1 ≤ c % 64
  · rw [shl_bit _ _ _ (by omega)]
    have e : (c - 1) % 64 = c % 64 - 1 := by omega
    have e2 : c - 1 - n = c - (n + 1) := by omega
    rw [e, e2]
    by_cases h3 : n + 1 ≤ c % 64
    · have : n ≤ c % 64 - 1 := by omega
      simp [h, h3, this]
    · have : ¬ n ≤ c % 64 - 1 := by omega
      simp [h3, this]
  · have : ¬ n + 1 ≤ c % 64 := by omega
    simp [h, this]

theorem shl_zero (x : BitVec 128) : shlEpi64 x 0 = x := by
  apply BitVec.eq_of_getLsbD_eq
  intro c hc
  rw [shl_bit _ _ _ hc]; simp

/-- The mask taken after shifting by `j`: bit `l` is bit `7 - j` of byte `l`. -/
theorem movemask_shl (x : BitVec 128) (j l : Nat) (hj : j < 8) (hl : l < 16) :
    (movemask (shlEpi64 x j)).getLsbD l = x.getLsbD (8 * l + (7 - j)) := by
  rw [movemask_bit _ _ hl, shl_bit _ _ _ (by omega)]
  have : j ≤ (8 * l + 7) % 64 := by omega
  have e : 8 * l + 7 - j = 8 * l + (7 - j) := by omega
  simp [this, e]

theorem maskBits (k : Nat) (i c : Nat) (hc : c < 128) :
    ((BitVec.ofNat 128 (2 ^ k - 1)) <<< i).getLsbD c = decide (i ≤ c ∧ c - i < k) := by
  rw [BitVec.getLsbD_shiftLeft, BitVec.getLsbD_ofNat, Nat.testBit_two_pow_sub_one]
  by_cases h : c < i
  · have : ¬ i ≤ c := by omega
    simp [h, this]
  · have h2 : i ≤ c := by omega
    have h3 : c - i < 128 := by omega
    simp [h, h2, h3, hc]

theorem setByte_bit (x : BitVec 128) (b : Nat) (v : BitVec 8) (c : Nat) (hc : c < 128) :
    (setByte x b v).getLsbD c = if c / 8 = b then v.getLsbD (c % 8) else x.getLsbD c := by
  unfold setByte
  have := maskBits 8 (8 * b) c hc
  simp only [Nat.reducePow, Nat.reduceSub] at this
  change ((255 : BitVec 128) <<< (8 * b)).getLsbD c = _ at this
  rw [BitVec.getLsbD_or, BitVec.getLsbD_and, BitVec.getLsbD_not, this, BitVec.getLsbD_shiftLeft, BitVec.getLsbD_setWidth]
  by_cases h : c / 8 = b
  · have h1 : 8 * b ≤ c ∧ c - 8 * b < 8 := by omega
    have h2 : ¬ c < 8 * b := by omega
    have h3 : c - 8 * b < 128 := by omega
    have h4 : c - 8 * b = c % 8 := by omega
    rw [h4] at h3
    simp [h, hc, h1, h2, h3, h4, Nat.mod_lt]
  · have h1 : ¬ (8 * b ≤ c ∧ c - 8 * b < 8) := by omega
    by_cases h2 : c < 8 * b
    · have : ¬ 8 * b ≤ c := by omega
      simp [h, hc, h2, this]
    · have h3 : 8 ≤ c - 8 * b := by omega
      have h5 : ¬ c - 8 * b < 8 := by omega
      simp [h, hc, h2, h3, h5]

theorem setU16_bit (x : BitVec 128) (b : Nat) (v : BitVec 16) (c : Nat) (hc : c < 128) :
    (setU16 x b v).getLsbD c = if c / 16 = b then v.getLsbD (c % 16) else x.getLsbD c := by
  unfold setU16
  have := maskBits 16 (16 * b) c hc
  simp only [Nat.reducePow, Nat.reduceSub] at this
  change ((65535 : BitVec 128) <<< (16 * b)).getLsbD c = _ at this
  rw [BitVec.getLsbD_or, BitVec.getLsbD_and, BitVec.getLsbD_not, this, BitVec.getLsbD_shiftLeft, BitVec.getLsbD_setWidth]
  by_cases h : c / 16 = b
  · have h1 : 16 * b ≤ c ∧ c - 16 * b < 16 := by omega
    have h2 : ¬ c < 16 * b := by omega
    have h3 : c - 16 * b < 128 := by omega
    have h4 : c - 16 * b = c % 16 := by omega
    rw [h4] at h3
    simp [h, hc, h1, h2, h3, h4, Nat.mod_lt]
  · by_cases h2 : c < 16 * b
    · have : ¬ 16 * b ≤ c := by omega
      simp [h, hc, h2, this]
    · have h3 : 16 ≤ c - 16 * b := by omega
      have h5 : ¬ c - 16 * b < 16 := by omega
      simp [h, hc, h2, h3, h5]

theorem getByte_bit (x : BitVec 128) (b c : Nat) (hc : c < 8) : (getByte x b).getLsbD c = x.getLsbD (8 * b + c) := by
  unfold getByte; rw [BitVec.getLsbD_extractLsb']; simp [hc]

/-- A loop writing the 16 bytes of a pair of blocks. -/
theorem bytes_fold (f g : Nat → BitVec 8) (n : Nat) (o : BitVec 128 × BitVec 128) :
    let r := (List.range n).foldl (fun o l => (setByte o.1 l (f l), setByte o.2 l (g l))) o
    (∀ c < 128, r.1.getLsbD c = if c / 8 < n then (f (c / 8)).getLsbD (c % 8) else o.1.getLsbD c) ∧
    (∀ c < 128, r.2.getLsbD c = if c / 8 < n then (g (c / 8)).getLsbD (c % 8) else o.2.getLsbD c) := by
  induction n with
  | zero => simp
  | succ n ih =>
    simp only [List.range_succ, List.foldl_append, List.foldl_cons, List.foldl_nil] at *
    constructor
    · intro c hc
      rw [setByte_bit _ _ _ _ hc, ih.1 c hc]
      by_cases h : c / 8 = n
      · simp [h]
      · have : (c / 8 < n + 1) = (c / 8 < n) := propext (by omega)
        simp [h, this]
    · intro c hc
      rw [setByte_bit _ _ _ _ hc, ih.2 c hc]
      by_cases h : c / 8 = n
      · simp [h]
      · have : (c / 8 < n + 1) = (c / 8 < n) := propext (by omega)
        simp [h, this]

/-- What `sse_loadSubSquare` loads: bit `q` of byte `l` is bit `16y + q` (resp. `16y + 8 + q`) of row `16x + l`. -/
theorem load_bits (m : Mat) (o : BitVec 128 × BitVec 128) (x y l q : Nat) (hl : l < 16) (hq : q < 8) :
    (loadSubSquare m o x y).1.getLsbD (8 * l + q) = (m (16 * x + l)).getLsbD (16 * y + q) ∧
    (loadSubSquare m o x y).2.getLsbD (8 * l + q) = (m (16 * x + l)).getLsbD (16 * y + (8 + q)) := by
  have := bytes_fold (fun l => getByte (m (16 * x + l)) (2 * y)) (fun l => getByte (m (16 * x + l)) (2 * y + 1)) 16 o
  have h1 : (8 * l + q) / 8 = l := by omega
  have h2 : (8 * l + q) % 8 = q := by omega
  unfold loadSubSquare
  rw [this.1 _ (by omega), this.2 _ (by omega), h1, h2, if_pos hl, if_pos hl, getByte_bit _ _ _ hq, getByte_bit _ _ _ hq]
  constructor <;> (congr 1; omega)

theorem loadX_bits (w : WideMat) (o : BitVec 128 × BitVec 128) (x y i l q : Nat) (hl : l < 16) (hq : q < 8)
    (hy : y < 8) :
    (loadSubSquareX w o x y i).1.getLsbD (8 * l + q) = (w (16 * x + l) i).getLsbD (16 * y + q) ∧
    (loadSubSquareX w o x y i).2.getLsbD (8 * l + q) = (w (16 * x + l) i).getLsbD (16 * y + (8 + q)) := by
  have := bytes_fold (fun l => getByteW (w (x * 16 + l)) (i * 16 + 2 * y))
    (fun l => getByteW (w (x * 16 + l)) (i * 16 + 2 * y + 1)) 16 o
  have h1 : (8 * l + q) / 8 = l := by omega
  have h2 : (8 * l + q) % 8 = q := by omega
  have h3 : (i * 16 + 2 * y) / 16 = i := by omega
  have h4 : (i * 16 + 2 * y + 1) / 16 = i := by omega
  unfold loadSubSquareX
  rw [this.1 _ (by omega), this.2 _ (by omega), h1, h2, if_pos hl, if_pos hl]
  simp only [getByteW]
  rw [getByte_bit _ _ _ hq, getByte_bit _ _ _ hq, h3, h4, Nat.mul_comm x 16]
  constructor <;> (congr 1; omega)

/-- The store loop after `n` turns. -/
theorem store_inv (m : Mat) (a b : BitVec 128) (x y n : Nat) (hn : n ≤ 8) :
    let s := (List.range n).foldl (storeStep x y) (m, a, b)
    s.2 = (shlEpi64 a n, shlEpi64 b n) ∧
    ∀ r, ∀ c < 128, (s.1 r).getLsbD c =
      if c / 16 = y ∧ 16 * x + 8 ≤ r + n ∧ r < 16 * x + 8 then a.getLsbD (8 * (c % 16) + (r - 16 * x))
      else if c / 16 = y ∧ 16 * x + 16 ≤ r + n ∧ r < 16 * x + 16 then b.getLsbD (8 * (c % 16) + (r - (16 * x + 8)))
      else (m r).getLsbD c := by
  induction n with
  | zero =>
    refine ⟨by simp [shl_zero], ?_⟩
    intro r c _
    have h1 : ¬ (c / 16 = y ∧ 16 * x + 8 ≤ r + 0 ∧ r < 16 * x + 8) := by omega
    have h2 : ¬ (c / 16 = y ∧ 16 * x + 16 ≤ r + 0 ∧ r < 16 * x + 16) := by omega
    rw [if_neg h1, if_neg h2]; rfl
  | succ n ih =>
    have ih := ih (by omega)
    simp only [List.range_succ, List.foldl_append, List.foldl_cons, List.foldl_nil] at *
    generalize (List.range n).foldl (storeStep x y) (m, a, b) = s at ih ⊢
    obtain ⟨m', s2⟩ := s
    obtain ⟨e, hb⟩ := ih
    simp only at e hb
    subst e
    simp only [storeStep, shl_shl, true_and]
    intro r c hc
    have hcm : c % 16 < 16 := Nat.mod_lt _ (by omega)
    have hne : (16 * x + 15 - n) ≠ (16 * x + 7 - n) := by omega
    by_cases h1 : r = 16 * x + 15 - n
    · subst h1
      rw [Function.update_self, setU16_bit _ _ _ _ hc, Function.update_of_ne hne, hb _ c hc,
        movemask_shl _ _ _ (by omega) hcm]
      by_cases hy : c / 16 = y
      · have e : 16 * x + 15 - n - (16 * x + 8) = 7 - n := by omega
        rw [if_pos hy, if_neg (by omega), if_pos (by omega), e]
      · simp [hy]
    · rw [Function.update_of_ne h1]
      by_cases h2 : r = 16 * x + 7 - n
      · subst h2
        rw [Function.update_self, setU16_bit _ _ _ _ hc, hb _ c hc, movemask_shl _ _ _ (by omega) hcm]
        by_cases hy : c / 16 = y
        · have e : 16 * x + 7 - n - 16 * x = 7 - n := by omega
          rw [if_pos hy, if_pos (by omega), e]
        · simp [hy]
      · rw [Function.update_of_ne h2, hb _ c hc]
        have e1 : (16 * x + 8 ≤ r + (n + 1) ∧ r < 16 * x + 8) = (16 * x + 8 ≤ r + n ∧ r < 16 * x + 8) :=
          propext (by omega)
        have e2 : (16 * x + 16 ≤ r + (n + 1) ∧ r < 16 * x + 16) = (16 * x + 16 ≤ r + n ∧ r < 16 * x + 16) :=
          propext (by omega)
        simp only [e1, e2]

/-- What `sse_transposeSubSquare` stores. -/
theorem store_bits (m : Mat) (ab : BitVec 128 × BitVec 128) (x y r c : Nat) (hc : c < 128) :
    ((transposeSubSquare m ab x y).1 r).getLsbD c =
      if r / 16 = x ∧ c / 16 = y then
        (if r % 16 < 8 then ab.1.getLsbD (8 * (c % 16) + r % 16) else ab.2.getLsbD (8 * (c % 16) + (r % 16 - 8)))
      else (m r).getLsbD c := by
  unfold transposeSubSquare
  rw [(store_inv m ab.1 ab.2 x y 8 (by omega)).2 r c hc]
  by_cases hy : c / 16 = y
  · by_cases hx : r / 16 = x
    · by_cases h8 : r % 16 < 8
      · have e : r - 16 * x = r % 16 := by omega
        rw [if_pos (by omega), if_pos ⟨hx, hy⟩, if_pos h8, e]
      · have e : r - (16 * x + 8) = r % 16 - 8 := by omega
        rw [if_neg (by omega), if_pos (by omega), if_pos ⟨hx, hy⟩, if_neg h8, e]
    · rw [if_neg (by omega), if_neg (by omega), if_neg (by tauto)]
  · rw [if_neg (by tauto), if_neg (by tauto), if_neg (by tauto)]

/-- Load one 16x16 square and store it elsewhere: the square is transposed. -/
theorem move_bits (m m0 : Mat) (o : BitVec 128 × BitVec 128) (x y r c : Nat) (hc : c < 128) :
    ((transposeSubSquare m (loadSubSquare m0 o y x) x y).1 r).getLsbD c =
      if r / 16 = x ∧ c / 16 = y then (m0 c).getLsbD r else (m r).getLsbD c := by
  rw [store_bits _ _ _ _ _ _ hc]
  have hcm : c % 16 < 16 := Nat.mod_lt _ (by omega)
  by_cases h : r / 16 = x ∧ c / 16 = y
  · rw [if_pos h, if_pos h]
    obtain ⟨hx, hy⟩ := h
    have e1 : 16 * y + c % 16 = c := by omega
    by_cases h8 : r % 16 < 8
    · rw [if_pos h8, (load_bits m0 o y x _ _ hcm h8).1, e1]; congr 1; omega
    · rw [if_neg h8, (load_bits m0 o y x _ (r % 16 - 8) hcm (by omega)).2, e1]; congr 1; omega
  · rw [if_neg h, if_neg h]

theorem storeEight_bits (w : WideMat) (top i8y : Nat) (v : BitVec 128) (n : Nat) (hn : n ≤ 8) (ht : 7 ≤ top) (r i c : Nat)
    (hc : c < 128) :
    (((List.range n).foldl (fun w j =>
      Function.update w (top - j) (setU16W (w (top - j)) i8y (movemask (shlEpi64 v j)))) w) r i).getLsbD c =
      if i = i8y / 8 ∧ c / 16 = i8y % 8 ∧ top < r + n ∧ r ≤ top then v.getLsbD (8 * (c % 16) + (7 - (top - r)))
      else (w r i).getLsbD c := by
  induction n with
  | zero => rw [if_neg (by omega)]; rfl
  | succ n ih =>
    have ih := ih (by omega)
    simp only [List.range_succ, List.foldl_append, List.foldl_cons, List.foldl_nil] at *
    generalize (List.range n).foldl (fun w j =>
      Function.update w (top - j) (setU16W (w (top - j)) i8y (movemask (shlEpi64 v j)))) w = w' at ih ⊢
    have hcm : c % 16 < 16 := Nat.mod_lt _ (by omega)
    by_cases h : r = top - n
    · subst h
      rw [Function.update_self]
      unfold setU16W
      by_cases hi : i = i8y / 8
      · subst hi
        rw [Function.update_self, setU16_bit _ _ _ _ hc, movemask_shl _ _ _ (by omega) hcm, ih]
        have e : top - (top - n) = n := by omega
        by_cases hy : c / 16 = i8y % 8
        · rw [if_pos hy, if_pos (by omega), e]
        · rw [if_neg hy, if_neg (by tauto), if_neg (by tauto)]
      · rw [Function.update_of_ne hi, ih, if_neg (by tauto), if_neg (by tauto)]
    · rw [Function.update_of_ne h, ih]
      have e1 : (top < r + (n + 1) ∧ r ≤ top) = (top < r + n ∧ r ≤ top) := propext (by omega)
      simp only [e1]

theorem moveX_bits (m m0 : WideMat) (o : BitVec 128 × BitVec 128) (x y i r i' c : Nat) (hc : c < 128) (hx8 : x < 8)
    (hy8 : y < 8) :
    (transposeSubSquareX m (loadSubSquareX m0 o y x i) x y i r i').getLsbD c =
      if i' = i ∧ r / 16 = x ∧ c / 16 = y then (m0 c i).getLsbD r else (m r i').getLsbD c := by
  unfold transposeSubSquareX storeEight
  rw [storeEight_bits _ _ _ _ 8 (by omega) (by omega) _ _ _ hc, storeEight_bits _ _ _ _ 8 (by omega) (by omega) _ _ _ hc]
  have e1 : (i * 8 + y) / 8 = i := by omega
  have e2 : (i * 8 + y) % 8 = y := by omega
  have hcm : c % 16 < 16 := Nat.mod_lt _ (by omega)
  rw [e1, e2]
  by_cases h : i' = i ∧ r / 16 = x ∧ c / 16 = y
  · rw [if_pos h]
    obtain ⟨hi, hx, hy⟩ := h
    have e1 : 16 * y + c % 16 = c := by omega
    by_cases h8 : r % 16 < 8
    · have e : 7 - (x * 16 + 7 - r) = r % 16 := by omega
      rw [if_neg (by omega), if_pos (by omega), e, (loadX_bits m0 o y x i _ _ hcm h8 hx8).1, e1]; congr 1; omega
    · have e : 7 - (x * 16 + 15 - r) = r % 16 - 8 := by omega
      rw [if_pos (by omega), e, (loadX_bits m0 o y x i _ (r % 16 - 8) hcm (by omega) hx8).2, e1]; congr 1; omega
  · rw [if_neg h, if_neg (by omega), if_neg (by omega)]

end Yacl.Matrix
