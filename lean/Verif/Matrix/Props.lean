import Verif.Matrix.Bits
import Mathlib.Tactic.Ring
import Mathlib.Data.Nat.Bitwise
import Mathlib.Tactic.IntervalCases
/-! The transposes transpose. -/
namespace Yacl.Matrix

/-- `m'` is the transpose of the 128 x 128 matrix `m`; the memory outside the matrix is unchanged. -/
def IsTranspose (m m' : Mat) : Prop :=
  (∀ r < 128, ∀ c < 128, (m' r).getLsbD c = (m c).getLsbD r) ∧ ∀ r, 128 ≤ r → m' r = m r

/-- `w'` is obtained by transposing each of the eight 128 x 128 blocks of the 128 x 1024 matrix `w`; the memory outside is
unchanged. -/
def IsBlockTranspose (w w' : WideMat) : Prop :=
  (∀ r < 128, ∀ i < 8, ∀ c < 128, (w' r i).getLsbD c = (w c i).getLsbD r) ∧
  ∀ r i, 128 ≤ r ∨ 8 ≤ i → w' r i = w r i

/-! ### Naive -/

theorem update_fold (f : Nat → BitVec 128) (n : Nat) (m : Mat) (r : Nat) :
    ((List.range n).foldl (fun m i => Function.update m i (f i)) m) r = if r < n then f r else m r := by
  induction n with
  | zero => simp
  | succ n ih =>
    rw [List.range_succ, List.foldl_append, List.foldl_cons, List.foldl_nil]
    by_cases h : r = n
    · subst h; rw [Function.update_self, if_pos (by omega)]
    · rw [Function.update_of_ne h, ih]
      have : (r < n + 1) = (r < n) := propext (by omega)
      simp only [this]

/-- **C28** `NaiveTranspose` transposes. -/
theorem C28_naive_transposes (m : Mat) : IsTranspose m (naiveTranspose m) := by
  unfold naiveTranspose
  constructor
  · intro r hr c hc
    rw [update_fold, if_pos hr, naiveRow_bit _ _ _ hc]
  · intro r hr
    rw [update_fold, if_neg (by omega)]

/-! ### Eklundh -/

/-- `m'` is `m` with the bits `S` of the row and column numbers exchanged. -/
def Exchanged (S : List Nat) (m m' : Mat) : Prop :=
  (∀ r < 128, ∀ c < 128, ∀ r' < 128, ∀ c' < 128,
    (∀ q, r'.testBit q = if q ∈ S then c.testBit q else r.testBit q) →
    (∀ q, c'.testBit q = if q ∈ S then r.testBit q else c.testBit q) →
    (m' r).getLsbD c = (m r').getLsbD c') ∧ ∀ r, 128 ≤ r → m' r = m r

theorem exchanged_nil (m : Mat) : Exchanged [] m m := by
  refine ⟨?_, fun _ _ => rfl⟩
  intro r _ c _ r' _ c' _ h1 h2
  have e1 : r' = r := Nat.eq_of_testBit_eq (fun q => by simpa using h1 q)
  have e2 : c' = c := Nat.eq_of_testBit_eq (fun q => by simpa using h2 q)
  rw [e1, e2]

theorem exchanged_all (m m' : Mat) (S : List Nat) (h : Exchanged S m m') (hS : ∀ q < 7, q ∈ S) : IsTranspose m m' := by
  refine ⟨?_, h.2⟩
  intro r hr c hc
  have hb : ∀ x < 128, ∀ q, q ∉ S → x.testBit q = false := by
    intro x hx q hq
    have : 7 ≤ q := by
      by_cases h7 : q < 7
      · exact absurd (hS q h7) hq
      · omega
    apply Nat.testBit_lt_two_pow
    exact Nat.lt_of_lt_of_le hx (Nat.pow_le_pow_right (n := 2) (by omega) this)
  apply h.1 r hr c hc c hc r hr
  · intro q
    by_cases hq : q ∈ S
    · rw [if_pos hq]
    · rw [if_neg hq, hb c hc q hq, hb r hr q hq]
  · intro q
    by_cases hq : q ∈ S
    · rw [if_pos hq]
    · rw [if_neg hq, hb c hc q hq, hb r hr q hq]

/-- Exchanging bit `p` of the row and column numbers of one entry: where the entry at `(r, c)` comes from. -/
def swapFst (p r c : Nat) : Nat :=
  if r.testBit p = c.testBit p then r else if r.testBit p then r - 2 ^ p else r + 2 ^ p

theorem testBit_div (x p : Nat) : x.testBit p = decide (x / 2 ^ p % 2 = 1) := by
  rw [Nat.testBit_eq_decide_div_mod_eq]

theorem testBit_add_pow (x p q : Nat) (h : x.testBit p = false) :
    (x + 2 ^ p).testBit q = if q = p then true else x.testBit q := by
  have hw : 0 < 2 ^ p := Nat.pow_pos (by omega)
  rcases Nat.lt_trichotomy q p with hq | hq | hq
  · rw [if_neg (by omega), Nat.add_comm, Nat.testBit_two_pow_add_gt hq]
  · subst hq; rw [if_pos rfl, Nat.add_comm, Nat.testBit_two_pow_add_eq, h]; rfl
  · rw [if_neg (by omega)]
    obtain ⟨d, rfl⟩ : ∃ d, q = p + 1 + d := ⟨q - (p + 1), by omega⟩
    rw [testBit_div, testBit_div]
    have hx : x / 2 ^ p % 2 = 0 := by
      rw [testBit_div] at h; simp at h; omega
    have : ∀ y, y / 2 ^ (p + 1 + d) = y / 2 ^ p / 2 / 2 ^ d := by
      intro y; rw [pow_add, pow_add, pow_one, Nat.div_div_eq_div_mul, Nat.div_div_eq_div_mul, Nat.mul_assoc]
    rw [this, this, Nat.add_div_right _ hw]
    have : (x / 2 ^ p).succ / 2 = x / 2 ^ p / 2 := by omega
    rw [this]

theorem pow_le_of_testBit (x p : Nat) (h : x.testBit p = true) : 2 ^ p ≤ x := by
  by_contra hc
  rw [Nat.testBit_lt_two_pow (by omega)] at h; cases h

theorem testBit_sub_pow (x p q : Nat) (h : x.testBit p = true) :
    (x - 2 ^ p).testBit q = if q = p then false else x.testBit q := by
  have hle := pow_le_of_testBit x p h
  have hf : (x - 2 ^ p).testBit p = false := by
    rw [testBit_div] at h ⊢
    have h1 : x / 2 ^ p % 2 = 1 := by simpa using h
    have : (x - 2 ^ p) / 2 ^ p = x / 2 ^ p - 1 := by
      have := Nat.sub_mul_div x (2 ^ p) 1
      simpa using this
    rw [this]; simp; omega
  have := testBit_add_pow (x - 2 ^ p) p q hf
  rw [Nat.sub_add_cancel hle] at this
  by_cases hq : q = p
  · subst hq; simp [hf]
  · rw [if_neg hq] at this ⊢; exact this.symm

theorem swapFst_bit (p r c q : Nat) : (swapFst p r c).testBit q = if q = p then c.testBit p else r.testBit q := by
  unfold swapFst
  split
  · rename_i h
    by_cases hq : q = p
    · subst hq; simp [h]
    · simp [hq]
  · rename_i h
    split
    · rename_i h1
      rw [testBit_sub_pow _ _ _ h1]
      have : c.testBit p = false := by
        rw [h1] at h; cases hc : c.testBit p
        · rfl
        · exact absurd hc.symm h
      rw [this]
    · rename_i h1
      rw [testBit_add_pow _ _ _ (by simpa using h1)]
      have : c.testBit p = true := by
        cases hc : c.testBit p
        · rw [hc] at h; simp at h1; exact absurd h1 h
        · rfl
      rw [this]

theorem lt_of_bits (x n : Nat) (h : ∀ q, n ≤ q → x.testBit q = false) : x < 2 ^ n := Nat.lt_pow_two_of_testBit x h

theorem swapFst_lt (p r c : Nat) (hp : p < 7) (hr : r < 128) : swapFst p r c < 128 := by
  have : swapFst p r c < 2 ^ 7 := by
    apply lt_of_bits
    intro q hq
    rw [swapFst_bit, if_neg (by omega)]
    apply Nat.testBit_lt_two_pow
    exact Nat.lt_of_lt_of_le hr (Nat.pow_le_pow_right (n := 2) (by omega) hq)
  simpa using this

/-- One more exchanged bit. -/
theorem exchanged_step (S : List Nat) (p : Nat) (hp : p < 7) (hS : p ∉ S) (m m1 m2 : Mat) (h : Exchanged S m m1)
    (hs : ∀ r < 128, ∀ c < 128, (m2 r).getLsbD c = (m1 (swapFst p r c)).getLsbD (swapFst p c r))
    (ho : ∀ r, 128 ≤ r → m2 r = m1 r) :
    Exchanged (p :: S) m m2 := by
  constructor
  · intro r hr c hc r' hr' c' hc' b1 b2
    rw [hs r hr c hc]
    apply h.1 _ (swapFst_lt p r c hp hr) _ (swapFst_lt p c r hp hc) _ hr' _ hc'
    · intro q
      rw [b1 q, swapFst_bit, swapFst_bit]
      by_cases hq : q = p
      · subst hq; simp [hS]
      · simp [hq]
    · intro q
      rw [b2 q, swapFst_bit, swapFst_bit]
      by_cases hq : q = p
      · subst hq; simp [hS]
      · simp [hq]
  · intro r hr; rw [ho r hr, h.2 r hr]

/-- The row `r` after the swaps of one level. -/
def ekRow (mask inv : BitVec 128) (w : Nat) (m : Mat) (r : Nat) : BitVec 128 :=
  if r / w % 2 = 0 then (m r &&& mask) ^^^ ((m (r + w) &&& mask) <<< w)
  else (m r &&& inv) ^^^ ((m (r - w) &&& inv) >>> w)

theorem ek_inner (mask inv : BitVec 128) (w base : Nat) (m : Mat) (n : Nat) (hn : n ≤ w) (r : Nat) :
    ((List.range n).foldl (fun m k => ekSwap mask inv w (k + base) (k + w + base) m) m) r =
      if base ≤ r ∧ r < base + n then (m r &&& mask) ^^^ ((m (r + w) &&& mask) <<< w)
      else if base + w ≤ r ∧ r < base + w + n then (m r &&& inv) ^^^ ((m (r - w) &&& inv) >>> w)
      else m r := by
  induction n generalizing r with
  | zero => rw [if_neg (by omega), if_neg (by omega)]; rfl
  | succ n ih =>
    have ih := fun r => ih (by omega) r
    rw [List.range_succ, List.foldl_append, List.foldl_cons, List.foldl_nil]
    generalize (List.range n).foldl (fun m k => ekSwap mask inv w (k + base) (k + w + base) m) m = m' at ih ⊢
    unfold ekSwap
    have e1 : m' (n + base) = m (n + base) := by rw [ih, if_neg (by omega), if_neg (by omega)]
    have e2 : m' (n + w + base) = m (n + w + base) := by rw [ih, if_neg (by omega), if_neg (by omega)]
    simp only [e1, e2]
    by_cases h2 : r = n + w + base
    · subst h2
      have e : n + w + base - w = n + base := by omega
      rw [Function.update_self, if_neg (by omega), if_pos (by omega), e]
    · rw [Function.update_of_ne h2]
      by_cases h1 : r = n + base
      · subst h1
        have e : n + base + w = n + w + base := by omega
        rw [Function.update_self, if_pos (by omega), e]
      · rw [Function.update_of_ne h1, ih]
        have c1 : (base ≤ r ∧ r < base + (n + 1)) = (base ≤ r ∧ r < base + n) := propext (by omega)
        have c2 : (base + w ≤ r ∧ r < base + w + (n + 1)) = (base + w ≤ r ∧ r < base + w + n) := propext (by omega)
        simp only [c1, c2]

theorem ek_level_row (mask inv : BitVec 128) (w : Nat) (hw : 0 < w) (m : Mat) (J : Nat) (r : Nat) :
    (ekLevel mask inv J w m) r = if r < 2 * w * J then ekRow mask inv w m r else m r := by
  induction J generalizing r with
  | zero => simp [ekLevel]
  | succ J ih =>
    unfold ekLevel at ih ⊢
    rw [List.range_succ, List.foldl_append, List.foldl_cons, List.foldl_nil]
    generalize (List.range J).foldl (fun m j =>
      (List.range w).foldl (fun m k => ekSwap mask inv w (k + 2 * w * j) (k + w + 2 * w * j) m) m) m = m' at ih ⊢
    rw [ek_inner mask inv w (2 * w * J) m' w (Nat.le_refl _) r]
    have hb : 2 * w * (J + 1) = 2 * w * J + 2 * w := by ring
    have hdiv : ∀ q, w * q = 2 * w * J → r / w = q + (r - 2 * w * J) / w ∨ r < 2 * w * J := by
      intro q hq
      by_cases h : r < 2 * w * J
      · right; exact h
      · left
        have : r = (r - 2 * w * J) + w * q := by omega
        conv_lhs => rw [this]
        rw [Nat.add_mul_div_left _ _ hw]; omega
    have hq := hdiv (2 * J) (by ring)
    by_cases h1 : 2 * w * J ≤ r ∧ r < 2 * w * J + w
    · have hz : (r - 2 * w * J) / w = 0 := Nat.div_eq_of_lt (by omega)
      have hd : r / w % 2 = 0 := by omega
      rw [if_pos h1, if_pos (by omega), ih, ih, if_neg (by omega), if_neg (by omega), ekRow, if_pos hd]
    · rw [if_neg h1]
      by_cases h2 : 2 * w * J + w ≤ r ∧ r < 2 * w * J + w + w
      · have hz : (r - 2 * w * J) / w = 1 := by
          apply Nat.div_eq_of_lt_le
          · omega
          · rw [Nat.add_mul]; omega
        have hd : ¬ r / w % 2 = 0 := by omega
        rw [if_pos h2, if_pos (by omega), ih, ih, if_neg (by omega), if_neg (by omega), ekRow, if_neg hd]
      · rw [if_neg h2, ih]
        have : (r < 2 * w * (J + 1)) = (r < 2 * w * J) := propext (by omega)
        simp only [this]

/-- The masks select the columns with bit `p` clear (resp. set). -/
def MaskOk (mask inv p : Nat) : Prop :=
  ∀ c < 128, (BitVec.ofNat 128 mask).getLsbD c = !c.testBit p ∧ (BitVec.ofNat 128 inv).getLsbD c = c.testBit p

theorem ek_level_bits (mask inv p : Nat) (hp : p < 7) (hm : MaskOk mask inv p) (J : Nat) (hJ : 2 * 2 ^ p * J = 128) (m : Mat) :
    (∀ r < 128, ∀ c < 128, ((ekLevel (BitVec.ofNat 128 mask) (BitVec.ofNat 128 inv) J (2 ^ p) m) r).getLsbD c =
      (m (swapFst p r c)).getLsbD (swapFst p c r)) ∧
    ∀ r, 128 ≤ r → (ekLevel (BitVec.ofNat 128 mask) (BitVec.ofNat 128 inv) J (2 ^ p) m) r = m r := by
  have hw : 0 < 2 ^ p := Nat.pow_pos (by omega)
  constructor
  · intro r hr c hc
    rw [ek_level_row _ _ _ hw, hJ, if_pos hr]
    have hrb := testBit_div r p
    unfold ekRow
    obtain ⟨k1, k2⟩ := hm c hc
    by_cases h0 : r / 2 ^ p % 2 = 0
    · have hrp : r.testBit p = false := by rw [hrb]; simp; omega
      rw [if_pos h0, BitVec.getLsbD_xor, BitVec.getLsbD_and, BitVec.getLsbD_shiftLeft, BitVec.getLsbD_and, k1]
      cases hcp : c.testBit p
      · have hz : (decide (c < 2 ^ p) = false) → (BitVec.ofNat 128 mask).getLsbD (c - 2 ^ p) = false := by
          intro h
          have hge : 2 ^ p ≤ c := by simpa using h
          rw [(hm (c - 2 ^ p) (by omega)).1]
          have : (c - 2 ^ p).testBit p = true := by
            rw [testBit_div] at hcp ⊢
            have e : (c - 2 ^ p) / 2 ^ p = c / 2 ^ p - 1 := by
              have := Nat.sub_mul_div c (2 ^ p) 1
              simpa using this
            have : 1 ≤ c / 2 ^ p := (Nat.le_div_iff_mul_le hw).2 (by omega)
            rw [e]; simp at hcp ⊢; omega
          rw [this]; rfl
        have hs1 : swapFst p r c = r := by simp [swapFst, hrp, hcp]
        have hs2 : swapFst p c r = c := by simp [swapFst, hrp, hcp]
        rw [hs1, hs2]
        cases hlt : decide (c < 2 ^ p)
        · rw [hz hlt]; simp
        · simp
      · have hge := pow_le_of_testBit c p hcp
        have hmk : (BitVec.ofNat 128 mask).getLsbD (c - 2 ^ p) = true := by
          rw [(hm (c - 2 ^ p) (by omega)).1, testBit_sub_pow _ _ _ hcp]; simp
        have hs1 : swapFst p r c = r + 2 ^ p := by simp [swapFst, hrp, hcp]
        have hs2 : swapFst p c r = c - 2 ^ p := by simp [swapFst, hrp, hcp]
        have : ¬ c < 2 ^ p := by omega
        rw [hs1, hs2, hmk]; simp [hc, this]
    · have hrp : r.testBit p = true := by rw [hrb]; simp; omega
      rw [if_neg h0, BitVec.getLsbD_xor, BitVec.getLsbD_and, BitVec.getLsbD_ushiftRight, BitVec.getLsbD_and, k2]
      cases hcp : c.testBit p
      · have hs1 : swapFst p r c = r - 2 ^ p := by simp [swapFst, hrp, hcp]
        have hs2 : swapFst p c r = c + 2 ^ p := by simp [swapFst, hrp, hcp]
        have hlt : c + 2 ^ p < 128 := by
          have := swapFst_lt p c r hp hc
          rwa [hs2] at this
        rw [hs1, hs2, Nat.add_comm (2 ^ p) c, (hm _ hlt).2, testBit_add_pow _ _ _ hcp]; simp
      · have hs1 : swapFst p r c = r := by simp [swapFst, hrp, hcp]
        have hs2 : swapFst p c r = c := by simp [swapFst, hrp, hcp]
        rw [hs1, hs2]
        by_cases hlt : 2 ^ p + c < 128
        · rw [(hm _ hlt).2]
          have : (2 ^ p + c).testBit p = false := by
            have e := Nat.add_div_right c hw
            rw [testBit_div] at hcp ⊢
            rw [Nat.add_comm, e]; simp at hcp ⊢; omega
          rw [this]; simp
        · rw [BitVec.getLsbD_of_ge (m (r - 2 ^ p)) (2 ^ p + c) (by omega)]; simp
  · intro r hr
    rw [ek_level_row _ _ _ hw, hJ, if_neg (by omega)]

theorem masks_ok : ∀ i < 7, MaskOk (transMask.getD i 0) (transMaskInv.getD i 0) (6 - i) := by
  unfold MaskOk; decide +kernel

/-- **C28** `EklundhTranspose128` transposes. -/
theorem C28_eklundh_transposes (m : Mat) : IsTranspose m (eklundhTranspose m) := by
  have step : ∀ (i : Nat) (hi : i < 7) (S : List Nat) (m1 : Mat), 6 - i ∉ S → Exchanged S m m1 →
      Exchanged ((6 - i) :: S) m (ekLevel (BitVec.ofNat 128 (transMask.getD i 0)) (BitVec.ofNat 128 (transMaskInv.getD i 0))
        (2 ^ i) (2 ^ (6 - i)) m1) := by
    intro i hi S m1 hS h
    have hJ : 2 * 2 ^ (6 - i) * 2 ^ i = 128 := by
      rw [Nat.mul_assoc, ← pow_add]
      have : 6 - i + i = 6 := by omega
      rw [this]; rfl
    obtain ⟨a, b⟩ := ek_level_bits _ _ (6 - i) (by omega) (masks_ok i hi) (2 ^ i) hJ m1
    exact exchanged_step S (6 - i) (by omega) hS m m1 _ h a b
  have h := step 6 (by omega) _ _ (by decide) <| step 5 (by omega) _ _ (by decide) <| step 4 (by omega) _ _ (by decide) <|
    step 3 (by omega) _ _ (by decide) <| step 2 (by omega) _ _ (by decide) <| step 1 (by omega) _ _ (by decide) <|
    step 0 (by omega) [] m (by decide) (exchanged_nil m)
  exact exchanged_all _ _ _ h (by decide)

/-! ### SSE -/

theorem sse_inner_inv (m0 : Mat) (j : Nat) (s : Sse)
    (h : ∀ r, ∀ c < 128, (s.m r).getLsbD c =
      if (r / 16 < j ∧ c / 16 < j) ∨ (r / 16 = j ∧ c / 16 = j) then (m0 c).getLsbD r else (m0 r).getLsbD c)
    (n : Nat) (hn : n ≤ j) (hj : j < 8) :
    ∀ r, ∀ c < 128, (((List.range n).foldl (sseInner j) s).m r).getLsbD c =
      if (r / 16 < j ∧ c / 16 < j) ∨ (r / 16 = j ∧ c / 16 = j) ∨ (r / 16 = j ∧ c / 16 < n) ∨ (c / 16 = j ∧ r / 16 < n)
      then (m0 c).getLsbD r else (m0 r).getLsbD c := by
  induction n with
  | zero =>
    intro r c hc
    have := h r c hc
    simp only [List.range_zero, List.foldl_nil]
    rw [this]
    have e : ((r / 16 < j ∧ c / 16 < j) ∨ (r / 16 = j ∧ c / 16 = j) ∨ (r / 16 = j ∧ c / 16 < 0) ∨ (c / 16 = j ∧ r / 16 < 0))
      = ((r / 16 < j ∧ c / 16 < j) ∨ (r / 16 = j ∧ c / 16 = j)) := propext (by omega)
    simp only [e]
  | succ n ih =>
    have ih := ih (by omega)
    rw [List.range_succ, List.foldl_append, List.foldl_cons, List.foldl_nil]
    generalize (List.range n).foldl (sseInner j) s = s' at ih ⊢
    intro r c hc
    unfold sseInner
    simp only
    rw [move_bits _ _ _ _ _ _ _ hc, move_bits _ _ _ _ _ _ _ hc]
    by_cases h1 : r / 16 = n ∧ c / 16 = j
    · rw [if_pos h1, if_pos (by omega), ih c r (by omega), if_neg (by omega)]
    · rw [if_neg h1]
      by_cases h2 : r / 16 = j ∧ c / 16 = n
      · rw [if_pos h2, if_pos (by omega), ih c r (by omega), if_neg (by omega)]
      · rw [if_neg h2, ih r c hc]
        have e : ((r / 16 < j ∧ c / 16 < j) ∨ (r / 16 = j ∧ c / 16 = j) ∨ (r / 16 = j ∧ c / 16 < n + 1) ∨
            (c / 16 = j ∧ r / 16 < n + 1))
          = ((r / 16 < j ∧ c / 16 < j) ∨ (r / 16 = j ∧ c / 16 = j) ∨ (r / 16 = j ∧ c / 16 < n) ∨ (c / 16 = j ∧ r / 16 < n)) :=
          propext (by omega)
        simp only [e]

theorem sse_outer_inv (m0 : Mat) (s : Sse) (h0 : s.m = m0) (n : Nat) (hn : n ≤ 8) :
    ∀ r, ∀ c < 128, (((List.range n).foldl sseOuter s).m r).getLsbD c =
      if r / 16 < n ∧ c / 16 < n then (m0 c).getLsbD r else (m0 r).getLsbD c := by
  induction n with
  | zero => intro r c hc; simp [h0]
  | succ n ih =>
    have ih := ih (by omega)
    rw [List.range_succ, List.foldl_append, List.foldl_cons, List.foldl_nil]
    generalize (List.range n).foldl sseOuter s = s' at ih ⊢
    intro r c hc
    unfold sseOuter
    simp only
    rw [sse_inner_inv m0 n _ ?_ n (Nat.le_refl _) (by omega) r c hc]
    · have e : ((r / 16 < n ∧ c / 16 < n) ∨ (r / 16 = n ∧ c / 16 = n) ∨ (r / 16 = n ∧ c / 16 < n) ∨ (c / 16 = n ∧ r / 16 < n))
        = (r / 16 < n + 1 ∧ c / 16 < n + 1) := propext (by omega)
      simp only [e]
    · intro r c hc
      simp only
      rw [move_bits _ _ _ _ _ _ _ hc]
      by_cases h1 : r / 16 = n ∧ c / 16 = n
      · rw [if_pos h1, if_pos (by omega), ih c r (by omega), if_neg (by omega)]
      · rw [if_neg h1, ih r c hc]
        have e : ((r / 16 < n ∧ c / 16 < n) ∨ (r / 16 = n ∧ c / 16 = n)) = (r / 16 < n ∧ c / 16 < n) := propext (by omega)
        simp only [e]

/-- **C28** `SseTranspose128` transposes, whatever its uninitialised scratch arrays contain. -/
theorem C28_sse_transposes (junk : (BitVec 128 × BitVec 128) × (BitVec 128 × BitVec 128)) (m : Mat) :
    IsTranspose m (sseTranspose junk m) := by
  have h := sse_outer_inv m ⟨m, junk.1, junk.2⟩ rfl 8 (by omega)
  constructor
  · intro r hr c hc
    unfold sseTranspose
    rw [h r c hc, if_pos (by omega)]
  · intro r hr
    apply BitVec.eq_of_getLsbD_eq
    intro c hc
    unfold sseTranspose
    rw [h r c hc, if_neg (by omega)]

/-- **C28** `MatrixTranspose128` transposes, with or without SSE2. -/
theorem C28_dispatch_transposes (sse2 : Bool) (junk : (BitVec 128 × BitVec 128) × (BitVec 128 × BitVec 128)) (m : Mat) :
    IsTranspose m (matrixTranspose128 sse2 junk m) := by
  unfold matrixTranspose128
  split
  · exact C28_sse_transposes junk m
  · exact C28_eklundh_transposes m

/-- **C28** Transposing twice, with any two of the implementations, gives the matrix back. -/
theorem C28_involution (m m1 m2 : Mat) (h1 : IsTranspose m m1) (h2 : IsTranspose m1 m2) : m2 = m := by
  funext r
  by_cases hr : r < 128
  · apply BitVec.eq_of_getLsbD_eq
    intro c hc
    rw [h2.1 r hr c hc, h1.1 c hc r hr]
  · rw [h2.2 r (by omega), h1.2 r (by omega)]

/-! ### 128 x 1024 -/

theorem wide_fold (f : Mat → Mat) (hf : ∀ m, IsTranspose m (f m)) (w : WideMat) (n : Nat) :
    ∀ r i, ((List.range n).foldl (fun (w : WideMat) i =>
      let sub := f (fun j => w j i)
      fun j => if j < 128 then Function.update (w j) i (sub j) else w j) w) r i =
      if r < 128 ∧ i < n then f (fun j => w j i) r else w r i := by
  induction n with
  | zero => intro r i; simp
  | succ n ih =>
    intro r i
    rw [List.range_succ, List.foldl_append, List.foldl_cons, List.foldl_nil]
    generalize (List.range n).foldl _ w = w' at ih ⊢
    have e : (fun j => w' j n) = fun j => w j n := by
      funext j; rw [ih, if_neg (by omega)]
    simp only [e]
    by_cases hr : r < 128
    · by_cases hi : i = n
      · subst hi; simp [hr]
      · have e2 : (i < n + 1) = (i < n) := propext (by omega)
        simp only [hr, if_true, Function.update_of_ne hi, true_and, e2]
        rw [ih]; simp [hr]
    · simp only [hr, if_false, false_and]
      rw [ih, if_neg (by tauto)]

/-- **C28** `EklundhTranspose128x1024` transposes each 128 x 128 block. -/
theorem C28_eklundh1024_transposes (w : WideMat) : IsBlockTranspose w (eklundh1024 w) := by
  have h := wide_fold eklundhTranspose C28_eklundh_transposes w 8
  constructor
  · intro r hr i hi c hc
    unfold eklundh1024
    rw [h r i, if_pos ⟨hr, hi⟩]
    exact (C28_eklundh_transposes (fun j => w j i)).1 r hr c hc
  · intro r i hri
    unfold eklundh1024
    rw [h r i, if_neg (by omega)]

theorem sseX_inner_inv (w0 : WideMat) (i j : Nat) (s : SseX)
    (h : ∀ r i', ∀ c < 128, (s.w r i').getLsbD c =
      if i' = i ∧ ((r / 16 < j ∧ c / 16 < j) ∨ (r / 16 = j ∧ c / 16 = j)) then (w0 c i).getLsbD r
      else (w0 r i').getLsbD c)
    (n : Nat) (hn : n ≤ j) (hj : j < 8) :
    ∀ r i', ∀ c < 128, (((List.range n).foldl (sseInnerX i j) s).w r i').getLsbD c =
      if i' = i ∧ ((r / 16 < j ∧ c / 16 < j) ∨ (r / 16 = j ∧ c / 16 = j) ∨ (r / 16 = j ∧ c / 16 < n) ∨
        (c / 16 = j ∧ r / 16 < n))
      then (w0 c i).getLsbD r else (w0 r i').getLsbD c := by
  induction n with
  | zero =>
    intro r i' c hc
    have := h r i' c hc
    simp only [List.range_zero, List.foldl_nil]
    rw [this]
    have e : ((r / 16 < j ∧ c / 16 < j) ∨ (r / 16 = j ∧ c / 16 = j) ∨ (r / 16 = j ∧ c / 16 < 0) ∨ (c / 16 = j ∧ r / 16 < 0))
      = ((r / 16 < j ∧ c / 16 < j) ∨ (r / 16 = j ∧ c / 16 = j)) := propext (by omega)
    simp only [e]
  | succ n ih =>
    have ih := ih (by omega)
    rw [List.range_succ, List.foldl_append, List.foldl_cons, List.foldl_nil]
    generalize (List.range n).foldl (sseInnerX i j) s = s' at ih ⊢
    intro r i' c hc
    unfold sseInnerX
    simp only
    rw [moveX_bits _ _ _ _ _ _ _ _ _ hc (by omega) (by omega), moveX_bits _ _ _ _ _ _ _ _ _ hc (by omega) (by omega)]
    by_cases h1 : i' = i ∧ r / 16 = n ∧ c / 16 = j
    · rw [if_pos h1, if_pos (by omega), ih c i r (by omega), if_neg (by omega)]
    · rw [if_neg h1]
      by_cases h2 : i' = i ∧ r / 16 = j ∧ c / 16 = n
      · rw [if_pos h2, if_pos (by omega), ih c i r (by omega), if_neg (by omega)]
      · rw [if_neg h2, ih r i' c hc]
        have e : (i' = i ∧ ((r / 16 < j ∧ c / 16 < j) ∨ (r / 16 = j ∧ c / 16 = j) ∨ (r / 16 = j ∧ c / 16 < n + 1) ∨
            (c / 16 = j ∧ r / 16 < n + 1)))
          = (i' = i ∧ ((r / 16 < j ∧ c / 16 < j) ∨ (r / 16 = j ∧ c / 16 = j) ∨ (r / 16 = j ∧ c / 16 < n) ∨
            (c / 16 = j ∧ r / 16 < n))) := propext (by omega)
        simp only [e]

theorem sseX_outer_inv (w0 : WideMat) (i : Nat) (s : SseX) (h0 : s.w = w0) (n : Nat) (hn : n ≤ 8) :
    ∀ r i', ∀ c < 128, (((List.range n).foldl (sseOuterX i) s).w r i').getLsbD c =
      if i' = i ∧ (r / 16 < n ∧ c / 16 < n) then (w0 c i).getLsbD r else (w0 r i').getLsbD c := by
  induction n with
  | zero => intro r i' c hc; simp [h0]
  | succ n ih =>
    have ih := ih (by omega)
    rw [List.range_succ, List.foldl_append, List.foldl_cons, List.foldl_nil]
    generalize (List.range n).foldl (sseOuterX i) s = s' at ih ⊢
    intro r i' c hc
    unfold sseOuterX
    simp only
    rw [sseX_inner_inv w0 i n _ ?_ n (Nat.le_refl _) (by omega) r i' c hc]
    · have e : ((r / 16 < n ∧ c / 16 < n) ∨ (r / 16 = n ∧ c / 16 = n) ∨ (r / 16 = n ∧ c / 16 < n) ∨ (c / 16 = n ∧ r / 16 < n))
        = (r / 16 < n + 1 ∧ c / 16 < n + 1) := propext (by omega)
      simp only [e]
    · intro r i' c hc
      simp only
      rw [moveX_bits _ _ _ _ _ _ _ _ _ hc (by omega) (by omega)]
      by_cases h1 : i' = i ∧ r / 16 = n ∧ c / 16 = n
      · rw [if_pos h1, if_pos (by omega), ih c i r (by omega), if_neg (by omega)]
      · rw [if_neg h1, ih r i' c hc]
        have e : (i' = i ∧ ((r / 16 < n ∧ c / 16 < n) ∨ (r / 16 = n ∧ c / 16 = n))) = (i' = i ∧ (r / 16 < n ∧ c / 16 < n)) :=
          propext (by omega)
        simp only [e]

/-- **C28** `SseTranspose128x1024` transposes each 128 x 128 block. -/
theorem C28_sse1024_transposes (junk : (BitVec 128 × BitVec 128) × (BitVec 128 × BitVec 128)) (w : WideMat) :
    IsBlockTranspose w (sse1024 junk w) := by
  have key : ∀ n, ∀ r i, ∀ c < 128,
      ((((List.range n).foldl (fun s i => (List.range 8).foldl (sseOuterX i) s) (⟨w, junk.1, junk.2⟩ : SseX)).w) r i).getLsbD c
        = if i < n ∧ r < 128 then (w c i).getLsbD r else (w r i).getLsbD c := by
    intro n
    induction n with
    | zero => intro r i c _; simp
    | succ n ih =>
      rw [List.range_succ (n := n), List.foldl_append, List.foldl_cons, List.foldl_nil]
      generalize (List.range n).foldl _ _ = s' at ih ⊢
      intro r i c hc
      rw [sseX_outer_inv s'.w n s' rfl 8 (Nat.le_refl _) r i c hc]
      by_cases h : i = n ∧ r / 16 < 8 ∧ c / 16 < 8
      · rw [if_pos h, if_pos (by omega), ih c n r (by omega), if_neg (by omega), h.1]
      · rw [if_neg h, ih r i c hc]
        have e : (i < n + 1 ∧ r < 128) = (i < n ∧ r < 128) := propext (by omega)
        simp only [e]
  constructor
  · intro r hr i hi c hc
    unfold sse1024
    rw [key 8 r i c hc, if_pos ⟨hi, hr⟩]
  · intro r i hri
    apply BitVec.eq_of_getLsbD_eq
    intro c hc
    unfold sse1024
    rw [key 8 r i c hc, if_neg (by omega)]

/-- **C28** `MatrixTranspose128x1024` transposes each 128 x 128 block. -/
theorem C28_dispatch1024_transposes (sse2 : Bool) (junk : (BitVec 128 × BitVec 128) × (BitVec 128 × BitVec 128))
    (w : WideMat) : IsBlockTranspose w (matrixTranspose1024 sse2 junk w) := by
  unfold matrixTranspose1024
  split
  · exact C28_sse1024_transposes junk w
  · exact C28_eklundh1024_transposes w

/-- A matrix with a single set bit at row 3, column 100 gives one with a single set bit at row 100, column 3. -/
example : (eklundhTranspose (fun r => if r = 3 then (1 : BitVec 128) <<< 100 else 0) 100).getLsbD 3 = true :=
  by rw [(C28_eklundh_transposes _).1 100 (by omega) 3 (by omega)]; decide

end Yacl.Matrix
