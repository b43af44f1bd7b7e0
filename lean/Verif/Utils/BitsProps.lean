import Verif.Utils.BitsModel
import Mathlib.Tactic.Common
import Mathlib.Data.List.Basic
import Mathlib.Data.Finset.Card
import Mathlib.Data.Finset.SymmDiff
import Mathlib.Order.Interval.Finset.Nat

/-! C140: bit deposit, bit extract and Hamming weight. -/

namespace Yacl.Bits

/-! ### Specification -/

/-- How many one bits `m` has below position `i`. -/
def rank (m : BitVec 64) (i : ℕ) : ℕ := (List.range i).countP fun j => m.getLsbD j

/-- Bit deposit, as the processor manual has it: the one bits of `m`, from the lowest, receive the bits of `x` from
the lowest; all other bits are 0. -/
def IsDeposit (x m r : BitVec 64) : Prop := ∀ i < 64, r.getLsbD i = (m.getLsbD i && x.getLsbD (rank m i))

/-- Bit extract: the bits of `x` at the one bits of `m`, packed from the lowest; all other bits are 0. -/
def IsExtract (x m r : BitVec 64) : Prop :=
  (∀ i < 64, m.getLsbD i = true → r.getLsbD (rank m i) = x.getLsbD i) ∧ ∀ k, rank m 64 ≤ k → r.getLsbD k = false

/-- The positions of the one bits. -/
def ones {w : ℕ} (x : BitVec w) : Finset ℕ := (Finset.range w).filter fun i => x.getLsbD i

/-! ### Proofs -/

theorem popcount_rank (m : BitVec 64) : popcount m = rank m 64 := by
  simp [popcount, rank, List.countP_eq_length_filter]

theorem rank_succ (m : BitVec 64) (i : ℕ) : rank m (i + 1) = rank m i + (m.getLsbD i).toNat := by
  unfold rank
  rw [List.range_succ, List.countP_append, List.countP_singleton]
  cases m.getLsbD i <;> simp

theorem rank_le (m : BitVec 64) (i : ℕ) : rank m i ≤ i := by
  have := List.countP_le_length (p := fun j => m.getLsbD j) (l := List.range i)
  simpa [rank] using this

theorem rank_mono (m : BitVec 64) {i j : ℕ} (h : i ≤ j) : rank m i ≤ rank m j := by
  induction h with
  | refl => exact le_refl _
  | step h ih => rw [rank_succ]; omega

theorem rank_lt (m : BitVec 64) {i j : ℕ} (h : i < j) (hi : m.getLsbD i = true) : rank m i < rank m j := by
  have h1 := rank_succ m i
  have h2 := rank_mono m h
  rw [hi] at h1
  simp at h1
  simp only [Nat.succ_eq_add_one] at h2
  omega

theorem rank_const (m : BitVec 64) {i j : ℕ} (h : i ≤ j) (h0 : ∀ k, i ≤ k → m.getLsbD k = false) :
    rank m j = rank m i := by
  induction h with
  | refl => rfl
  | @step k hk ih => rw [rank_succ, h0 k hk, ih]; rfl

theorem rank_congr {m m' : BitVec 64} {i : ℕ} (h : ∀ k < i, m.getLsbD k = m'.getLsbD k) : rank m i = rank m' i := by
  induction i with
  | zero => rfl
  | succ i ih =>
    rw [rank_succ, rank_succ, ih (fun k hk => h k (by omega)), h i (by omega)]

/-- The highest one bit. -/
theorem top_spec (m : BitVec 64) (hm : m ≠ 0) :
    m.getLsbD (Nat.log2 m.toNat) = true ∧ (∀ j, Nat.log2 m.toNat < j → m.getLsbD j = false) ∧
      Nat.log2 m.toNat < 64 := by
  have h0 : m.toNat ≠ 0 := fun h => hm (BitVec.eq_of_toNat_eq (by simpa using h))
  refine ⟨?_, ?_, ?_⟩
  · rw [BitVec.getLsbD]
    exact Nat.testBit_log2 h0
  · intro j hj
    rw [BitVec.getLsbD]
    refine Nat.testBit_lt_two_pow (lt_of_lt_of_le Nat.lt_log2_self (Nat.pow_le_pow_right (by decide) hj))
  · exact (Nat.log2_lt h0).2 m.isLt

theorem topBit_shift (h i : ℕ) (hh : h < 64) : (topBit >>> (63 - h)).getLsbD i = decide (i = h) := by
  have : topBit = BitVec.twoPow 64 63 := by decide
  rw [BitVec.getLsbD_ushiftRight, this, BitVec.getLsbD_twoPow]
  by_cases e : i = h
  · subst e; simp; omega
  · simp [e]; omega

section
variable (m : BitVec 64)

/-- `m` without its highest one bit. -/
theorem rest_spec (hm : m ≠ 0) (i : ℕ) :
    (m ^^^ (topBit >>> clz m)).getLsbD i = (m.getLsbD i && decide (i ≠ Nat.log2 m.toNat)) := by
  obtain ⟨h1, h2, h3⟩ := top_spec m hm
  rw [clz, BitVec.getLsbD_xor, topBit_shift _ _ h3]
  by_cases e : i = Nat.log2 m.toNat
  · subst e; simp [h1]
  · simp [e]

theorem rest_rank (hm : m ≠ 0) {i : ℕ} (hi : i ≤ Nat.log2 m.toNat) :
    rank (m ^^^ (topBit >>> clz m)) i = rank m i := by
  apply rank_congr
  intro k hk
  rw [rest_spec m hm]
  have : k ≠ Nat.log2 m.toNat := by omega
  simp [this]

theorem rank_top (hm : m ≠ 0) : rank m 64 = rank m (Nat.log2 m.toNat) + 1 := by
  obtain ⟨h1, h2, h3⟩ := top_spec m hm
  rw [rank_const m (i := Nat.log2 m.toNat + 1) (by omega) (fun k hk => h2 k (by omega)), rank_succ, h1]
  rfl

theorem rest_pop (hm : m ≠ 0) : rank m 64 = rank (m ^^^ (topBit >>> clz m)) 64 + 1 := by
  obtain ⟨h1, h2, h3⟩ := top_spec m hm
  rw [rank_top m hm, rank_const (m ^^^ (topBit >>> clz m)) (i := Nat.log2 m.toNat) (by omega), rest_rank m hm le_rfl]
  intro k hk
  rw [rest_spec m hm]
  by_cases e : k = Nat.log2 m.toNat
  · simp [e]
  · rw [h2 k (by omega)]; rfl

theorem shift_amount (hm : m ≠ 0) :
    (64 - rank m 64 + 2 ^ 64 - clz m) % 2 ^ 64 = Nat.log2 m.toNat - rank m (Nat.log2 m.toNat) := by
  obtain ⟨h1, h2, h3⟩ := top_spec m hm
  have h4 := rank_top m hm
  have h5 := rank_le m (Nat.log2 m.toNat)
  have h6 := rank_le m 64
  unfold clz
  omega
end

theorem pdepLoop_spec : ∀ (n : ℕ) (x m : BitVec 64) (p : ℕ) (r : BitVec 64), rank m 64 < n → p = 64 - rank m 64 →
    ∃ r', pdepLoop n x m p r = some r' ∧
      ∀ i < 64, r'.getLsbD i = (r.getLsbD i || (m.getLsbD i && x.getLsbD (rank m i))) := by
  intro n
  induction n with
  | zero => intro x m p r h; omega
  | succ n ih =>
    intro x m p r hn hp
    unfold pdepLoop
    by_cases hm : m = 0
    · subst hm
      exact ⟨r, by simp, by simp⟩
    · obtain ⟨h1, h2, h3⟩ := top_spec m hm
      have hs := shift_amount m hm
      have hpop := rest_pop m hm
      have hr64 := rank_le m 64
      rw [if_pos hm]
      simp only [hp, hs]
      rw [if_neg (by omega)]
      obtain ⟨r', hr', hb⟩ := ih x (m ^^^ (topBit >>> clz m)) (64 - rank m 64 + 1)
        (r ||| (x <<< (Nat.log2 m.toNat - rank m (Nat.log2 m.toNat)) &&& (topBit >>> clz m))) (by omega) (by omega)
      refine ⟨r', hr', ?_⟩
      intro i hi
      rw [hb i hi, rest_spec m hm, BitVec.getLsbD_or, BitVec.getLsbD_and, BitVec.getLsbD_shiftLeft, clz,
        topBit_shift _ _ h3]
      have hle := rank_le m (Nat.log2 m.toNat)
      rcases Nat.lt_trichotomy i (Nat.log2 m.toNat) with hlt | heq | hgt
      · have hne : i ≠ Nat.log2 m.toNat := by omega
        have hrk := rest_rank m hm (le_of_lt hlt)
        rw [clz] at hrk
        rw [hrk]
        simp [hne]
      · have e1 : i - (i - rank m i) = rank m i := by rw [heq]; omega
        have e2 : ¬ i < i - rank m i := by omega
        rw [← heq] at h1 ⊢
        simp only [hi, h1, e1, e2]
        simp
      · have hne : i ≠ Nat.log2 m.toNat := by omega
        simp [hne, h2 i hgt]

theorem pextLoop_spec : ∀ (n : ℕ) (x m : BitVec 64) (p : ℕ) (r : BitVec 64), rank m 64 < n → p = 64 - rank m 64 →
    ∃ r', pextLoop n x m p r = some r' ∧
      ∀ k, r'.getLsbD k = true ↔ r.getLsbD k = true ∨ ∃ i < 64, m.getLsbD i = true ∧ rank m i = k ∧ x.getLsbD i = true := by
  intro n
  induction n with
  | zero => intro x m p r h; omega
  | succ n ih =>
    intro x m p r hn hp
    unfold pextLoop
    by_cases hm : m = 0
    · subst hm
      exact ⟨r, by simp, by simp⟩
    · obtain ⟨h1, h2, h3⟩ := top_spec m hm
      have hs := shift_amount m hm
      have hpop := rest_pop m hm
      have hr64 := rank_le m 64
      have hle := rank_le m (Nat.log2 m.toNat)
      rw [if_pos hm]
      simp only [hp, hs]
      rw [if_neg (by omega)]
      obtain ⟨r', hr', hb⟩ := ih x (m ^^^ (topBit >>> clz m)) (64 - rank m 64 + 1)
        (r ||| ((x &&& (topBit >>> clz m)) >>> (Nat.log2 m.toNat - rank m (Nat.log2 m.toNat)))) (by omega) (by omega)
      refine ⟨r', hr', ?_⟩
      intro k
      rw [hb k]
      have ht : (((x &&& (topBit >>> clz m)) >>> (Nat.log2 m.toNat - rank m (Nat.log2 m.toNat))).getLsbD k = true) ↔
          (k = rank m (Nat.log2 m.toNat) ∧ x.getLsbD (Nat.log2 m.toNat) = true) := by
        rw [BitVec.getLsbD_ushiftRight, BitVec.getLsbD_and, clz, topBit_shift _ _ h3]
        by_cases e : Nat.log2 m.toNat - rank m (Nat.log2 m.toNat) + k = Nat.log2 m.toNat
        · have : k = rank m (Nat.log2 m.toNat) := by omega
          rw [e]
          simp [this]
        · have : k ≠ rank m (Nat.log2 m.toNat) := by omega
          simp [e, this]
      rw [BitVec.getLsbD_or, Bool.or_eq_true, ht]
      constructor
      · rintro ((h | ⟨rfl, hx⟩) | ⟨i, hi, hmi, hrk, hx⟩)
        · exact .inl h
        · exact .inr ⟨_, h3, h1, rfl, hx⟩
        · right
          rw [rest_spec m hm] at hmi
          simp only [Bool.and_eq_true, decide_eq_true_eq] at hmi
          have hlt : i < Nat.log2 m.toNat := by
            rcases Nat.lt_trichotomy i (Nat.log2 m.toNat) with h | h | h
            · exact h
            · exact absurd h hmi.2
            · rw [h2 i h] at hmi; simp at hmi
          rw [rest_rank m hm (le_of_lt hlt)] at hrk
          exact ⟨i, hi, hmi.1, hrk, hx⟩
      · rintro (h | ⟨i, hi, hmi, hrk, hx⟩)
        · exact .inl (.inl h)
        · rcases Nat.lt_trichotomy i (Nat.log2 m.toNat) with h | h | h
          · right
            refine ⟨i, hi, ?_, ?_, hx⟩
            · rw [rest_spec m hm, hmi]; simp; omega
            · rw [rest_rank m hm (le_of_lt h)]; exact hrk
          · subst h
            exact .inl (.inr ⟨hrk.symm, hx⟩)
          · rw [h2 i h] at hmi; simp at hmi

/-! ### Properties -/

/-- C140 (a): the portable bit deposit never shifts out of range, ends, and computes the bit deposit. -/
theorem C140_deposit (x m : BitVec 64) : ∃ r, pdepImpl x m = some r ∧ IsDeposit x m r := by
  obtain ⟨r, h, hb⟩ := pdepLoop_spec 65 x m (64 - popcount m) 0 (by have := rank_le m 64; omega)
    (by rw [popcount_rank])
  exact ⟨r, h, fun i hi => by simpa using hb i hi⟩

/-- C140 (b): the portable bit extract never shifts out of range, ends, and computes the bit extract. -/
theorem C140_extract (x m : BitVec 64) : ∃ r, pextImpl x m = some r ∧ IsExtract x m r := by
  obtain ⟨r, h, hb⟩ := pextLoop_spec 65 x m (64 - popcount m) 0 (by have := rank_le m 64; omega)
    (by rw [popcount_rank])
  have inj : ∀ i j, m.getLsbD i = true → m.getLsbD j = true → rank m i = rank m j → i = j := by
    intro i j hi hj he
    rcases Nat.lt_trichotomy i j with h | h | h
    · have := rank_lt m h hi; omega
    · exact h
    · have := rank_lt m h hj; omega
  refine ⟨r, h, fun i hi hmi => ?_, fun k hk => ?_⟩
  · rw [Bool.eq_iff_iff, hb]
    constructor
    · rintro (h | ⟨j, -, hj, hrk, hx⟩)
      · simp at h
      · rw [← inj j i hj hmi hrk]; exact hx
    · intro hx
      exact .inr ⟨i, hi, hmi, rfl, hx⟩
  · rw [Bool.eq_false_iff]
    intro hk'
    rcases (hb k).1 hk' with h | ⟨j, hj, hmj, hrk, -⟩
    · simp at h
    · have := rank_lt m hj hmj; omega

theorem deposit_unique {x m r r' : BitVec 64} (h : IsDeposit x m r) (h' : IsDeposit x m r') : r = r' := by
  apply BitVec.eq_of_getLsbD_eq
  intro i hi
  rw [h i hi, h' i hi]

theorem rank_surj (m : BitVec 64) (k n : ℕ) (hk : k < rank m n) : ∃ i < n, m.getLsbD i = true ∧ rank m i = k := by
  induction n with
  | zero => simp [rank] at hk
  | succ n ih =>
    rw [rank_succ] at hk
    by_cases h : k < rank m n
    · obtain ⟨i, hi, h1, h2⟩ := ih h
      exact ⟨i, by omega, h1, h2⟩
    · cases hb : m.getLsbD n with
      | false => rw [hb] at hk; simp at hk; omega
      | true => rw [hb] at hk; simp at hk; exact ⟨n, by omega, hb, by omega⟩

theorem extract_unique {x m r r' : BitVec 64} (h : IsExtract x m r) (h' : IsExtract x m r') : r = r' := by
  apply BitVec.eq_of_getLsbD_eq
  intro k hk
  by_cases hlt : k < rank m 64
  · obtain ⟨i, hi, h1, h2⟩ := rank_surj m k 64 hlt
    rw [← h2, h.1 i hi h1, h'.1 i hi h1]
  · rw [h.2 k (by omega), h'.2 k (by omega)]

/-- C140 (c): on processors with and without the instructions the results are the same, for all arguments. -/
theorem C140_portable (hwDep hwExt : BitVec 64 → BitVec 64 → BitVec 64) (hd : ∀ x m, IsDeposit x m (hwDep x m))
    (he : ∀ x m, IsExtract x m (hwExt x m)) (b : Bool) (x m : BitVec 64) :
    pdep hwDep b x m = some (hwDep x m) ∧ pext hwExt b x m = some (hwExt x m) := by
  cases b with
  | true => exact ⟨rfl, rfl⟩
  | false =>
    obtain ⟨r, h1, h2⟩ := C140_deposit x m
    obtain ⟨r', h1', h2'⟩ := C140_extract x m
    refine ⟨?_, ?_⟩
    · simp only [pdep, Bool.false_eq_true, if_false, h1, deposit_unique h2 (hd x m)]
    · simp only [pext, Bool.false_eq_true, if_false, h1', extract_unique h2' (he x m)]

/-- C140 (d): extracting what was deposited gives back the low bits, one for each one bit of the mask. -/
theorem C140_extract_deposit (x m r s : BitVec 64) (h : pdepImpl x m = some r) (h' : pextImpl r m = some s) (k : ℕ) :
    s.getLsbD k = (decide (k < popcount m) && x.getLsbD k) := by
  obtain ⟨r0, e0, hr⟩ := C140_deposit x m
  obtain ⟨s0, e1, hs⟩ := C140_extract r m
  rw [h] at e0; rw [h'] at e1
  obtain rfl := Option.some.inj e0
  obtain rfl := Option.some.inj e1
  rw [popcount_rank]
  by_cases hlt : k < rank m 64
  · obtain ⟨i, hi, h1, h2⟩ := rank_surj m k 64 hlt
    rw [← h2, hs.1 i hi h1, hr i hi, h1]
    simp [h2, hlt]
  · rw [hs.2 k (by omega)]; simp [hlt]

/-- C140 (e): depositing what was extracted gives back the bits under the mask. -/
theorem C140_deposit_extract (x m r s : BitVec 64) (h : pextImpl x m = some r) (h' : pdepImpl r m = some s) :
    s = x &&& m := by
  obtain ⟨r0, e0, hr⟩ := C140_extract x m
  obtain ⟨s0, e1, hs⟩ := C140_deposit r m
  rw [h] at e0; rw [h'] at e1
  obtain rfl := Option.some.inj e0
  obtain rfl := Option.some.inj e1
  apply BitVec.eq_of_getLsbD_eq
  intro i hi
  rw [hs i hi, BitVec.getLsbD_and]
  cases hm : m.getLsbD i with
  | false => simp
  | true => rw [hr.1 i hi hm]; simp

theorem popcount_ones (m : BitVec 64) : popcount m = (ones m).card := by
  unfold popcount ones
  rw [Finset.card_def, Finset.filter_val, Finset.range_val, Multiset.range, Multiset.filter_coe, Multiset.coe_card]
  simp

/-- C140 (f): the Hamming weight of a 128 bit number is the number of its one bits. -/
theorem C140_weight (x : BitVec 128) : weight128 x = (ones x).card := by
  unfold weight128
  simp only [popcount_ones]
  have e : ones x = ones ((x &&& 0xFFFFFFFFFFFFFFFF#128).setWidth 64) ∪
      (ones ((x >>> 64).setWidth 64 : BitVec 64)).map (addLeftEmbedding 64) := by
    ext i
    simp only [ones, Finset.mem_filter, Finset.mem_range, Finset.mem_union, Finset.mem_map, addLeftEmbedding_apply,
      BitVec.getLsbD_setWidth, BitVec.getLsbD_and, BitVec.getLsbD_ushiftRight]
    have hc : (0xFFFFFFFFFFFFFFFF#128) = (BitVec.allOnes 64).setWidth 128 := by decide
    rw [hc, BitVec.getLsbD_setWidth, BitVec.getLsbD_allOnes]
    constructor
    · rintro ⟨hi, hx⟩
      by_cases h : i < 64
      · left; simp [h, hx]; omega
      · right
        refine ⟨i - 64, ⟨by omega, ?_⟩, by omega⟩
        have : 64 + (i - 64) = i := by omega
        rw [this, hx]; simp; omega
    · rintro (⟨hi, hx⟩ | ⟨j, ⟨hj, hx⟩, rfl⟩)
      · simp at hx; exact ⟨by omega, hx.2.1⟩
      · simp at hx; exact ⟨by omega, hx.2⟩
  rw [e, Finset.card_union_of_disjoint, Finset.card_map]
  rw [Finset.disjoint_left]
  intro i hi hi'
  simp only [ones, Finset.mem_filter, Finset.mem_range, Finset.mem_map, addLeftEmbedding_apply] at hi hi'
  obtain ⟨j, -, rfl⟩ := hi'
  omega

theorem ones_xor {w : ℕ} (x y : BitVec w) : ones (x ^^^ y) = symmDiff (ones x) (ones y) := by
  ext i
  simp only [ones, Finset.mem_filter, Finset.mem_range, Finset.mem_symmDiff, BitVec.getLsbD_xor]
  cases x.getLsbD i <;> cases y.getLsbD i <;> simp

/-- C140 (g): the Hamming distance is a distance. -/
theorem C140_distance (x y z : BitVec 128) :
    (distance128 x y = 0 ↔ x = y) ∧ distance128 x y = distance128 y x ∧
    distance128 x z ≤ distance128 x y + distance128 y z := by
  unfold distance128
  simp only [C140_weight]
  refine ⟨?_, by rw [BitVec.xor_comm], ?_⟩
  · rw [Finset.card_eq_zero]
    constructor
    · intro h
      apply BitVec.eq_of_getLsbD_eq
      intro i hi
      have : i ∉ ones (x ^^^ y) := by rw [h]; simp
      simp only [ones, Finset.mem_filter, Finset.mem_range, not_and, Bool.not_eq_true, BitVec.getLsbD_xor] at this
      have := this hi
      revert this
      cases x.getLsbD i <;> cases y.getLsbD i <;> simp
    · rintro rfl; simp [ones]
  · rw [ones_xor, ones_xor, ones_xor]
    exact (Finset.card_le_card (symmDiff_triangle _ _ _)).trans (Finset.card_union_le _ _)

/-- Concrete values. -/
example : pdepImpl 0b1011#64 0b11010100#64 = some 0b10010100#64 ∧ pextImpl 0b10010100#64 0b11010100#64 = some 0b1011#64 ∧
    pdepImpl (-1) (-1) = some (-1) ∧ pextImpl 5 0 = some 0 := by decide +kernel

end Yacl.Bits
