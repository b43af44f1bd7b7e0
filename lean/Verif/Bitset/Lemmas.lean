import Verif.Bitset.Model
import Mathlib.Data.List.GetD
import Mathlib.Tactic.SplitIfs
import Mathlib.Data.List.Basic
import Mathlib.Data.Nat.Basic

/-! Bit-level lemmas about the blocks of a bitset. -/
namespace Yacl.Bitset
variable {w : Nat}

/-- Bit `i` of a vector of blocks. -/
def bitAt (l : List (BitVec w)) (i : Nat) : Bool := (l.getD (i / w) 0).getLsbD (i % w)

/-- The bits of a bitset, in order. -/
def bits (b : BS w) : List Bool := (List.range b.n).map (bitAt b.blocks)

/-- dynamic_bitset.h L3483-3502 `check_consistency`: as many blocks as needed, and the unused bits are zero. -/
structure WF (b : BS w) : Prop where
  len : b.blocks.length = blocksRequired w b.n
  zero : ∀ i, b.n ≤ i → bitAt b.blocks i = false

theorem bits_length (b : BS w) : (bits b).length = b.n := by simp [bits]

theorem bits_get (b : BS w) (i : Nat) (h : i < (bits b).length) : (bits b)[i] = bitAt b.blocks i := by simp [bits]

theorem bits_getD (b : BS w) (i : Nat) (h : i < b.n) : (bits b).getD i false = bitAt b.blocks i := by
  rw [List.getD_eq_getElem _ _ (by rw [bits_length]; exact h), bits_get]

theorem bitAt_getD (b : BS w) (hb : WF b) (i : Nat) : (bits b).getD i false = bitAt b.blocks i := by
  by_cases h : i < b.n
  · exact bits_getD b i h
  · rw [hb.zero i (by omega), List.getD_eq_default _ _ (by rw [bits_length]; omega)]

theorem bits_eq (b : BS w) (l : List Bool) (hl : l.length = b.n) (h : ∀ i, i < b.n → bitAt b.blocks i = l.getD i false) :
    bits b = l := by
  apply List.ext_getElem
  · rw [bits_length, hl]
  · intro i h1 h2
    rw [bits_get, h i (by rwa [bits_length] at h1), List.getD_eq_getElem _ _ h2]

theorem req_le (hw : 0 < w) (n : Nat) : n ≤ blocksRequired w n * w := by
  unfold blocksRequired
  have := Nat.div_add_mod n w
  have := Nat.mod_lt n hw
  split_ifs with h
  · rw [Nat.add_mul, Nat.mul_comm]; omega
  · rw [Nat.add_zero, Nat.mul_comm]; omega

theorem req_lt (hw : 0 < w) (n : Nat) : blocksRequired w n * w < n + w := by
  unfold blocksRequired
  have := Nat.div_add_mod n w
  split_ifs with h
  · rw [Nat.add_mul, Nat.mul_comm]; omega
  · rw [Nat.add_zero, Nat.mul_comm]; omega

theorem req_unique (hw : 0 < w) (n k : Nat) (h1 : n ≤ k * w) (h2 : k * w < n + w) : k = blocksRequired w n := by
  have a := req_le hw n
  have b := req_lt hw n
  rcases Nat.lt_trichotomy k (blocksRequired w n) with h | h | h
  · have : (k + 1) * w ≤ blocksRequired w n * w := Nat.mul_le_mul_right w h
    rw [Nat.add_mul] at this
    omega
  · exact h
  · have : (blocksRequired w n + 1) * w ≤ k * w := Nat.mul_le_mul_right w h
    rw [Nat.add_mul] at this
    omega

theorem div_lt_req (hw : 0 < w) (n i : Nat) : i / w < blocksRequired w n ↔ i < blocksRequired w n * w := Nat.div_lt_iff_lt_mul hw

theorem idx_lt (hw : 0 < w) {b : BS w} (hb : WF b) {i : Nat} (h : i < b.n) : i / w < b.blocks.length := by
  rw [hb.len, div_lt_req hw]
  exact Nat.lt_of_lt_of_le h (req_le hw _)

theorem getD_set (l : List (BitVec w)) (k j : Nat) (x : BitVec w) :
    (l.set k x).getD j 0 = if j = k ∧ k < l.length then x else l.getD j 0 := by
  by_cases h : j = k ∧ k < l.length
  · rw [if_pos h]
    obtain ⟨rfl, h⟩ := h
    rw [List.getD_eq_getElem _ _ (by simpa using h)]
    simp
  · rw [if_neg h]
    by_cases hj : j < l.length
    · rw [List.getD_eq_getElem _ _ (by simpa using hj), List.getD_eq_getElem _ _ hj, List.getElem_set]
      rw [if_neg (by intro he; exact h ⟨he.symm, he ▸ hj⟩)]
    · rw [List.getD_eq_default _ _ (by simpa using hj), List.getD_eq_default _ _ (by omega)]

theorem bitAt_set (l : List (BitVec w)) (k i : Nat) (x : BitVec w) (hk : k < l.length) :
    bitAt (l.set k x) i = if i / w = k then x.getLsbD (i % w) else bitAt l i := by
  unfold bitAt
  rw [getD_set]
  by_cases h : i / w = k
  · rw [if_pos ⟨h, hk⟩, if_pos h]
  · rw [if_neg (fun a => h a.1), if_neg h]

theorem bitAt_mod (l : List (BitVec w)) (k i : Nat) (f : BitVec w → BitVec w) (hk : k < l.length) :
    bitAt (modBlock l k f) i = if i / w = k then (f (l.getD k 0)).getLsbD (i % w) else bitAt l i :=
  bitAt_set l k i _ hk

theorem modBlock_length (l : List (BitVec w)) (k : Nat) (f : BitVec w → BitVec w) : (modBlock l k f).length = l.length := by
  simp [modBlock]

theorem bitAt_map (l : List (BitVec w)) (f : BitVec w → BitVec w) (i : Nat) (h : i / w < l.length) :
    bitAt (l.map f) i = (f (l.getD (i / w) 0)).getLsbD (i % w) := by
  unfold bitAt
  rw [List.getD_eq_getElem _ _ (by simpa using h), List.getD_eq_getElem _ _ h, List.getElem_map]

theorem bitAt_out (l : List (BitVec w)) (i : Nat) (h : l.length ≤ i / w) : bitAt l i = false := by
  unfold bitAt
  rw [List.getD_eq_default _ _ h]
  exact BitVec.getLsbD_zero

theorem bitAt_mk (hw : 0 < w) (l : List (BitVec w)) (k r : Nat) (hr : r < w) : bitAt l (k * w + r) = (l.getD k 0).getLsbD r := by
  unfold bitAt
  have e1 : (k * w + r) / w = k := by
    rw [Nat.mul_comm, Nat.mul_add_div hw, Nat.div_eq_of_lt hr, Nat.add_zero]
  have e2 : (k * w + r) % w = r := by
    rw [Nat.mul_comm, Nat.mul_add_mod, Nat.mod_eq_of_lt hr]
  rw [e1, e2]

/-- Blocks with the same bits are equal. -/
theorem blocks_ext (hw : 0 < w) (l m : List (BitVec w)) (hl : l.length = m.length) (h : ∀ i, bitAt l i = bitAt m i) : l = m := by
  apply List.ext_getElem hl
  intro k h1 h2
  apply BitVec.eq_of_getLsbD_eq
  intro r hr
  have := h (k * w + r)
  rw [bitAt_mk hw l k r hr, bitAt_mk hw m k r hr, List.getD_eq_getElem _ _ h1, List.getD_eq_getElem _ _ h2] at this
  exact this

theorem wf_ext (hw : 0 < w) (b c : BS w) (hb : WF b) (hc : WF c) (h : bits b = bits c) : b = c := by
  have hn : b.n = c.n := by rw [← bits_length b, ← bits_length c, h]
  have hbl : b.blocks = c.blocks := by
    apply blocks_ext hw
    · rw [hb.len, hc.len, hn]
    · intro i
      rw [← bitAt_getD b hb, ← bitAt_getD c hc, h]
  cases b; cases c
  cases hn; cases hbl; rfl

/-- Two positions in the same block. -/
theorem pos_eq (i j : Nat) : (i / w = j / w ∧ i % w = j % w) ↔ i = j := by
  constructor
  · intro h
    rw [← Nat.div_add_mod i w, ← Nat.div_add_mod j w, h.1, h.2]
  · rintro rfl; exact ⟨rfl, rfl⟩

theorem oneBlock_bit (r : Nat) (h : r < w) : (oneBlock : BitVec w).getLsbD r = true := by simp [oneBlock, h]

theorem bitMask_bit (hw : 0 < w) (pos r : Nat) (hr : r < w) : (bitMask w pos).getLsbD r = decide (r = pos % w) := by
  unfold bitMask
  have := Nat.mod_lt pos hw
  rw [BitVec.getLsbD_shiftLeft, BitVec.getLsbD_one]
  by_cases h : r = pos % w
  · subst h
    simp [hr, hw]
  · by_cases h2 : r < pos % w
    · simp [h2, h]
    · have : ¬ (r - pos % w = 0) := by omega
      simp [h, this]

/-- The low bits of a mask. -/
theorem lowMask_bit (k r : Nat) (hk : k < w) (hr : r < w) : ((1#w <<< k) - 1#w).getLsbD r = decide (r < k) := by
  have : (1#w <<< k) - 1#w = BitVec.ofNat w (2 ^ k - 1) := by
    apply BitVec.eq_of_toNat_eq
    have hlt : 2 ^ k < 2 ^ w := Nat.pow_lt_pow_right (by omega) hk
    have h1 : 1 < 2 ^ w := Nat.one_lt_two_pow (by omega)
    have hp : 0 < 2 ^ k := Nat.two_pow_pos k
    have hs : (1#w <<< k).toNat = 2 ^ k := by
      rw [BitVec.toNat_shiftLeft, BitVec.toNat_ofNat, Nat.mod_eq_of_lt h1, Nat.shiftLeft_eq, Nat.one_mul, Nat.mod_eq_of_lt hlt]
    rw [BitVec.toNat_sub, hs, BitVec.toNat_ofNat, BitVec.toNat_ofNat, Nat.mod_eq_of_lt h1, Nat.mod_eq_of_lt (by omega : 2 ^ k - 1 < 2 ^ w)]
    have : 2 ^ w - 1 + 2 ^ k = (2 ^ k - 1) + 2 ^ w := by omega
    rw [this, Nat.add_mod_right, Nat.mod_eq_of_lt (by omega)]
  rw [this, BitVec.getLsbD_ofNat, Nat.testBit_two_pow_sub_one]
  simp [hr]

theorem bitMask2_bit (hw : 0 < w) (first last r : Nat) (hf : first ≤ last) (hl : last < w) (hr : r < w) :
    (bitMask2 w first last).getLsbD r = decide (first ≤ r ∧ r ≤ last) := by
  unfold bitMask2
  rw [Nat.mod_eq_of_lt hl, Nat.mod_eq_of_lt (by omega : first < w)]
  split_ifs with h
  · rw [BitVec.getLsbD_shiftLeft]
    by_cases h2 : r < first
    · have : ¬ (first ≤ r) := by omega
      simp [h2, this]
    · rw [oneBlock_bit _ (by omega)]
      have h3 : first ≤ r ∧ r ≤ last := by omega
      simp [hr, h2, h3]
  · rw [BitVec.getLsbD_xor, lowMask_bit _ _ (by omega) hr, lowMask_bit _ _ (by omega) hr]
    by_cases h1 : r < first
    · have a : r < last + 1 := by omega
      have b : ¬ (first ≤ r) := by omega
      simp [h1, a, b]
    · by_cases h2 : r < last + 1
      · have : first ≤ r ∧ r ≤ last := by omega
        simp [h1, h2, this]
      · have : ¬ (r ≤ last) := by omega
        simp [h1, h2, this]

theorem sanitize_n (b : BS w) : (sanitize b).n = b.n := by unfold sanitize; split_ifs <;> rfl

theorem sanitize_len (b : BS w) : (sanitize b).blocks.length = b.blocks.length := by
  unfold sanitize; split_ifs <;> simp [modBlock]

/-- `sanitize` clears exactly the bits from `n` on, when there are as many blocks as needed. -/
theorem sanitize_bit (hw : 0 < w) (b : BS w) (hl : b.blocks.length = blocksRequired w b.n) (i : Nat) :
    bitAt (sanitize b).blocks i = (decide (i < b.n) && bitAt b.blocks i) := by
  have hle := req_le hw b.n
  have hlt := req_lt hw b.n
  unfold sanitize
  by_cases h : b.n % w > 0
  · rw [if_pos h]
    have hpos : b.blocks.length = b.n / w + 1 := by rw [hl]; unfold blocksRequired; rw [if_pos h]
    rw [bitAt_mod b.blocks (b.blocks.length - 1) i _ (by rw [hpos]; exact Nat.lt_succ_self _), hpos, Nat.add_sub_cancel]
    by_cases hi : i / w = b.n / w
    · rw [if_pos hi]
      have hr := Nat.mod_lt i hw
      rw [BitVec.getLsbD_and, BitVec.getLsbD_not, BitVec.getLsbD_shiftLeft]
      have hbit : bitAt b.blocks i = (b.blocks.getD (b.n / w) 0).getLsbD (i % w) := by unfold bitAt; rw [hi]
      rw [hbit]
      have e1 := Nat.div_add_mod i w
      have e2 := Nat.div_add_mod b.n w
      rw [hi] at e1
      by_cases hc : i % w < b.n % w
      · have : i < b.n := by omega
        simp [hc, this, hr]
      · have : ¬ i < b.n := by omega
        rw [oneBlock_bit _ (by omega)]
        simp [hc, this, hr]
    · rw [if_neg hi]
      by_cases hc : i < b.n
      · simp [hc]
      · have hge : b.n / w < i / w := by
          have := Nat.div_le_div_right (c := w) (by omega : b.n ≤ i)
          omega
        rw [bitAt_out _ _ (by omega)]
        simp
  · rw [if_neg h]
    by_cases hc : i < b.n
    · simp [hc]
    · have : b.blocks.length = b.n / w := by rw [hl]; unfold blocksRequired; rw [if_neg h, Nat.add_zero]
      rw [bitAt_out _ _ (by rw [this]; exact Nat.div_le_div_right (by omega))]
      simp

theorem sanitize_wf (hw : 0 < w) (b : BS w) (hl : b.blocks.length = blocksRequired w b.n) : WF (sanitize b) where
  len := by rw [sanitize_len, sanitize_n, hl]
  zero := by
    intro i hi
    rw [sanitize_n] at hi
    rw [sanitize_bit hw b hl]
    have : ¬ i < b.n := by omega
    simp [this]

end Yacl.Bitset
