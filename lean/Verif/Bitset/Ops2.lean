import Verif.Bitset.Ops

/-! Appending, block-wise operators, shifts and range operations of a bitset. -/
namespace Yacl.Bitset
variable {w : Nat}

/-! ### Appending -/

/-- The bits of one block. -/
def blockBits (x : BitVec w) : List Bool := (List.range w).map x.getLsbD

theorem blockBits_getD (x : BitVec w) (i : Nat) : (blockBits x).getD i false = x.getLsbD i := by
  unfold blockBits
  by_cases h : i < w
  · rw [List.getD_eq_getElem _ _ (by simpa using h)]; simp
  · rw [List.getD_eq_default _ _ (by simpa using h), BitVec.getLsbD_of_ge _ _ (by omega)]

theorem blockBits_length (x : BitVec w) : (blockBits x).length = w := by simp [blockBits]

theorem req_add (hw : 0 < w) (n : Nat) : blocksRequired w (n + w) = blocksRequired w n + 1 := by
  unfold blocksRequired
  rw [Nat.add_div_right _ hw, Nat.add_mod_right]
  omega

theorem appendBlock_ref (hw : 0 < w) {b : BS w} (hb : WF b) (x : BitVec w) :
    WF (appendBlock b x) ∧ bits (appendBlock b x) = bits b ++ blockBits x := by
  have hspec : ∀ i, (bits b ++ blockBits x).getD i false = if i < b.n then bitAt b.blocks i else x.getLsbD (i - b.n) := by
    intro i
    rw [gD_append, bits_length, bitAt_getD b hb, blockBits_getD]
  have e2 := Nat.div_add_mod b.n w
  unfold appendBlock
  by_cases h : b.n % w = 0
  · rw [if_pos h]
    have hq := full_idx hb (by omega)
    refine refine_of (b := b) (by simp [hb.len, req_add hw]) _ (by simp [bits_length, blockBits_length]) fun i => ?_
    rw [hspec]
    dsimp only
    have e1 := Nat.div_add_mod i w
    have hr := Nat.mod_lt i hw
    unfold bitAt
    rw [gD_append, hq]
    generalize hj : i / w = j at *
    generalize hQ : b.n / w = q at *
    rcases Nat.lt_trichotomy j q with h1 | h1 | h1
    · have : w * (j + 1) ≤ w * q := Nat.mul_le_mul_left w h1
      rw [Nat.mul_add] at this
      rw [if_pos h1, if_pos (by omega)]
    · subst h1
      rw [if_neg (Nat.lt_irrefl _), if_neg (by omega), Nat.sub_self, List.getD_cons_zero]
      congr 1
      omega
    · have : w * (q + 1) ≤ w * j := Nat.mul_le_mul_left w h1
      rw [Nat.mul_add] at this
      rw [if_neg (by omega), if_neg (by omega), List.getD_eq_default _ _ (by simp; omega), BitVec.getLsbD_of_ge x _ (by omega)]
      exact BitVec.getLsbD_zero
  · rw [if_neg h]
    have hq := last_idx hb (by omega)
    have hel := Nat.mod_lt b.n hw
    refine refine_of (b := b) (by simp [modBlock_length, hb.len, req_add hw]) _ (by simp [bits_length, blockBits_length]) fun i => ?_
    rw [hspec]
    dsimp only
    have e1 := Nat.div_add_mod i w
    have hr := Nat.mod_lt i hw
    have hz := hb.zero i
    unfold bitAt modBlock at *
    rw [gD_append, List.length_set, getD_set, hq]
    generalize hj : i / w = j at *
    generalize hQ : b.n / w = q at *
    rw [Nat.add_sub_cancel]
    rcases Nat.lt_trichotomy j q with h1 | h1 | h1
    · have : w * (j + 1) ≤ w * q := Nat.mul_le_mul_left w h1
      rw [Nat.mul_add] at this
      rw [if_pos (by omega), if_neg (by omega), if_pos (by omega)]
    · subst h1
      rw [if_pos (by omega), if_pos ⟨rfl, by omega⟩, BitVec.getLsbD_or, BitVec.getLsbD_shiftLeft]
      by_cases h3 : i < b.n
      · have : i % w < b.n % w := by omega
        rw [if_pos h3]; simp [this]
      · have : ¬ i % w < b.n % w := by omega
        rw [if_neg h3, hz (by omega)]
        have e : i % w - b.n % w = i - b.n := by omega
        simp [this, hr, e]
    · have hge : w * (q + 1) ≤ w * j := Nat.mul_le_mul_left w h1
      rw [Nat.mul_add] at hge
      rw [if_neg (by omega), if_neg (by omega)]
      by_cases h3 : j = q + 1
      · subst h3
        rw [Nat.sub_self, List.getD_cons_zero, BitVec.getLsbD_ushiftRight]
        congr 1
        rw [Nat.mul_add] at e1
        omega
      · have hge2 : w * (q + 2) ≤ w * j := Nat.mul_le_mul_left w (by omega)
        rw [Nat.mul_add] at hge2
        rw [List.getD_eq_default _ _ (by simp; omega), BitVec.getLsbD_of_ge x _ (by omega)]
        exact BitVec.getLsbD_zero

theorem modBlock_last (acc : List (BitVec w)) (x : BitVec w) (f : BitVec w → BitVec w) :
    modBlock (acc ++ [x]) ((acc ++ [x]).length - 1) f = acc ++ [f x] := by
  unfold modBlock
  have : (acc ++ [x]).length - 1 = acc.length := by simp
  rw [this, gD_append, if_neg (Nat.lt_irrefl _), Nat.sub_self, List.getD_cons_zero]
  rw [List.set_append_right _ _ (Nat.le_refl _), Nat.sub_self]
  rfl

theorem appendLoop_eq (e : Nat) (xs : List (BitVec w)) (block : BitVec w) (acc : List (BitVec w)) (n : Nat)
    (he : n % w = e) (h0 : e ≠ 0) :
    xs.foldl appendBlock ⟨acc ++ [block], n⟩ = ⟨appendLoop e block xs acc, n + xs.length * w⟩ := by
  induction xs generalizing block acc n with
  | nil => simp [appendLoop]
  | cons x xs ih =>
    rw [List.foldl_cons]
    have : appendBlock ⟨acc ++ [block], n⟩ x = ⟨(acc ++ [block ||| (x <<< e)]) ++ [x >>> (w - e)], n + w⟩ := by
      unfold appendBlock
      dsimp only
      rw [he, if_neg h0, modBlock_last]
    rw [this, ih _ _ _ (by rw [Nat.add_mod_right]; exact he)]
    simp only [appendLoop, List.length_cons]
    congr 1
    rw [Nat.add_mul, Nat.one_mul, Nat.add_assoc, Nat.add_comm w]

theorem appendBlocks_eq {b : BS w} (hb : WF b) (xs : List (BitVec w)) :
    appendBlocks b xs = xs.foldl appendBlock b := by
  cases xs with
  | nil => rfl
  | cons x xs =>
    simp only [appendBlocks]
    by_cases h : b.n % w = 0
    · rw [if_pos h]
      have gen : ∀ (ys : List (BitVec w)) (c : BS w), c.n % w = 0 → ys.foldl appendBlock c = ⟨c.blocks ++ ys, c.n + ys.length * w⟩ := by
        intro ys
        induction ys with
        | nil => intro c _; simp
        | cons y ys ih =>
          intro c hc
          have : appendBlock c y = ⟨c.blocks ++ [y], c.n + w⟩ := by unfold appendBlock; rw [if_pos hc]
          rw [List.foldl_cons, this, ih _ (by dsimp only; rw [Nat.add_mod_right]; exact hc)]
          simp only [List.append_assoc, List.singleton_append, List.length_cons]
          congr 1
          rw [Nat.add_mul, Nat.one_mul, Nat.add_assoc, Nat.add_comm w]
      rw [gen _ b h]
      simp
    · rw [if_neg h, List.foldl_cons]
      have hq := last_idx hb (by omega)
      have : appendBlock b x = ⟨modBlock b.blocks (b.blocks.length - 1) (fun y => y ||| (x <<< (b.n % w))) ++ [x >>> (w - b.n % w)], b.n + w⟩ := by
        unfold appendBlock; rw [if_neg h]
      rw [this, appendLoop_eq (b.n % w) xs _ _ _ (Nat.add_mod_right _ _) h]
      congr 1
      rw [Nat.add_mul, Nat.one_mul, Nat.add_assoc, Nat.add_comm w]

theorem appendBlocks_ref (hw : 0 < w) {b : BS w} (hb : WF b) (xs : List (BitVec w)) :
    WF (appendBlocks b xs) ∧ bits (appendBlocks b xs) = bits b ++ xs.flatMap blockBits := by
  rw [appendBlocks_eq hb]
  induction xs generalizing b with
  | nil => exact ⟨hb, by simp⟩
  | cons x xs ih =>
    obtain ⟨h1, h2⟩ := appendBlock_ref hw hb x
    obtain ⟨h3, h4⟩ := ih h1
    rw [List.foldl_cons]
    refine ⟨h3, ?_⟩
    rw [h4, h2, List.append_assoc]
    rfl

theorem flat_getD (hw : 0 < w) (l : List (BitVec w)) (i : Nat) : (l.flatMap blockBits).getD i false = bitAt l i := by
  induction l generalizing i with
  | nil => rw [bitAt_out _ _ (Nat.zero_le _)]; rfl
  | cons x l ih =>
    rw [List.flatMap_cons, gD_append, blockBits_length, blockBits_getD, ih]
    unfold bitAt
    by_cases h : i < w
    · rw [if_pos h, Nat.div_eq_of_lt h, Nat.mod_eq_of_lt h]; rfl
    · rw [if_neg h]
      obtain ⟨k, rfl⟩ : ∃ k, i = k + w := ⟨i - w, by omega⟩
      rw [Nat.add_sub_cancel, Nat.add_div_right _ hw, Nat.add_mod_right]
      rfl

theorem flat_length (l : List (BitVec w)) : (l.flatMap blockBits).length = l.length * w := by
  induction l with
  | nil => simp
  | cons x l ih => rw [List.flatMap_cons, List.length_append, ih, blockBits_length, List.length_cons, Nat.add_mul]; omega

theorem appendOther_ref (hw : 0 < w) {b c : BS w} (hb : WF b) (hc : WF c) :
    WF (appendOther b c) ∧ bits (appendOther b c) = bits b ++ bits c := by
  unfold appendOther
  obtain ⟨h1, h2⟩ := appendBlocks_ref hw hb c.blocks
  obtain ⟨h3, h4⟩ := resize_ref hw h1 (b.n + c.n) false
  refine ⟨h3, ?_⟩
  have hle := req_le hw c.n
  rw [← hc.len] at hle
  have hn : (appendBlocks b c.blocks).n = b.n + c.blocks.length * w := by
    rw [← bits_length, h2, List.length_append, bits_length, flat_length]
  rw [h4, h2, hn]
  have : b.n + c.n - (b.n + c.blocks.length * w) = 0 := by omega
  rw [this, List.replicate_zero, List.append_nil, List.take_append, bits_length, Nat.add_sub_cancel_left,
    List.take_of_length_le (by rw [bits_length]; omega)]
  congr 1
  apply List.ext_getElem
  · rw [List.length_take, flat_length, bits_length]; omega
  · intro i h5 h6
    have e1 := List.getD_eq_getElem _ false h5
    have e2 := List.getD_eq_getElem _ false h6
    rw [← e1, ← e2, gD_take, flat_getD hw, bitAt_getD c hc, if_pos (by rw [bits_length] at h6; exact h6)]

theorem appendSelf_loop (hw : 0 < w) {b : BS w} (hb : WF b) (c j : Nat) (hj : j + c = b.blocks.length) (s : BS w) (hs : WF s)
    (hn : s.n = b.n + j * w) (hpre : ∀ i, i < b.n → bitAt s.blocks i = bitAt b.blocks i)
    (hnew : ∀ i, i < b.n → i < j * w → bitAt s.blocks (b.n + i) = bitAt b.blocks i) :
    let r := appendSelfLoop b.blocks.length c s
    WF r ∧ r.n = b.n + b.blocks.length * w ∧ (∀ i, i < b.n → bitAt r.blocks i = bitAt b.blocks i) ∧
      ∀ i, i < b.n → bitAt r.blocks (b.n + i) = bitAt b.blocks i := by
  induction c generalizing j s with
  | zero =>
    have : j = b.blocks.length := by omega
    subst this
    refine ⟨hs, hn, hpre, fun i hi => hnew i hi ?_⟩
    have := req_le hw b.n
    rw [← hb.len] at this
    omega
  | succ c ih =>
    simp only [appendSelfLoop]
    have hidx : b.blocks.length - (c + 1) = j := by omega
    rw [hidx]
    obtain ⟨h1, h2⟩ := appendBlock_ref hw hs (s.blocks.getD j 0)
    have hbit : ∀ i, bitAt (appendBlock s (s.blocks.getD j 0)).blocks i = if i < s.n then bitAt s.blocks i else (s.blocks.getD j 0).getLsbD (i - s.n) := by
      intro i
      rw [← bitAt_getD _ h1, h2, gD_append, bits_length, bitAt_getD s hs, blockBits_getD]
    refine ih (j + 1) (by omega) _ h1 ?_ ?_ ?_
    · have : (appendBlock s (s.blocks.getD j 0)).n = s.n + w := by unfold appendBlock; split_ifs <;> rfl
      rw [this, hn, Nat.add_mul]; omega
    · intro i hi
      rw [hbit, if_pos (by omega), hpre i hi]
    · intro i hi hi2
      rw [hbit]
      by_cases h3 : b.n + i < s.n
      · rw [if_pos h3, hnew i hi (by omega)]
      · rw [if_neg h3, ← bitAt_mk hw _ _ _ (by rw [Nat.add_mul] at hi2; omega)]
        have : j * w + (b.n + i - s.n) = i := by omega
        rw [this, hpre i hi]

theorem appendSelf_ref (hw : 0 < w) {b : BS w} (hb : WF b) : WF (appendSelf b) ∧ bits (appendSelf b) = bits b ++ bits b := by
  unfold appendSelf
  obtain ⟨h1, h2, h3, h4⟩ := appendSelf_loop hw hb b.blocks.length 0 (by omega) b hb (by omega) (fun _ _ => rfl)
    (fun i _ h => by omega)
  obtain ⟨h5, h6⟩ := resize_ref hw h1 (b.n + b.n) false
  have hle := req_le hw b.n
  rw [← hb.len] at hle
  refine ⟨h5, ?_⟩
  have : b.n + b.n - (appendSelfLoop b.blocks.length b.blocks.length b).n = 0 := by omega
  rw [h6, this, List.replicate_zero, List.append_nil]
  apply List.ext_getElem
  · rw [List.length_take, bits_length, List.length_append, bits_length]; omega
  · intro i h7 h8
    have e1 := List.getD_eq_getElem _ false h7
    have e2 := List.getD_eq_getElem _ false h8
    rw [← e1, ← e2, gD_take, bitAt_getD _ h1, gD_append, bits_length, bitAt_getD b hb, bitAt_getD b hb]
    rw [List.length_append, bits_length] at h8
    rw [if_pos h8]
    by_cases h : i < b.n
    · rw [if_pos h, h3 i h]
    · rw [if_neg h]
      have := h4 (i - b.n) (by omega)
      rw [← this]
      congr 1
      omega

/-! ### Block-wise operators -/

theorem bitOp_ref (hw : 0 < w) (f : BitVec w → BitVec w → BitVec w) (g : Bool → Bool → Bool)
    (hf : ∀ x y r, r < w → (f x y).getLsbD r = g (x.getLsbD r) (y.getLsbD r)) (hg : g false false = false)
    {b c : BS w} (hb : WF b) (hc : WF c) (h : b.n = c.n) :
    ∃ r, bitOp f b c = some r ∧ WF r ∧ bits r = List.zipWith g (bits b) (bits c) := by
  unfold bitOp
  rw [if_pos h]
  have hlen : b.blocks.length = c.blocks.length := by rw [hb.len, hc.len, h]
  refine ⟨_, rfl, refine_of (b := b) (by simp [← hlen, hb.len]) _ (by simp [bits_length, h]) fun i => ?_⟩
  dsimp only
  have hz : (List.zipWith g (bits b) (bits c)).getD i false = g (bitAt b.blocks i) (bitAt c.blocks i) := by
    by_cases hi : i < b.n
    · rw [List.getD_eq_getElem _ _ (by simp [bits_length, ← h, hi]), List.getElem_zipWith, bits_get, bits_get]
    · rw [List.getD_eq_default _ _ (by simp [bits_length, ← h]; omega), hb.zero i (by omega), hc.zero i (by omega), hg]
  rw [hz]
  by_cases hi : i / w < b.blocks.length
  · unfold bitAt
    rw [List.getD_eq_getElem _ _ (by simp [← hlen, hi]), List.getElem_zipWith, hf _ _ _ (Nat.mod_lt i hw),
      List.getD_eq_getElem _ _ hi, List.getD_eq_getElem _ _ (hlen ▸ hi)]
  · rw [bitAt_out _ _ (by simp [← hlen]; omega), bitAt_out _ _ (by omega), bitAt_out _ _ (by omega), hg]

/-! ### Shifts -/

theorem lshBlocks_spec (s c : Nat) (l : List (BitVec w)) (h : s + c ≤ l.length) :
    (lshBlocks s c l).length = l.length ∧
    ∀ j, (lshBlocks s c l).getD j 0 = if s ≤ j ∧ j < s + c then l.getD (j - s) 0 else l.getD j 0 := by
  induction c generalizing l with
  | zero => exact ⟨rfl, fun j => by rw [if_neg (by omega)]; rfl⟩
  | succ c ih =>
    simp only [lshBlocks]
    obtain ⟨h1, h2⟩ := ih (l.set (s + c) (l.getD c 0)) (by simp; omega)
    refine ⟨by rw [h1]; simp, fun j => ?_⟩
    rw [h2, getD_set, getD_set]
    by_cases ha : s ≤ j ∧ j < s + c
    · rw [if_pos ha, if_neg (by omega), if_pos (by omega)]
    · rw [if_neg ha]
      by_cases hb : j = s + c
      · rw [if_pos ⟨hb, by omega⟩, if_pos (by omega)]
        congr 1; omega
      · rw [if_neg (by omega), if_neg (by omega)]

theorem lshBits_spec (s o c : Nat) (l : List (BitVec w)) (h : c = 0 ∨ s + c < l.length) :
    (lshBits s o c l).length = l.length ∧
    ∀ j, (lshBits s o c l).getD j 0 = if s < j ∧ j ≤ s + c then (l.getD (j - s) 0 <<< o) ||| (l.getD (j - s - 1) 0 >>> (w - o)) else l.getD j 0 := by
  induction c generalizing l with
  | zero => exact ⟨rfl, fun j => by rw [if_neg (by omega)]; rfl⟩
  | succ c ih =>
    simp only [lshBits]
    obtain ⟨h1, h2⟩ := ih (l.set (s + (c + 1)) ((l.getD (c + 1) 0 <<< o) ||| (l.getD c 0 >>> (w - o)))) (by simp; omega)
    refine ⟨by rw [h1]; simp, fun j => ?_⟩
    rw [h2, getD_set, getD_set, getD_set]
    by_cases ha : s < j ∧ j ≤ s + c
    · rw [if_pos ha, if_neg (by omega), if_neg (by omega), if_pos (by omega)]
    · rw [if_neg ha]
      by_cases hb : j = s + (c + 1)
      · rw [if_pos ⟨hb, by omega⟩, if_pos (by omega)]
        have e1 : j - s = c + 1 := by omega
        have e2 : j - s - 1 = c := by omega
        rw [e1, Nat.add_sub_cancel]
      · rw [if_neg (by omega), if_neg (by omega)]

theorem shift_pos (hw : 0 < w) (i s : Nat) (h : s * w ≤ i) : (i - s * w) / w = i / w - s ∧ (i - s * w) % w = i % w := by
  obtain ⟨k, rfl⟩ : ∃ k, i = k + s * w := ⟨i - s * w, by omega⟩
  rw [Nat.add_sub_cancel, Nat.add_mul_div_right _ _ hw, Nat.add_mul_mod_self_right]
  exact ⟨(Nat.add_sub_cancel _ _).symm, rfl⟩

theorem applyLeft_spec (hw : 0 < w) (l : List (BitVec w)) (shift : Nat) (h : shift / w < l.length) :
    (applyLeft l shift).length = l.length ∧
    ∀ i, i / w < l.length → bitAt (applyLeft l shift) i = (decide (shift ≤ i) && bitAt l (i - shift)) := by
  unfold applyLeft
  dsimp only
  have es := Nat.div_add_mod shift w
  have ho := Nat.mod_lt shift hw
  generalize hs : shift / w = s at *
  generalize hoo : shift % w = o at *
  -- the blocks after the loop
  have blk : ∀ (m : List (BitVec w)), m.length = l.length → (List.replicate s (0 : BitVec w) ++ m.drop s).length = l.length ∧
      ∀ j, (List.replicate s (0 : BitVec w) ++ m.drop s).getD j 0 = if j < s then 0 else m.getD j 0 := by
    intro m hm
    refine ⟨by simp [hm]; omega, fun j => ?_⟩
    rw [gD_append, gD_replicate, List.length_replicate, gD_drop]
    split_ifs with h1
    · rfl
    · congr 1; omega
  by_cases h0 : o = 0
  · rw [if_pos h0]
    obtain ⟨h1, h2⟩ := lshBlocks_spec s (l.length - s) l (by omega)
    obtain ⟨h3, h4⟩ := blk _ h1
    refine ⟨h3, fun i hi => ?_⟩
    unfold bitAt
    rw [h4, h2]
    have e1 := Nat.div_add_mod i w
    have hr := Nat.mod_lt i hw
    have hsh : shift = s * w := by rw [Nat.mul_comm]; omega
    generalize hj : i / w = j at *
    by_cases h5 : j < s
    · have : w * (j + 1) ≤ w * s := Nat.mul_le_mul_left w h5
      rw [Nat.mul_add] at this
      have hlt : ¬ shift ≤ i := by omega
      rw [if_pos h5]; simp [hlt]
    · have hle : w * s ≤ w * j := Nat.mul_le_mul_left w (by omega)
      have hge : shift ≤ i := by omega
      rw [if_neg h5, if_pos (by omega)]
      obtain ⟨p1, p2⟩ := shift_pos hw i s (by omega)
      rw [hj] at p1
      rw [hsh, p1, p2]
      have : s * w ≤ i := by omega
      simp [this]
  · rw [if_neg h0]
    obtain ⟨h1, h2⟩ := lshBits_spec s o (l.length - 1 - s) l (by omega)
    obtain ⟨h3, h4⟩ := blk ((lshBits s o (l.length - 1 - s) l).set s ((lshBits s o (l.length - 1 - s) l).getD 0 0 <<< o)) (by simp [h1])
    refine ⟨h3, fun i hi => ?_⟩
    unfold bitAt
    rw [h4, getD_set, h1, h2, h2]
    have e1 := Nat.div_add_mod i w
    have hr := Nat.mod_lt i hw
    generalize hj : i / w = j at *
    rw [if_neg (by omega : ¬ (s < 0 ∧ 0 ≤ s + (l.length - 1 - s)))]
    rcases Nat.lt_trichotomy j s with h5 | h5 | h5
    · have : w * (j + 1) ≤ w * s := Nat.mul_le_mul_left w h5
      rw [Nat.mul_add] at this
      have hlt : ¬ shift ≤ i := by omega
      rw [if_pos h5]; simp [hlt]
    · subst h5
      rw [if_neg (Nat.lt_irrefl _), if_pos ⟨rfl, h⟩, BitVec.getLsbD_shiftLeft]
      by_cases h6 : i % w < o
      · have hlt : ¬ shift ≤ i := by omega
        simp [h6, hlt]
      · have hge : shift ≤ i := by omega
        have hd : i - shift = i % w - o := by omega
        have hlt : i % w - o < w := by omega
        rw [hd, Nat.div_eq_of_lt hlt, Nat.mod_eq_of_lt hlt]
        rw [decide_eq_true hr, decide_eq_false h6, decide_eq_true hge]
        rfl
    · have hle : w * (s + 1) ≤ w * j := Nat.mul_le_mul_left w h5
      rw [Nat.mul_add] at hle
      have hge : shift ≤ i := by omega
      rw [if_neg (by omega), if_neg (by omega), if_pos (by omega), BitVec.getLsbD_or, BitVec.getLsbD_shiftLeft, BitVec.getLsbD_ushiftRight]
      obtain ⟨d, rfl⟩ : ∃ d, j = s + (d + 1) := ⟨j - s - 1, by omega⟩
      have x1 : s + (d + 1) - s = d + 1 := by omega
      rw [x1, Nat.add_sub_cancel]
      rw [Nat.mul_add, Nat.mul_add] at e1
      by_cases h6 : i % w < o
      · have hd : i - shift = d * w + (w - o + i % w) := by rw [Nat.mul_comm d w]; omega
        have b1 := bitAt_mk hw l d (w - o + i % w) (by omega)
        unfold bitAt at b1
        rw [hd, b1]
        have : d * w + (w - o + i % w) = i - shift := hd.symm
        simp [h6, hge]
      · have hd : i - shift = (d + 1) * w + (i % w - o) := by rw [Nat.mul_comm (d + 1) w, Nat.mul_add]; omega
        have b1 := bitAt_mk hw l (d + 1) (i % w - o) (by omega)
        unfold bitAt at b1
        rw [hd, b1, BitVec.getLsbD_of_ge (l.getD d 0) _ (by omega)]
        simp [h6, hge, hr]

theorem shiftLeft_ref (hw : 0 < w) {b : BS w} (hb : WF b) (s : Nat) :
    WF (shiftLeft b s) ∧ bits (shiftLeft b s) = List.replicate (min s b.n) false ++ (bits b).take (b.n - s) := by
  unfold shiftLeft
  by_cases h0 : s = 0
  · rw [if_pos h0]
    refine ⟨hb, ?_⟩
    subst h0
    rw [Nat.zero_min, List.replicate_zero, List.nil_append, Nat.sub_zero, List.take_of_length_le (by rw [bits_length])]
  · rw [if_neg h0]
    by_cases h1 : s ≥ b.n
    · rw [if_pos h1]
      obtain ⟨r1, r2⟩ := resetAll_ref hb
      refine ⟨r1, ?_⟩
      have e1 : min s b.n = b.n := by omega
      have e2 : b.n - s = 0 := by omega
      rw [r2, e1, e2, List.take_zero, List.append_nil]
    · rw [if_neg h1]
      obtain ⟨a1, a2⟩ := applyLeft_spec hw b.blocks s (idx_lt hw hb (by omega))
      have hl : (applyLeft b.blocks s).length = blocksRequired w b.n := by rw [a1, hb.len]
      refine ⟨sanitize_wf hw _ hl, bits_eq _ _ (by simp [sanitize_n, bits_length]; omega) fun i hi => ?_⟩
      rw [sanitize_n] at hi
      rw [sanitize_bit hw _ hl]
      dsimp only at hi ⊢
      have e1 : min s b.n = s := by omega
      rw [a2 i (idx_lt hw hb hi), gD_append, gD_take, gD_replicate, List.length_replicate, bitAt_getD b hb, e1]
      by_cases h2 : i < s
      · have : ¬ s ≤ i := by omega
        simp [h2, this]
      · have h3 : s ≤ i := by omega
        rw [if_neg h2, if_pos (by omega)]
        simp [hi, h3]

theorem rshBlocks_spec (s c i0 : Nat) (l : List (BitVec w)) (h : i0 + c ≤ l.length) :
    (rshBlocks s c i0 l).length = l.length ∧
    ∀ j, (rshBlocks s c i0 l).getD j 0 = if i0 ≤ j ∧ j < i0 + c then l.getD (j + s) 0 else l.getD j 0 := by
  induction c generalizing l i0 with
  | zero => exact ⟨rfl, fun j => by rw [if_neg (by omega)]; rfl⟩
  | succ c ih =>
    simp only [rshBlocks]
    obtain ⟨h1, h2⟩ := ih (i0 + 1) (l.set i0 (l.getD (i0 + s) 0)) (by simp; omega)
    refine ⟨by rw [h1]; simp, fun j => ?_⟩
    rw [h2, getD_set, getD_set]
    by_cases ha : i0 + 1 ≤ j ∧ j < i0 + 1 + c
    · rw [if_pos ha, if_neg (by omega), if_pos (by omega)]
    · rw [if_neg ha]
      by_cases hb : j = i0
      · rw [if_pos ⟨hb, by omega⟩, if_pos (by omega), hb]
      · rw [if_neg (by omega), if_neg (by omega)]

theorem rshBits_spec (s o c i0 : Nat) (l : List (BitVec w)) (h : i0 + c ≤ l.length) :
    (rshBits s o c i0 l).length = l.length ∧
    ∀ j, (rshBits s o c i0 l).getD j 0 = if i0 ≤ j ∧ j < i0 + c then (l.getD (j + s) 0 >>> o) ||| (l.getD (j + s + 1) 0 <<< (w - o)) else l.getD j 0 := by
  induction c generalizing l i0 with
  | zero => exact ⟨rfl, fun j => by rw [if_neg (by omega)]; rfl⟩
  | succ c ih =>
    simp only [rshBits]
    obtain ⟨h1, h2⟩ := ih (i0 + 1) (l.set i0 ((l.getD (i0 + s) 0 >>> o) ||| (l.getD (i0 + s + 1) 0 <<< (w - o)))) (by simp; omega)
    refine ⟨by rw [h1]; simp, fun j => ?_⟩
    rw [h2, getD_set, getD_set, getD_set]
    by_cases ha : i0 + 1 ≤ j ∧ j < i0 + 1 + c
    · rw [if_pos ha, if_neg (by omega), if_neg (by omega), if_pos (by omega)]
    · rw [if_neg ha]
      by_cases hb : j = i0
      · rw [if_pos ⟨hb, by omega⟩, if_pos (by omega), hb]
      · rw [if_neg (by omega), if_neg (by omega)]

theorem applyRight_spec (hw : 0 < w) (l : List (BitVec w)) (shift : Nat) (h : shift / w < l.length) :
    (applyRight l shift).length = l.length ∧ ∀ i, bitAt (applyRight l shift) i = bitAt l (i + shift) := by
  unfold applyRight
  dsimp only
  have es := Nat.div_add_mod shift w
  have ho := Nat.mod_lt shift hw
  generalize hs : shift / w = s at *
  generalize hoo : shift % w = o at *
  have blk : ∀ (m : List (BitVec w)) (k : Nat), m.length = l.length → k ≤ l.length →
      (m.take k ++ List.replicate (m.length - k) (0 : BitVec w)).length = l.length ∧
      ∀ j, (m.take k ++ List.replicate (m.length - k) (0 : BitVec w)).getD j 0 = if j < k then m.getD j 0 else 0 := by
    intro m k hm hk
    refine ⟨by simp [hm]; omega, fun j => ?_⟩
    rw [gD_append, gD_replicate, List.length_take, gD_take]
    split_ifs <;> first | rfl | omega
  by_cases h0 : o = 0
  · rw [if_pos h0]
    obtain ⟨h1, h2⟩ := rshBlocks_spec s (l.length - s - 1 + 1) 0 l (by omega)
    obtain ⟨h3, h4⟩ := blk _ (l.length - s - 1 + 1) h1 (by omega)
    refine ⟨h3, fun i => ?_⟩
    unfold bitAt
    rw [h4, h2]
    have hsh : shift = s * w := by rw [Nat.mul_comm]; omega
    rw [hsh, Nat.add_mul_div_right _ _ hw, Nat.add_mul_mod_self_right]
    generalize hj : i / w = j at *
    by_cases h5 : j < l.length - s - 1 + 1
    · rw [if_pos h5, if_pos (by omega)]
    · rw [if_neg h5, List.getD_eq_default _ _ (by omega)]
  · rw [if_neg h0]
    obtain ⟨h1, h2⟩ := rshBits_spec s o (l.length - s - 1) 0 l (by omega)
    obtain ⟨h3, h4⟩ := blk ((rshBits s o (l.length - s - 1) 0 l).set (l.length - s - 1)
      ((rshBits s o (l.length - s - 1) 0 l).getD ((rshBits s o (l.length - s - 1) 0 l).length - 1) 0 >>> o)) (l.length - s - 1 + 1) (by simp [h1]) (by omega)
    refine ⟨h3, fun i => ?_⟩
    unfold bitAt
    rw [h4, getD_set, h1, h2, h2]
    have e1 := Nat.div_add_mod i w
    have hr := Nat.mod_lt i hw
    rw [if_neg (by omega : ¬ (0 ≤ l.length - 1 ∧ l.length - 1 < 0 + (l.length - s - 1)))]
    generalize hj : i / w = j at *
    -- the position of the source bit
    have pos1 : i % w + o < w → (i + shift) / w = j + s ∧ (i + shift) % w = i % w + o := by
      intro hlt
      have : i + shift = (j + s) * w + (i % w + o) := by rw [Nat.mul_comm, Nat.mul_add]; omega
      rw [this]
      constructor
      · rw [Nat.mul_comm, Nat.mul_add_div hw, Nat.div_eq_of_lt hlt, Nat.add_zero]
      · rw [Nat.mul_comm, Nat.mul_add_mod, Nat.mod_eq_of_lt hlt]
    have pos2 : ¬ i % w + o < w → (i + shift) / w = j + s + 1 ∧ (i + shift) % w = i % w + o - w := by
      intro hlt
      have : i + shift = (j + s + 1) * w + (i % w + o - w) := by rw [Nat.mul_comm, Nat.mul_add, Nat.mul_add]; omega
      rw [this]
      constructor
      · rw [Nat.mul_comm, Nat.mul_add_div hw, Nat.div_eq_of_lt (by omega), Nat.add_zero]
      · rw [Nat.mul_comm, Nat.mul_add_mod, Nat.mod_eq_of_lt (by omega)]
    by_cases h5 : j < l.length - s - 1
    · rw [if_pos (by omega), if_neg (by omega), if_pos (by omega), BitVec.getLsbD_or, BitVec.getLsbD_ushiftRight, BitVec.getLsbD_shiftLeft]
      by_cases h6 : i % w + o < w
      · rw [(pos1 h6).1, (pos1 h6).2]
        have : i % w < w - o := by omega
        simp [this, Nat.add_comm]
      · rw [(pos2 h6).1, (pos2 h6).2, BitVec.getLsbD_of_ge (l.getD (j + s) 0) _ (by omega)]
        have a : ¬ i % w < w - o := by omega
        have e : i % w - (w - o) = i % w + o - w := by omega
        simp [a, hr, e]
    · by_cases h7 : j = l.length - s - 1
      · rw [if_pos (by omega), if_pos ⟨h7, by omega⟩, BitVec.getLsbD_ushiftRight]
        by_cases h6 : i % w + o < w
        · rw [(pos1 h6).1, (pos1 h6).2]
          have : j + s = l.length - 1 := by omega
          rw [this, Nat.add_comm o]
        · rw [(pos2 h6).1, BitVec.getLsbD_of_ge _ _ (by omega), List.getD_eq_default _ _ (by omega)]
          exact BitVec.getLsbD_zero.symm
      · rw [if_neg (by omega), List.getD_eq_default l 0 (n := (i + shift) / w)]
        · rw [BitVec.ofNat_eq_ofNat, BitVec.getLsbD_zero, BitVec.getLsbD_zero]
        · by_cases h6 : i % w + o < w
          · rw [(pos1 h6).1]; omega
          · rw [(pos2 h6).1]; omega

theorem shiftRight_ref (hw : 0 < w) {b : BS w} (hb : WF b) (s : Nat) :
    WF (shiftRight b s) ∧ bits (shiftRight b s) = (bits b).drop s ++ List.replicate (min s b.n) false := by
  unfold shiftRight
  by_cases h0 : s = 0
  · rw [if_pos h0]
    refine ⟨hb, ?_⟩
    subst h0
    rw [Nat.zero_min, List.replicate_zero, List.append_nil, List.drop_zero]
  · rw [if_neg h0]
    by_cases h1 : s ≥ b.n
    · rw [if_pos h1]
      obtain ⟨r1, r2⟩ := resetAll_ref hb
      refine ⟨r1, ?_⟩
      have e1 : min s b.n = b.n := by omega
      rw [r2, e1, List.drop_of_length_le (by rw [bits_length]; omega), List.nil_append]
    · rw [if_neg h1]
      obtain ⟨a1, a2⟩ := applyRight_spec hw b.blocks s (idx_lt hw hb (by omega))
      refine refine_of (b := b) (by dsimp only; rw [a1, hb.len]) _ (by simp [bits_length]; omega) fun i => ?_
      dsimp only
      rw [a2, gD_append, gD_replicate, gD_drop, List.length_drop, bits_length, bitAt_getD b hb, ite_self, Nat.add_comm]
      by_cases h2 : i < b.n - s
      · rw [if_pos h2]
      · rw [if_neg h2, hb.zero _ (by omega)]

/-! ### Ranges -/

theorem fullLoop_spec (f : BitVec w → BitVec w) (c i0 : Nat) (l : List (BitVec w)) (h : i0 + c ≤ l.length ∨ c = 0) :
    (fullLoop f c i0 l).length = l.length ∧
    ∀ j, (fullLoop f c i0 l).getD j 0 = if i0 ≤ j ∧ j < i0 + c then f (l.getD j 0) else l.getD j 0 := by
  induction c generalizing l i0 with
  | zero => exact ⟨rfl, fun j => by rw [if_neg (by omega)]; rfl⟩
  | succ c ih =>
    simp only [fullLoop]
    obtain ⟨h1, h2⟩ := ih (i0 + 1) (modBlock l i0 f) (by rw [modBlock_length]; omega)
    refine ⟨by rw [h1, modBlock_length], fun j => ?_⟩
    rw [h2]
    unfold modBlock
    rw [getD_set]
    by_cases ha : i0 + 1 ≤ j ∧ j < i0 + 1 + c
    · rw [if_pos ha, if_neg (by omega), if_pos (by omega)]
    · rw [if_neg ha]
      by_cases hb : j = i0
      · rw [if_pos ⟨hb, by omega⟩, if_pos (by omega), hb]
      · rw [if_neg (by omega), if_neg (by omega)]

theorem modBlock_getD (l : List (BitVec w)) (k j : Nat) (f : BitVec w → BitVec w) (hk : k < l.length) :
    (modBlock l k f).getD j 0 = if j = k then f (l.getD j 0) else l.getD j 0 := by
  unfold modBlock
  rw [getD_set]
  by_cases h : j = k
  · rw [if_pos ⟨h, hk⟩, if_pos h, h]
  · rw [if_neg (fun a => h a.1), if_neg h]

theorem rangeOp_ref (hw : 0 < w) (part : Nat → Nat → BitVec w → BitVec w) (full : BitVec w → BitVec w) (g : Bool → Bool)
    (hp : ∀ first last x r, first ≤ last → last < w → r < w →
      (part first last x).getLsbD r = if first ≤ r ∧ r ≤ last then g (x.getLsbD r) else x.getLsbD r)
    (hf : ∀ x r, r < w → (full x).getLsbD r = g (x.getLsbD r))
    {b : BS w} (hb : WF b) (pos len : Nat) (h : pos < b.n) (hlen : pos + len ≤ b.n) :
    ∃ r, rangeOp part full b pos len = some r ∧ WF r ∧
      bits r = (bits b).take pos ++ (((bits b).drop pos).take len).map g ++ (bits b).drop (pos + len) := by
  have hspecl : ((bits b).take pos ++ (((bits b).drop pos).take len).map g ++ (bits b).drop (pos + len)).length = b.n := by
    simp [bits_length]; omega
  have hspec : ∀ i, ((bits b).take pos ++ (((bits b).drop pos).take len).map g ++ (bits b).drop (pos + len)).getD i false =
      if pos ≤ i ∧ i < pos + len then g (bitAt b.blocks i) else bitAt b.blocks i := by
    intro i
    rw [gD_append, gD_append, gD_take, gD_drop]
    simp only [List.length_append, List.length_map, List.length_take, List.length_drop, bits_length]
    by_cases h1 : i < pos
    · rw [if_pos (by omega), if_pos (by omega), if_pos h1, if_neg (by omega), bitAt_getD b hb]
    · by_cases h2 : i < pos + len
      · rw [if_pos (by omega), if_neg (by omega), if_pos (by omega)]
        rw [gD_map g _ _ false _ (by simp [bits_length]; omega), gD_take, gD_drop, if_pos (by omega), bitAt_getD b hb]
        congr 2; omega
      · rw [if_neg (by omega), if_neg (by omega), bitAt_getD b hb]
        congr 1; omega
  have fin : ∀ bl : List (BitVec w), bl.length = b.blocks.length →
      (∀ i, bitAt bl i = if pos ≤ i ∧ i < pos + len then g (bitAt b.blocks i) else bitAt b.blocks i) →
      WF (⟨bl, b.n⟩ : BS w) ∧ bits (⟨bl, b.n⟩ : BS w) = (bits b).take pos ++ (((bits b).drop pos).take len).map g ++ (bits b).drop (pos + len) := by
    intro bl h1 h2
    exact refine_of (b := b) (by dsimp only; rw [h1, hb.len]) _ hspecl fun i => by rw [hspec]; exact h2 i
  unfold rangeOp
  rw [if_neg (by omega)]
  by_cases h0 : len = 0
  · rw [if_pos h0]
    refine ⟨b, rfl, hb, ?_⟩
    rw [h0]; simp
  · rw [if_neg h0, if_neg (by omega)]
    dsimp only
    obtain ⟨m, hm⟩ : ∃ m, pos + len = m + 1 := ⟨pos + len - 1, by omega⟩
    have hm1 : pos + len - 1 = m := by omega
    rw [hm1]
    have ip := idx_lt hw hb h
    have im := idx_lt hw hb (by omega : m < b.n)
    have ep := Nat.div_add_mod pos w
    have em := Nat.div_add_mod m w
    have rp := Nat.mod_lt pos hw
    have rm := Nat.mod_lt m hw
    have hdiv : pos / w ≤ m / w := Nat.div_le_div_right (by omega)
    generalize hpq : pos / w = p at *
    generalize hmq : m / w = q at *
    generalize hpr : pos % w = fi at *
    generalize hmr : m % w = li at *
    by_cases hsame : p = q
    · rw [if_pos hsame]
      refine ⟨_, rfl, fin _ (modBlock_length _ _ _) fun i => ?_⟩
      have ei := Nat.div_add_mod i w
      have ri := Nat.mod_lt i hw
      unfold bitAt
      rw [modBlock_getD _ _ _ _ ip]
      subst hsame
      generalize hj : i / w = j at *
      rcases Nat.lt_trichotomy j p with h1 | h1 | h1
      · have : w * (j + 1) ≤ w * p := Nat.mul_le_mul_left w h1
        rw [Nat.mul_add] at this
        rw [if_neg (by omega), if_neg (by omega)]
      · subst h1
        rw [if_pos rfl, hp _ _ _ _ (by omega) rm ri]
        by_cases h2 : fi ≤ i % w ∧ i % w ≤ li
        · rw [if_pos h2, if_pos (by omega)]
        · rw [if_neg h2, if_neg (by omega)]
      · have : w * (p + 1) ≤ w * j := Nat.mul_le_mul_left w h1
        rw [Nat.mul_add] at this
        rw [if_neg (by omega), if_neg (by omega)]
    · rw [if_neg hsame]
      have hlt : p < q := by omega
      -- first partial block
      have L1 : ∃ l1 : List (BitVec w), l1 = (if fi ≠ 0 then modBlock b.blocks p (part fi (w - 1)) else b.blocks) ∧ l1.length = b.blocks.length ∧
          ∀ j, l1.getD j 0 = if j = p ∧ fi ≠ 0 then part fi (w - 1) (b.blocks.getD j 0) else b.blocks.getD j 0 := by
        refine ⟨_, rfl, ?_, fun j => ?_⟩
        · by_cases hf0 : fi ≠ 0
          · rw [if_pos hf0, modBlock_length]
          · rw [if_neg hf0]
        · by_cases hf0 : fi ≠ 0
          · rw [if_pos hf0, modBlock_getD _ _ _ _ ip]
            by_cases hjp : j = p
            · rw [if_pos hjp, if_pos ⟨hjp, hf0⟩]
            · rw [if_neg hjp, if_neg (fun a => hjp a.1)]
          · rw [if_neg hf0, if_neg (fun a => hf0 a.2)]
      obtain ⟨l1, e1, len1, g1⟩ := L1
      rw [← e1]
      have L2 : ∃ l2 : List (BitVec w), l2 = (if li ≠ w - 1 then modBlock l1 q (part 0 li) else l1) ∧ l2.length = b.blocks.length ∧
          ∀ j, l2.getD j 0 = if j = q ∧ li ≠ w - 1 then part 0 li (l1.getD j 0) else l1.getD j 0 := by
        refine ⟨_, rfl, ?_, fun j => ?_⟩
        · by_cases hf0 : li ≠ w - 1
          · rw [if_pos hf0, modBlock_length, len1]
          · rw [if_neg hf0, len1]
        · by_cases hf0 : li ≠ w - 1
          · rw [if_pos hf0, modBlock_getD _ _ _ _ (by omega)]
            by_cases hjp : j = q
            · rw [if_pos hjp, if_pos ⟨hjp, hf0⟩]
            · rw [if_neg hjp, if_neg (fun a => hjp a.1)]
          · rw [if_neg hf0, if_neg (fun a => hf0 a.2)]
      obtain ⟨l2, e2, len2, g2⟩ := L2
      rw [← e2]
      generalize hff : (if fi ≠ 0 then p + 1 else p) = ff
      generalize hlf : (if li ≠ w - 1 then q - 1 else q) = lf
      have hffv : (fi ≠ 0 → ff = p + 1) ∧ (fi = 0 → ff = p) := by
        subst hff
        exact ⟨fun a => if_pos a, fun a => if_neg (fun c => c a)⟩
      have hlfv : (li ≠ w - 1 → lf + 1 = q) ∧ (li = w - 1 → lf = q) := by
        subst hlf
        refine ⟨fun a => ?_, fun a => if_neg (fun c => c a)⟩
        rw [if_pos a]; omega
      obtain ⟨f1, f2⟩ := fullLoop_spec full (lf + 1 - ff) ff l2 (by
        rw [len2]
        by_cases a : fi = 0 <;> by_cases c : li = w - 1 <;> simp only [a, c, ne_eq, not_true_eq_false, not_false_eq_true, forall_const, false_implies, true_implies, and_true, true_and] at hffv hlfv <;> omega)
      refine ⟨_, rfl, fin _ (by rw [f1, len2]) fun i => ?_⟩
      have ei := Nat.div_add_mod i w
      have ri := Nat.mod_lt i hw
      unfold bitAt
      rw [f2, g2, g1]
      generalize hj : i / w = j at *
      have hffle : p ≤ ff ∧ ff ≤ p + 1 := by
        by_cases a : fi = 0
        · rw [hffv.2 a]; omega
        · rw [hffv.1 a]; omega
      have hlfle : lf ≤ q ∧ q ≤ lf + 1 := by
        by_cases a : li = w - 1
        · rw [hlfv.2 a]; omega
        · have := hlfv.1 a; omega
      rcases Nat.lt_trichotomy j p with h1 | h1 | h1
      · -- below
        have : w * (j + 1) ≤ w * p := Nat.mul_le_mul_left w h1
        rw [Nat.mul_add] at this
        rw [if_neg (by omega), if_neg (by omega), if_neg (by omega), if_neg (by omega)]
      · -- the first block
        subst h1
        have hjq : w * (j + 1) ≤ w * q := Nat.mul_le_mul_left w hlt
        rw [Nat.mul_add] at hjq
        by_cases a : fi = 0
        · have := hffv.2 a
          rw [if_pos (by omega), if_neg (by omega), if_neg (by omega), hf _ _ ri, if_pos (by omega)]
        · have := hffv.1 a
          rw [if_neg (by omega), if_neg (by omega), if_pos ⟨rfl, a⟩, hp _ _ _ _ (by omega) (by omega) ri]
          by_cases h2 : fi ≤ i % w
          · rw [if_pos ⟨h2, by omega⟩, if_pos (by omega)]
          · rw [if_neg (by omega), if_neg (by omega)]
      · have hpj : w * (p + 1) ≤ w * j := Nat.mul_le_mul_left w h1
        rw [Nat.mul_add] at hpj
        rcases Nat.lt_trichotomy j q with h2 | h2 | h2
        · -- a full block
          have hjq : w * (j + 1) ≤ w * q := Nat.mul_le_mul_left w h2
          rw [Nat.mul_add] at hjq
          rw [if_pos (by omega), if_neg (by omega), if_neg (by omega), hf _ _ ri, if_pos (by omega)]
        · -- the last block
          subst h2
          by_cases a : li = w - 1
          · have := hlfv.2 a
            rw [if_pos (by omega), if_neg (by omega), if_neg (by omega), hf _ _ ri, if_pos (by omega)]
          · have := hlfv.1 a
            rw [if_neg (by omega), if_pos ⟨rfl, a⟩, if_neg (by omega), hp _ _ _ _ (by omega) (by omega) ri]
            by_cases h3 : i % w ≤ li
            · rw [if_pos ⟨by omega, h3⟩, if_pos (by omega)]
            · rw [if_neg (by omega), if_neg (by omega)]
        · have hqj : w * (q + 1) ≤ w * j := Nat.mul_le_mul_left w h2
          rw [Nat.mul_add] at hqj
          rw [if_neg (by omega), if_neg (by omega), if_neg (by omega), if_neg (by omega)]

theorem setRange_ref (hw : 0 < w) {b : BS w} (hb : WF b) (pos len : Nat) (v : Bool) (h : pos < b.n) (hlen : pos + len ≤ b.n) :
    ∃ r, setRange b pos len v = some r ∧ WF r ∧
      bits r = (bits b).take pos ++ List.replicate len v ++ (bits b).drop (pos + len) := by
  obtain ⟨r, h1, h2, h3⟩ := rangeOp_ref hw (setBlockBits v) (fun _ => if v then oneBlock else 0) (fun _ => v)
    (by
      intro first last x r hfl hl hr
      unfold setBlockBits
      cases v
      · simp only [Bool.false_eq_true, if_false]
        rw [BitVec.getLsbD_and, BitVec.getLsbD_not, bitMask2_bit hw _ _ _ hfl hl hr]
        by_cases hc : first ≤ r ∧ r ≤ last
        · rw [if_pos hc]; simp [hc]
        · rw [if_neg hc, decide_eq_false hc]; simp [hr]
      · simp only [if_true]
        rw [BitVec.getLsbD_or, bitMask2_bit hw _ _ _ hfl hl hr]
        by_cases hc : first ≤ r ∧ r ≤ last
        · rw [if_pos hc]; simp [hc]
        · rw [if_neg hc, decide_eq_false hc]; simp)
    (by
      intro x r hr
      cases v
      · simp
      · simp [oneBlock_bit _ hr]) hb pos len h hlen
  refine ⟨r, h1, h2, ?_⟩
  rw [h3]
  congr 2
  have : (((bits b).drop pos).take len).length = len := by simp [bits_length]; omega
  conv_rhs => rw [← this]
  exact List.map_const'

theorem flipRange_ref (hw : 0 < w) {b : BS w} (hb : WF b) (pos len : Nat) (h : pos < b.n) (hlen : pos + len ≤ b.n) :
    ∃ r, flipRange b pos len = some r ∧ WF r ∧
      bits r = (bits b).take pos ++ (((bits b).drop pos).take len).map not ++ (bits b).drop (pos + len) := by
  refine rangeOp_ref hw flipBlockBits (fun x => ~~~ x) not ?_ ?_ hb pos len h hlen
  · intro first last x r hfl hl hr
    unfold flipBlockBits
    rw [BitVec.getLsbD_xor, bitMask2_bit hw _ _ _ hfl hl hr]
    by_cases hc : first ≤ r ∧ r ≤ last
    · rw [if_pos hc]; simp [hc]
    · rw [if_neg hc, decide_eq_false hc]; simp
  · intro x r hr
    rw [BitVec.getLsbD_not]; simp [hr]

end Yacl.Bitset
