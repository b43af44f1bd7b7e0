import Verif.Bitset.Lemmas

/-! The mutating operations of a bitset refine operations on lists of booleans. -/
namespace Yacl.Bitset
variable {w : Nat}

theorem gD_append {α} (l m : List α) (i : Nat) (d : α) :
    (l ++ m).getD i d = if i < l.length then l.getD i d else m.getD (i - l.length) d := by
  split_ifs with h
  · exact List.getD_append _ _ _ _ h
  · exact List.getD_append_right _ _ _ _ (by omega)

theorem gD_take {α} (l : List α) (k i : Nat) (d : α) : (l.take k).getD i d = if i < k then l.getD i d else d := by
  simp only [List.getD_eq_getElem?_getD, List.getElem?_take]
  split_ifs <;> rfl

theorem gD_drop {α} (l : List α) (k i : Nat) (d : α) : (l.drop k).getD i d = l.getD (k + i) d := by
  simp only [List.getD_eq_getElem?_getD, List.getElem?_drop]

theorem gD_replicate {α} (k i : Nat) (v d : α) : (List.replicate k v).getD i d = if i < k then v else d := by
  simp only [List.getD_eq_getElem?_getD, List.getElem?_replicate]
  split_ifs <;> rfl

theorem gD_map {α β} (f : α → β) (l : List α) (i : Nat) (d : α) (e : β) (h : i < l.length) : (l.map f).getD i e = f (l.getD i d) := by
  rw [List.getD_eq_getElem _ _ (by simpa using h), List.getD_eq_getElem _ _ h, List.getElem_map]

theorem gD_set {α} (l : List α) (k j : Nat) (x d : α) : (l.set k x).getD j d = if j = k ∧ k < l.length then x else l.getD j d := by
  simp only [List.getD_eq_getElem?_getD, List.getElem?_set]
  by_cases h : k = j
  · subst h
    by_cases h2 : k < l.length
    · simp [h2]
    · simp [h2, List.getElem?_eq_none (by omega : l.length ≤ k)]
  · rw [if_neg h, if_neg (fun a => h a.1.symm)]

/-- The form in which every operation is proved. -/
theorem refine_of {b r : BS w} (hl : r.blocks.length = blocksRequired w r.n) (L : List Bool) (hn : L.length = r.n)
    (h : ∀ i, bitAt r.blocks i = L.getD i false) : WF r ∧ bits r = L := by
  refine ⟨⟨hl, fun i hi => ?_⟩, bits_eq r L hn fun i _ => h i⟩
  rw [h, List.getD_eq_default _ _ (by omega)]

theorem wf_out (hw : 0 < w) {b : BS w} (hb : WF b) {i : Nat} (h : b.blocks.length ≤ i / w) : b.n ≤ i := by
  rcases Nat.lt_or_ge i b.n with h1 | h1
  · have := idx_lt hw hb h1
    omega
  · exact h1

/-! ### Construction -/

theorem empty_ref : WF (empty : BS w) ∧ bits (empty : BS w) = [] := by
  refine ⟨⟨?_, ?_⟩, rfl⟩
  · simp [empty, blocksRequired]
  · intro i _
    exact bitAt_out _ _ (Nat.zero_le _)

theorem zeros_bit (k i : Nat) : bitAt (List.replicate k (0 : BitVec w)) i = false := by
  unfold bitAt
  rw [gD_replicate]
  split_ifs <;> exact BitVec.getLsbD_zero

theorem foldl_set (F : Nat → BitVec w) (m : List (BitVec w)) (k : Nat) (hk : k ≤ m.length) :
    ((List.range k).foldl (fun l i => l.set i (F i)) m).length = m.length ∧
    ∀ j, ((List.range k).foldl (fun l i => l.set i (F i)) m).getD j 0 = if j < k then F j else m.getD j 0 := by
  induction k with
  | zero => exact ⟨rfl, fun j => by simp⟩
  | succ k ih =>
    obtain ⟨h1, h2⟩ := ih (by omega)
    rw [List.range_succ, List.foldl_append, List.foldl_cons, List.foldl_nil]
    refine ⟨by simp [h1], fun j => ?_⟩
    rw [getD_set, h2, h1]
    by_cases h : j = k
    · rw [if_pos ⟨h, by omega⟩, if_pos (by omega), h]
    · rw [if_neg (fun a => h a.1)]
      by_cases h3 : j < k
      · rw [if_pos h3, if_pos (by omega)]
      · rw [if_neg h3, if_neg (by omega)]

theorem mk_ref (hw : 0 < w) (hd : w ∣ 128) (nbits : Nat) (v : BitVec 128) :
    WF (mk nbits v : BS w) ∧ bits (mk nbits v : BS w) = (List.range nbits).map v.getLsbD := by
  have hL : ∀ i, ((List.range nbits).map v.getLsbD).getD i false = (decide (i < nbits) && v.getLsbD i) := by
    intro i
    by_cases h : i < nbits
    · rw [List.getD_eq_getElem _ _ (by simpa using h)]
      simp [h]
    · rw [List.getD_eq_default _ _ (by simpa using h)]
      simp [h]
  unfold mk
  by_cases h0 : nbits = 0 ∨ v = 0
  · rw [if_pos h0]
    refine refine_of (b := empty) (by simp) _ (by simp) fun i => ?_
    rw [hL, zeros_bit]
    rcases h0 with h0 | h0
    · simp [h0]
    · simp [h0]
  · rw [if_neg h0]
    obtain ⟨q, hq⟩ := hd
    have hq' : 128 / w = q := by rw [hq]; exact Nat.mul_div_cancel_left _ hw
    dsimp only
    rw [hq']
    have key : ∀ (bl : List (BitVec w)), bl.length = blocksRequired w nbits →
        (∀ i, i < nbits → bitAt bl i = v.getLsbD i) →
        WF (sanitize ⟨bl, nbits⟩) ∧ bits (sanitize ⟨bl, nbits⟩) = (List.range nbits).map v.getLsbD := by
      intro bl hl hb
      refine ⟨sanitize_wf hw _ hl, bits_eq _ _ (by rw [sanitize_n]; simp) fun i hi => ?_⟩
      rw [sanitize_n] at hi
      rw [sanitize_bit hw _ hl, hL]
      dsimp only at hi ⊢
      rw [hb i hi]
    have hle := req_le hw nbits
    have hpos : 0 < blocksRequired w nbits := by
      rcases Nat.eq_zero_or_pos (blocksRequired w nbits) with h | h
      · rw [h, Nat.zero_mul] at hle
        exact absurd (Nat.le_zero.mp hle) (fun a => h0 (Or.inl a))
      · exact h
    by_cases hq1 : q = 1
    · rw [if_pos hq1]
      have hw128 : w = 128 := by rw [hq1] at hq; omega
      refine key _ (by simp) fun i hi => ?_
      rw [bitAt_set _ _ _ _ (by simpa using hpos)]
      by_cases hi0 : i / w = 0
      · rw [if_pos hi0]
        have : i < w := by
          rcases Nat.lt_or_ge i w with h | h
          · exact h
          · have := Nat.div_pos h hw; omega
        rw [Nat.mod_eq_of_lt this, BitVec.getLsbD_setWidth]
        simp [this]
      · rw [if_neg hi0, zeros_bit]
        symm
        apply BitVec.getLsbD_of_ge
        rcases Nat.lt_or_ge i w with h | h
        · exact absurd (Nat.div_eq_of_lt h) hi0
        · omega
    · rw [if_neg hq1]
      have fs := foldl_set (fun i => ((v >>> (i * w)) &&& (oneBlock : BitVec w).setWidth 128).setWidth w)
        (List.replicate (blocksRequired w nbits) (0 : BitVec w)) (min (List.replicate (blocksRequired w nbits) (0 : BitVec w)).length q)
        (Nat.min_le_left _ _)
      refine key _ (by rw [fs.1]; simp) fun i hi => ?_
      unfold bitAt
      rw [fs.2]
      have hib : i / w < blocksRequired w nbits := (div_lt_req hw _ _).mpr (by omega)
      rw [List.length_replicate]
      have e1 := Nat.div_add_mod i w
      have hr := Nat.mod_lt i hw
      by_cases hk : i / w < q
      · rw [if_pos (by omega)]
        have hlt : i < 128 := by
          have : (i / w + 1) * w ≤ q * w := Nat.mul_le_mul_right w hk
          rw [Nat.add_mul, Nat.one_mul, Nat.mul_comm (i / w) w, Nat.mul_comm q w, ← hq] at this
          omega
        have hw128 : w ≤ 128 := by
          have : 0 < q := Nat.lt_of_le_of_lt (Nat.zero_le _) hk
          rw [hq]; exact Nat.le_mul_of_pos_right w this
        rw [BitVec.getLsbD_setWidth, BitVec.getLsbD_and, BitVec.getLsbD_setWidth, BitVec.getLsbD_ushiftRight, oneBlock_bit _ hr]
        have e : i / w * w + i % w = i := by rw [Nat.mul_comm]; exact e1
        rw [e]
        have : i % w < 128 := by omega
        simp [hr, this]
      · rw [if_neg (by omega), gD_replicate, if_pos hib]
        rw [BitVec.getLsbD_of_ge _ i]
        · exact BitVec.getLsbD_zero
        · have : q * w ≤ i / w * w := Nat.mul_le_mul_right w (by omega)
          rw [Nat.mul_comm q w, ← hq, Nat.mul_comm] at this
          omega

/-! ### Single bits and whole-set operations -/

theorem setBit_bit (hw : 0 < w) (v : Bool) (x : BitVec w) (pos r : Nat) (hr : r < w) :
    (if v = true then x ||| bitMask w pos else x &&& ~~~ bitMask w pos).getLsbD r = if r = pos % w then v else x.getLsbD r := by
  cases v
  · simp only [Bool.false_eq_true, if_false]
    rw [BitVec.getLsbD_and, BitVec.getLsbD_not, bitMask_bit hw _ _ hr]
    by_cases h : r = pos % w <;> simp [h]
    omega
  · simp only [if_true]
    rw [BitVec.getLsbD_or, bitMask_bit hw _ _ hr]
    by_cases h : r = pos % w <;> simp [h]

theorem set1_ref (hw : 0 < w) {b : BS w} (hb : WF b) (pos : Nat) (v : Bool) (h : pos < b.n) :
    ∃ r, set1 b pos v = some r ∧ WF r ∧ bits r = (bits b).set pos v := by
  unfold set1
  rw [if_pos h]
  refine ⟨_, rfl, refine_of (b := b) (by simp [modBlock_length, hb.len]) _ (by simp [bits_length]) fun i => ?_⟩
  have hr := Nat.mod_lt i hw
  dsimp only
  rw [bitAt_mod _ _ _ _ (idx_lt hw hb h), gD_set, bits_length, bitAt_getD b hb]
  by_cases hk : i / w = pos / w
  · rw [if_pos hk]
    have hbit : (b.blocks.getD (pos / w) 0).getLsbD (i % w) = bitAt b.blocks i := by unfold bitAt; rw [hk]
    rw [setBit_bit hw v _ _ _ hr, hbit]
    by_cases hp : i = pos
    · rw [if_pos (by rw [hp]), if_pos ⟨hp, h⟩]
    · rw [if_neg (fun he => hp ((pos_eq i pos).mp ⟨hk, he⟩)), if_neg (fun a => hp a.1)]
  · rw [if_neg hk, if_neg (fun a => hk (by rw [a.1]))]

theorem flip1_ref (hw : 0 < w) {b : BS w} (hb : WF b) (pos : Nat) (h : pos < b.n) :
    ∃ r, flip1 b pos = some r ∧ WF r ∧ bits r = (bits b).set pos (!(bits b).getD pos false) := by
  unfold flip1
  rw [if_pos h]
  refine ⟨_, rfl, refine_of (b := b) (by simp [modBlock_length, hb.len]) _ (by simp [bits_length]) fun i => ?_⟩
  have hr := Nat.mod_lt i hw
  dsimp only
  rw [bitAt_mod _ _ _ _ (idx_lt hw hb h), gD_set, bits_length, bitAt_getD b hb, bitAt_getD b hb]
  by_cases hk : i / w = pos / w
  · rw [if_pos hk]
    have hbit : (b.blocks.getD (pos / w) 0).getLsbD (i % w) = bitAt b.blocks i := by unfold bitAt; rw [hk]
    rw [BitVec.getLsbD_xor, bitMask_bit hw _ _ hr, hbit]
    by_cases hp : i = pos
    · rw [if_pos ⟨hp, h⟩]
      subst hp
      simp
    · rw [if_neg (fun a => hp a.1)]
      have hne : ¬ i % w = pos % w := fun he => hp ((pos_eq i pos).mp ⟨hk, he⟩)
      simp [hne]
  · rw [if_neg hk, if_neg (fun a => hk (by rw [a.1]))]

theorem resetAll_ref {b : BS w} (hb : WF b) : WF (resetAll b) ∧ bits (resetAll b) = List.replicate b.n false := by
  unfold resetAll
  refine refine_of (b := b) (by simp [hb.len]) _ (by simp) fun i => ?_
  dsimp only
  rw [gD_replicate, ite_self]
  by_cases h : i / w < b.blocks.length
  · rw [bitAt_map _ _ _ h]; exact BitVec.getLsbD_zero
  · exact bitAt_out _ _ (by simpa using h)

theorem setAll_ref (hw : 0 < w) {b : BS w} (hb : WF b) : WF (setAll b) ∧ bits (setAll b) = List.replicate b.n true := by
  unfold setAll
  have hl : (List.map (fun _ => (oneBlock : BitVec w)) b.blocks).length = blocksRequired w b.n := by simp [hb.len]
  refine ⟨sanitize_wf hw _ hl, bits_eq _ _ (by simp [sanitize_n]) fun i hi => ?_⟩
  rw [sanitize_n] at hi
  rw [sanitize_bit hw _ hl, gD_replicate, if_pos hi]
  dsimp only at hi ⊢
  rw [bitAt_map _ _ _ (idx_lt hw hb hi), oneBlock_bit _ (Nat.mod_lt i hw)]
  simp [hi]

theorem flipAll_ref (hw : 0 < w) {b : BS w} (hb : WF b) : WF (flipAll b) ∧ bits (flipAll b) = (bits b).map not := by
  unfold flipAll
  have hl : (List.map (fun x : BitVec w => ~~~ x) b.blocks).length = blocksRequired w b.n := by simp [hb.len]
  refine ⟨sanitize_wf hw _ hl, bits_eq _ _ (by simp [sanitize_n, bits_length]) fun i hi => ?_⟩
  rw [sanitize_n] at hi
  rw [sanitize_bit hw _ hl, gD_map _ _ _ false _ (by rw [bits_length]; exact hi), bitAt_getD b hb]
  dsimp only at hi ⊢
  rw [bitAt_map _ _ _ (idx_lt hw hb hi), BitVec.getLsbD_not]
  have := Nat.mod_lt i hw
  simp [hi, this, bitAt]

theorem clear_ref (b : BS w) : WF (clear b) ∧ bits (clear b) = [] := empty_ref

/-! ### Size changes -/

theorem resizeVec_length (l : List (BitVec w)) (k : Nat) (x : BitVec w) : (resizeVec l k x).length = k := by
  unfold resizeVec; simp; omega

theorem resizeVec_getD (l : List (BitVec w)) (k j : Nat) (x : BitVec w) (h : j < k) :
    (resizeVec l k x).getD j 0 = if j < l.length then l.getD j 0 else x := by
  unfold resizeVec
  rw [gD_append, gD_take, gD_replicate, List.length_take]
  by_cases h1 : j < l.length
  · rw [if_pos (by omega), if_pos h, if_pos h1]
  · rw [if_neg (by omega), if_pos (by omega), if_neg h1]

theorem req_mono (hw : 0 < w) {a b : Nat} (h : a ≤ b) : blocksRequired w a ≤ blocksRequired w b := by
  rcases Nat.lt_or_ge (blocksRequired w b) (blocksRequired w a) with h1 | h1
  · have h2 : (blocksRequired w b + 1) * w ≤ blocksRequired w a * w := Nat.mul_le_mul_right w h1
    rw [Nat.add_mul] at h2
    have := req_lt hw a
    have := req_le hw b
    omega
  · exact h1

/-- The last block and its bits, when the last block is not full. -/
theorem last_idx {b : BS w} (hb : WF b) (h : b.n % w > 0) : b.blocks.length = b.n / w + 1 := by
  rw [hb.len]; unfold blocksRequired; rw [if_pos h]

theorem full_idx {b : BS w} (hb : WF b) (h : ¬ b.n % w > 0) : b.blocks.length = b.n / w := by
  rw [hb.len]; unfold blocksRequired; rw [if_neg h, Nat.add_zero]

/-- A resize of the vector with fill `value` shows the old bits, then the fill above the old blocks. -/
theorem resize_ref (hw : 0 < w) {b : BS w} (hb : WF b) (nbits : Nat) (value : Bool) :
    WF (resize b nbits value) ∧
    bits (resize b nbits value) = (bits b).take nbits ++ List.replicate (nbits - b.n) value := by
  unfold resize
  by_cases h0 : nbits = b.n
  · rw [if_pos h0]
    refine ⟨hb, ?_⟩
    rw [h0, Nat.sub_self, List.replicate_zero, List.append_nil, List.take_of_length_le (by rw [bits_length])]
  · rw [if_neg h0]
    dsimp only
    -- the vector after the first step
    have hbl1 : ∃ l1 : List (BitVec w), l1 = (if blocksRequired w nbits ≠ b.blocks.length then
          resizeVec b.blocks (blocksRequired w nbits) (if value = true then oneBlock else 0) else b.blocks) ∧
        l1.length = blocksRequired w nbits ∧
        ∀ j, j < blocksRequired w nbits → l1.getD j 0 = if j < b.blocks.length then b.blocks.getD j 0 else (if value = true then oneBlock else 0) := by
      refine ⟨_, rfl, ?_, ?_⟩
      · by_cases h : blocksRequired w nbits ≠ b.blocks.length
        · rw [if_pos h]; exact resizeVec_length _ _ _
        · rw [if_neg h]; omega
      · intro j hj
        by_cases h : blocksRequired w nbits ≠ b.blocks.length
        · rw [if_pos h]; exact resizeVec_getD _ _ _ _ hj
        · rw [if_neg h, if_pos (by omega)]
    obtain ⟨l1, hl1, hlen, hget⟩ := hbl1
    rw [← hl1]
    have hfill : ∀ i, i % w < w → ((if value = true then oneBlock else 0 : BitVec w)).getLsbD (i % w) = value := by
      intro i hi
      cases value
      · simp
      · simp [oneBlock_bit _ hi]
    -- the bits of the vector before sanitising
    have main : ∀ l2 : List (BitVec w), l2.length = blocksRequired w nbits →
        (∀ i, i < nbits → bitAt l2 i = if i < b.n then bitAt b.blocks i else value) →
        WF (sanitize ⟨l2, nbits⟩) ∧ bits (sanitize ⟨l2, nbits⟩) = (bits b).take nbits ++ List.replicate (nbits - b.n) value := by
      intro l2 h1 h2
      refine ⟨sanitize_wf hw _ h1, bits_eq _ _ (by simp [sanitize_n, bits_length]; omega) fun i hi => ?_⟩
      rw [sanitize_n] at hi
      rw [sanitize_bit hw _ h1]
      dsimp only at hi ⊢
      rw [h2 i hi, gD_append, gD_take, gD_replicate, List.length_take, bits_length, bitAt_getD b hb]
      by_cases h3 : i < b.n
      · rw [if_pos h3, if_pos (by omega), if_pos hi]; simp [hi]
      · rw [if_neg h3, if_neg (by omega), if_pos (by omega)]; simp [hi]
    have base : ∀ i, i < nbits → bitAt l1 i = if i / w < b.blocks.length then bitAt b.blocks i else value := by
      intro i hi
      have hib : i / w < blocksRequired w nbits := (div_lt_req hw _ _).mpr (Nat.lt_of_lt_of_le hi (req_le hw _))
      unfold bitAt
      rw [hget _ hib]
      split_ifs with h1 h2
      · rfl
      · have := oneBlock_bit (i % w) (Nat.mod_lt i hw)
        rw [this, h2]
      · rw [BitVec.ofNat_eq_ofNat, BitVec.getLsbD_zero]
        cases value
        · rfl
        · exact absurd rfl h2
    by_cases hc : value = true ∧ nbits > b.n ∧ b.blocks.length > 0
    · rw [if_pos hc]
      obtain ⟨hv, hgt, hpos⟩ := hc
      by_cases he : b.n % w > 0
      · rw [if_pos he]
        have hli := last_idx hb he
        have hle : b.blocks.length ≤ blocksRequired w nbits := by rw [hb.len]; exact req_mono hw (by omega)
        refine main _ (by rw [modBlock_length, hlen]) fun i hi => ?_
        rw [bitAt_mod l1 (b.blocks.length - 1) i _ (by omega)]
        have hidx : b.blocks.length - 1 = b.n / w := by rw [hli]; exact Nat.add_sub_cancel _ _
        rw [hidx]
        have hr := Nat.mod_lt i hw
        have e1 := Nat.div_add_mod i w
        have e2 := Nat.div_add_mod b.n w
        by_cases hk : i / w = b.n / w
        · rw [if_pos hk]
          rw [hk] at e1
          have hbit : (l1.getD (b.n / w) 0).getLsbD (i % w) = bitAt b.blocks i := by
            have := base i hi
            unfold bitAt at this
            rw [hk, if_pos (by rw [hli]; exact Nat.lt_succ_self _)] at this
            rw [this]; unfold bitAt; rw [hk]
          rw [BitVec.getLsbD_or, hbit, BitVec.getLsbD_shiftLeft, hv]
          simp only [if_true]
          by_cases h3 : i < b.n
          · have : i % w < b.n % w := by omega
            rw [if_pos h3]; simp [this]
          · have : ¬ i % w < b.n % w := by omega
            rw [if_neg h3, oneBlock_bit _ (by omega)]; simp [this, hr]
        · rw [if_neg hk, base i hi]
          by_cases h3 : i < b.n
          · rw [if_pos h3, if_pos (idx_lt hw hb h3)]
          · rw [if_neg h3, if_neg]
            rw [hli]
            have := Nat.div_le_div_right (c := w) (by omega : b.n ≤ i)
            omega
      · rw [if_neg he]
        refine main _ hlen fun i hi => ?_
        rw [base i hi]
        by_cases h3 : i < b.n
        · rw [if_pos h3, if_pos (idx_lt hw hb h3)]
        · rw [if_neg h3, if_neg]
          rw [full_idx hb he]
          exact Nat.not_lt.mpr (Nat.div_le_div_right (c := w) (by omega : b.n ≤ i))
    · rw [if_neg hc]
      refine main _ hlen fun i hi => ?_
      rw [base i hi]
      by_cases h3 : i < b.n
      · rw [if_pos h3, if_pos (idx_lt hw hb h3)]
      · rw [if_neg h3]
        split_ifs with h4
        · have hvf : value = false := by
            cases value
            · rfl
            · exact absurd ⟨rfl, by omega, Nat.lt_of_le_of_lt (Nat.zero_le _) h4⟩ hc
          rw [hvf]
          exact hb.zero i (by omega)
        · rfl

theorem pushBack_ref (hw : 0 < w) {b : BS w} (hb : WF b) (v : Bool) :
    WF (pushBack b v) ∧ bits (pushBack b v) = bits b ++ [v] := by
  have hspec : ∀ i, (bits b ++ [v]).getD i false = if i = b.n then v else bitAt b.blocks i := by
    intro i
    rw [gD_append, bits_length, bitAt_getD b hb]
    by_cases h : i < b.n
    · rw [if_pos h, if_neg (by omega)]
    · rw [if_neg h]
      by_cases h2 : i = b.n
      · rw [if_pos h2, h2, Nat.sub_self]; rfl
      · rw [if_neg h2, hb.zero i (by omega)]
        exact List.getD_eq_default _ _ (by simp; omega)
  have hle := req_le hw b.n
  have hlt := req_lt hw b.n
  rw [← hb.len] at hle hlt
  unfold pushBack
  by_cases h : b.n + 1 ≤ b.blocks.length * w
  · rw [if_pos h]
    have hreq : b.blocks.length = blocksRequired w (b.n + 1) := req_unique hw _ _ h (by omega)
    have hidx : b.n / w < b.blocks.length := (Nat.div_lt_iff_lt_mul hw).mpr h
    cases v
    · simp only [Bool.false_eq_true, if_false]
      refine refine_of (b := b) hreq _ (by simp [bits_length]) fun i => ?_
      rw [hspec]
      dsimp only
      split_ifs with h2
      · rw [h2]; exact hb.zero _ (Nat.le_refl _)
      · rfl
    · simp only [if_true]
      refine refine_of (b := b) (by rw [modBlock_length]; exact hreq) _ (by simp [bits_length]) fun i => ?_
      rw [hspec]
      dsimp only
      rw [bitAt_mod _ _ _ _ hidx]
      have hr := Nat.mod_lt i hw
      by_cases hk : i / w = b.n / w
      · rw [if_pos hk, BitVec.getLsbD_or, bitMask_bit hw _ _ hr]
        have hbit : (b.blocks.getD (b.n / w) 0).getLsbD (i % w) = bitAt b.blocks i := by unfold bitAt; rw [hk]
        rw [hbit]
        by_cases h2 : i = b.n
        · rw [if_pos h2]; simp [h2]
        · rw [if_neg h2]
          have : ¬ i % w = b.n % w := fun he => h2 ((pos_eq i b.n).mp ⟨hk, he⟩)
          simp [this]
      · rw [if_neg hk, if_neg (fun a => hk (by rw [a]))]
  · rw [if_neg h]
    have heq : b.n = b.blocks.length * w := by omega
    refine refine_of (b := b) ?_ _ (by simp [bits_length]) fun i => ?_
    · simp only [List.length_append, List.length_cons, List.length_nil]
      exact req_unique hw _ _ (by rw [Nat.add_mul]; omega) (by rw [Nat.add_mul]; omega)
    · rw [hspec]
      dsimp only
      unfold bitAt
      rw [gD_append]
      by_cases h1 : i / w < b.blocks.length
      · rw [if_pos h1, if_neg]
        intro h2
        rw [h2, heq, Nat.mul_div_cancel _ hw] at h1
        exact Nat.lt_irrefl _ h1
      · rw [if_neg h1]
        have hr := Nat.mod_lt i hw
        have e1 := Nat.div_add_mod i w
        have hge : b.n ≤ i := wf_out hw hb (by omega)
        by_cases h2 : i / w = b.blocks.length
        · rw [h2, Nat.sub_self]
          have : w * b.blocks.length = b.n := by rw [Nat.mul_comm]; exact heq.symm
          rw [h2, this] at e1
          rw [List.getD_cons_zero]
          by_cases h3 : i = b.n
          · rw [if_pos h3]
            have : i % w = 0 := by omega
            rw [this]
            cases v
            · simp
            · simp [hw]
          · rw [if_neg h3]
            have : ¬ i % w = 0 := by omega
            have hb2 := hb.zero i hge
            unfold bitAt at hb2
            rw [← h2, hb2]
            cases v
            · simp
            · simp [this]
        · rw [List.getD_eq_default _ _ (by simp; omega), if_neg]
          · have hb2 := hb.zero i hge
            unfold bitAt at hb2
            rw [hb2]
            exact BitVec.getLsbD_zero
          · intro h3
            apply h2
            rw [h3, heq, Nat.mul_div_cancel _ hw]

theorem dropLast_getD {α} (l : List α) (i : Nat) (d : α) : l.dropLast.getD i d = if i < l.length - 1 then l.getD i d else d := by
  rw [List.dropLast_eq_take, gD_take]

theorem popBack_ref (hw : 0 < w) {b : BS w} (hb : WF b) : WF (popBack b) ∧ bits (popBack b) = (bits b).dropLast := by
  unfold popBack
  by_cases h0 : b.n = 0
  · rw [if_pos h0]
    refine ⟨hb, ?_⟩
    have : bits b = [] := List.eq_nil_of_length_eq_zero (by rw [bits_length, h0])
    rw [this]; rfl
  · rw [if_neg h0]
    have hle := req_le hw b.n
    have hlt := req_lt hw b.n
    have hle' := req_le hw (b.n - 1)
    have hlt' := req_lt hw (b.n - 1)
    rw [← hb.len] at hle hlt
    by_cases h : b.blocks.length > blocksRequired w (b.n - 1)
    · rw [if_pos h]
      have h1 : (blocksRequired w (b.n - 1) + 1) * w ≤ b.blocks.length * w := Nat.mul_le_mul_right w h
      rw [Nat.add_mul] at h1
      have hlen : b.blocks.length = blocksRequired w (b.n - 1) + 1 := by
        rcases Nat.lt_or_ge b.blocks.length (blocksRequired w (b.n - 1) + 2) with h2 | h2
        · omega
        · have h3 : (blocksRequired w (b.n - 1) + 2) * w ≤ b.blocks.length * w := Nat.mul_le_mul_right w h2
          rw [Nat.add_mul] at h3
          omega
      refine refine_of (b := b) (by simp [hlen]) _ (by simp [bits_length]) fun i => ?_
      dsimp only
      rw [dropLast_getD, bits_length, bitAt_getD b hb]
      unfold bitAt
      rw [dropLast_getD, hlen, Nat.add_sub_cancel]
      have heq : blocksRequired w (b.n - 1) * w = b.n - 1 := by omega
      by_cases h2 : i < b.n - 1
      · rw [if_pos h2, if_pos]
        rw [div_lt_req hw, heq]; exact h2
      · rw [if_neg h2, if_neg]
        · exact BitVec.getLsbD_zero
        · rw [div_lt_req hw, heq]; exact h2
    · rw [if_neg h]
      have hlen : b.blocks.length = blocksRequired w (b.n - 1) := by
        have : blocksRequired w (b.n - 1) ≤ b.blocks.length := by rw [hb.len]; exact req_mono hw (by omega)
        omega
      refine ⟨sanitize_wf hw _ hlen, bits_eq _ _ (by simp [sanitize_n, bits_length]) fun i hi => ?_⟩
      rw [sanitize_n] at hi
      rw [sanitize_bit hw _ hlen, dropLast_getD, bits_length, bitAt_getD b hb]
      dsimp only at hi ⊢
      rw [if_pos hi]
      simp [hi]

end Yacl.Bitset
