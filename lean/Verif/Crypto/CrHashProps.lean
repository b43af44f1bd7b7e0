import Verif.Crypto.CrHash

namespace Yacl.CrHash

theorem lo_bit (x : B) (i : Nat) : (lo x).getLsbD i = (decide (i < 64) && x.getLsbD i) := by
  unfold lo
  rw [BitVec.getLsbD_extractLsb', Nat.zero_add]

theorem hi_bit (x : B) (i : Nat) : (hi x).getLsbD i = (decide (i < 64) && x.getLsbD (64 + i)) := by
  unfold hi
  rw [BitVec.getLsbD_extractLsb']

theorem halves (x : B) : hi x ++ lo x = x := by
  apply BitVec.eq_of_getLsbD_eq
  intro i hi'
  rw [BitVec.getLsbD_append, lo_bit, hi_bit]
  by_cases h : i < 64
  · simp [h]
  · have : 64 + (i - 64) = i := by omega
    simp [h, this, show i - 64 < 64 by omega]

theorem lo_append (a b : BitVec 64) : lo (a ++ b) = b := by
  apply BitVec.eq_of_getLsbD_eq
  intro i hi'
  rw [lo_bit, BitVec.getLsbD_append]
  simp [hi']

theorem hi_append (a b : BitVec 64) : hi (a ++ b) = a := by
  apply BitVec.eq_of_getLsbD_eq
  intro i hi'
  rw [hi_bit, BitVec.getLsbD_append]
  simp [hi']

theorem ext_halves {x y : B} (h1 : lo x = lo y) (h2 : hi x = hi y) : x = y := by
  rw [← halves x, ← halves y, h1, h2]

theorem lo_xor (x y : B) : lo (x ^^^ y) = lo x ^^^ lo y := by
  apply BitVec.eq_of_getLsbD_eq
  intro i hi'
  rw [lo_bit, BitVec.getLsbD_xor, BitVec.getLsbD_xor, lo_bit, lo_bit]
  simp [hi']

theorem hi_xor (x y : B) : hi (x ^^^ y) = hi x ^^^ hi y := by
  apply BitVec.eq_of_getLsbD_eq
  intro i hi'
  rw [hi_bit, BitVec.getLsbD_xor, BitVec.getLsbD_xor, hi_bit, hi_bit]
  simp [hi']

theorem lane_bit (x : B) (i j : Nat) : (lane x i).getLsbD j = (decide (j < 32) && x.getLsbD (32 * i + j)) := by
  unfold lane
  rw [BitVec.getLsbD_extractLsb']

/-- The constant used exchanges the halves. -/
theorem shuffle_exchange (x : B) : shuffle x 0b01001110 = lo x ++ hi x := by
  have e : shuffle x 0b01001110 = lane x 1 ++ lane x 0 ++ lane x 3 ++ lane x 2 := rfl
  rw [e]
  apply BitVec.eq_of_getLsbD_eq
  intro i hi'
  rw [BitVec.getLsbD_append, BitVec.getLsbD_append, BitVec.getLsbD_append, BitVec.getLsbD_append, lo_bit, hi_bit,
    lane_bit, lane_bit, lane_bit, lane_bit]
  by_cases h1 : i < 32
  · simp [h1, show i < 64 by omega]
  · by_cases h2 : i < 64
    · have e1 : 32 * 3 + (i - 32) = 64 + i := by omega
      simp only [h1, h2, if_false, if_true, e1, show i - 32 < 32 by omega, decide_true, Bool.true_and]
    · by_cases h3 : i < 96
      · have e1 : 32 * 0 + (i - 32 - 32) = i - 64 := by omega
        simp only [h1, h2, if_false, if_true, show ¬ i - 32 < 32 by omega, e1, show i - 32 - 32 < 32 by omega, show i - 64 < 64 by omega]
      · have e1 : 32 * 1 + (i - 32 - 32 - 32) = i - 64 := by omega
        simp only [h1, h2, if_false, show ¬ i - 32 < 32 by omega, show ¬ i - 32 - 32 < 32 by omega, e1, show i - 32 - 32 - 32 < 32 by omega,
          show i - 64 < 64 by omega]

theorem lo_zero : lo 0 = 0 := rfl
theorem hi_zero : hi 0 = 0 := rfl

theorem sigmaBody_eq (x : B) : sigmaBody x = Sigma x := by
  unfold sigmaBody Sigma unpacklo
  rw [shuffle_exchange]
  apply ext_halves
  · rw [lo_xor, lo_append, lo_append, lo_append]
    exact BitVec.xor_comm _ _
  · rw [hi_xor, hi_append, hi_append, hi_append, lo_zero]
    exact BitVec.xor_zero

theorem sigma1_eq (x : B) : sigma1 x = lo x ++ 0#64 := by
  unfold sigma1 unpackhi
  rw [shuffle_exchange]
  apply ext_halves
  · rw [lo_xor, lo_append, lo_append, lo_append]
    exact BitVec.xor_self
  · rw [hi_xor, hi_append, hi_append, hi_append, hi_zero]
    exact BitVec.xor_zero

theorem zipWith_map (rp : B → B) (l : List B) : List.zipWith (· ^^^ ·) (l.map rp) l = l.map (crHash rp) := by
  induction l with
  | nil => rfl
  | cons a l ih => simp only [List.map_cons, List.zipWith_cons_cons, ih]; rfl

theorem splice_done (f : B → B) (buf : List B) (off n : Nat) (h : off + n ≤ buf.length) :
    splice buf off (((buf.drop off).take n).map f) = buf.take off ++ ((buf.drop off).take n).map f ++ buf.drop (off + n) := by
  unfold splice
  rw [List.length_map, List.length_take, List.length_drop, Nat.min_eq_left (by omega)]

/-- A loop that maps the span from `off` on, batch by batch. -/
theorem crLoop_eq (rp : B → B) (fuel off : Nat) (buf : List B) (h : off ≤ buf.length) (hf : buf.length < off + fuel * 1024) :
    crLoop rp fuel off buf = buf.take off ++ (buf.drop off).map (crHash rp) := by
  induction fuel generalizing off buf with
  | zero => omega
  | succ fuel ih =>
    unfold crLoop
    simp only
    by_cases h1 : off + 1024 ≤ buf.length
    · rw [if_pos h1, zipWith_map, splice_done _ _ _ _ h1]
      have hlen : (buf.take off ++ ((buf.drop off).take 1024).map (crHash rp)).length = off + 1024 := by
        simp only [List.length_append, List.length_take, List.length_map, List.length_drop]
        omega
      rw [ih _ _ (by rw [List.length_append, hlen]; omega) (by
        rw [List.length_append, hlen, List.length_drop]
        omega)]
      rw [List.take_left' hlen, List.drop_left' hlen, List.append_assoc, ← List.map_append]
      congr 2
      rw [← List.drop_drop, List.take_append_drop]
    · rw [if_neg h1]
      by_cases h2 : buf.length - off > 0
      · rw [if_pos h2, zipWith_map, splice_done _ _ _ _ (by omega), List.drop_eq_nil_of_le (show buf.length ≤ off + (buf.length - off) by omega), List.append_nil,
          List.take_of_length_le (l := buf.drop off) (by rw [List.length_drop]; exact Nat.le_refl _)]
      · rw [if_neg h2, List.drop_eq_nil_of_le (by omega), List.take_of_length_le (by omega)]
        simp

theorem crInplace_eq (rp : B → B) (x : List B) : crInplace rp x = x.map (crHash rp) := by
  unfold crInplace
  rw [crLoop_eq rp _ _ _ (by omega) (by omega)]
  simp

theorem sigmaInplace_eq (x : List B) (h : x.length < 2 ^ 32) : sigmaInplace x = x.map Sigma := by
  unfold sigmaInplace
  rw [Nat.mod_eq_of_lt h, List.take_length, List.drop_length, List.append_nil]
  exact List.map_congr_left fun a _ => sigmaBody_eq a

theorem ccrLoop_eq (rp : B → B) (fuel off : Nat) (buf : List B) (h : off ≤ buf.length) (hf : buf.length < off + fuel * 1024) :
    ccrLoop rp fuel off buf = buf.take off ++ (buf.drop off).map (Ccr rp) := by
  have hs : ∀ l : List B, l.length ≤ 1024 → crInplace rp (sigmaInplace l) = l.map (Ccr rp) := by
    intro l hl
    rw [crInplace_eq, sigmaInplace_eq l (by omega), List.map_map]
    rfl
  induction fuel generalizing off buf with
  | zero => omega
  | succ fuel ih =>
    unfold ccrLoop
    simp only
    by_cases h1 : off + 1024 < buf.length
    · rw [if_pos h1, hs _ (by rw [List.length_take]; omega), splice_done _ _ _ _ (by omega)]
      have hlen : (buf.take off ++ ((buf.drop off).take 1024).map (Ccr rp)).length = off + 1024 := by
        simp only [List.length_append, List.length_take, List.length_map, List.length_drop]
        omega
      rw [ih _ _ (by rw [List.length_append, hlen]; omega) (by
        rw [List.length_append, hlen, List.length_drop]
        omega)]
      rw [List.take_left' hlen, List.drop_left' hlen, List.append_assoc, ← List.map_append]
      congr 2
      rw [← List.drop_drop, List.take_append_drop]
    · rw [if_neg h1, hs _ (by rw [List.length_take]; omega), splice_done _ _ _ _ (by omega), List.drop_eq_nil_of_le (show buf.length ≤ off + (buf.length - off) by omega), List.append_nil,
          List.take_of_length_le (l := buf.drop off) (by rw [List.length_drop]; exact Nat.le_refl _)]

/-- C101, batch versions. Hashing many blocks, in place or not, for every number of blocks gives each block's own hash: `RP(x) ^ x` for the correlation-robust hash,
`RP(Sigma(x)) ^ Sigma(x)` with the documented `Sigma` for the circular one. The version that returns a new vector is limited to fewer than `2^32` blocks. -/
theorem C101_batch_partial (rp : B → B) (x : List B) :
    paraCrHash rp x = x.map (crHash rp) ∧ crInplace rp x = x.map (crHash rp) ∧ ccrInplace rp x = x.map (Ccr rp) ∧
      (x.length < 2 ^ 32 → paraCcrHash rp x = x.map (Ccr rp)) := by
  refine ⟨?_, crInplace_eq rp x, ?_, ?_⟩
  · unfold paraCrHash
    rw [List.zipWith_comm_of_comm (fun a b => BitVec.xor_comm a b)]
    exact zipWith_map rp x
  · unfold ccrInplace
    rw [ccrLoop_eq rp _ _ _ (by omega) (by omega)]
    simp
  · intro h
    unfold paraCcrHash sigmaN
    rw [crInplace_eq, Nat.mod_eq_of_lt h, List.take_length, List.map_map]
    apply List.map_congr_left
    intro a _
    simp only [Function.comp, sigmaBody_eq]
    rfl

/-- `Sigma` is a linear orthomorphism, as the security of the circular hash requires: it is linear, and both it and `x ↦ Sigma(x) ^ x` are permutations. -/
theorem C101_orthomorphism : (∀ x y, Sigma (x ^^^ y) = Sigma x ^^^ Sigma y) ∧ Function.Bijective Sigma ∧ Function.Bijective (fun x => Sigma x ^^^ x) := by
  refine ⟨?_, ⟨?_, ?_⟩, ⟨?_, ?_⟩⟩
  · intro x y
    unfold Sigma
    apply ext_halves
    · simp only [lo_append, lo_xor, hi_xor]
      ac_rfl
    · simp only [hi_append, lo_xor, hi_xor]
  · intro x y h
    unfold Sigma at h
    have h1 := congrArg hi h
    have h2 := congrArg lo h
    rw [hi_append, hi_append] at h1
    rw [lo_append, lo_append, h1, BitVec.xor_right_inj] at h2
    exact ext_halves h1 h2
  · intro y
    refine ⟨(lo y ^^^ hi y) ++ hi y, ?_⟩
    unfold Sigma
    apply ext_halves
    · rw [lo_append, lo_append, hi_append, BitVec.xor_comm (lo y), ← BitVec.xor_assoc, BitVec.xor_self]
      exact BitVec.zero_xor
    · rw [hi_append, lo_append]
  · intro x y h
    unfold Sigma at h
    have h1 := congrArg hi h
    have h2 := congrArg lo h
    simp only [hi_xor, lo_xor, hi_append, lo_append] at h1 h2
    have h3 : ∀ a b : BitVec 64, a ^^^ b ^^^ a = b := by
      intro a b
      rw [BitVec.xor_comm (a ^^^ b), ← BitVec.xor_assoc, BitVec.xor_self]
      exact BitVec.zero_xor
    rw [h3, h3] at h2
    rw [h2, BitVec.xor_left_inj] at h1
    exact ext_halves h1 h2
  · intro y
    refine ⟨lo y ++ (hi y ^^^ lo y), ?_⟩
    unfold Sigma
    apply ext_halves
    · simp only [hi_xor, lo_xor, hi_append, lo_append]
      rw [BitVec.xor_comm (hi y ^^^ lo y ^^^ lo y), ← BitVec.xor_assoc, BitVec.xor_self]
      exact BitVec.zero_xor
    · simp only [hi_xor, lo_xor, hi_append, lo_append]
      rw [BitVec.xor_assoc, BitVec.xor_self]
      exact BitVec.xor_zero

/-- The single-block version is wrong: it ignores half of the block. Blocks with the same low half have the same hash, whatever the permutation. -/
theorem C101_single_violated (rp : B → B) (x y : B) (h : lo x = lo y) : ccrHash rp x = ccrHash rp y := by
  unfold ccrHash
  rw [sigma1_eq, sigma1_eq, h]

/-- With an injective hash core the two versions agree on a block exactly when its two halves are equal. -/
theorem C101_mismatch_violated (rp : B → B) (hrp : Function.Injective (crHash rp)) (x : B) :
    paraCcrHash rp [x] = [ccrHash rp x] ↔ lo x = hi x := by
  rw [(C101_batch_partial rp [x]).2.2.2 (by simp)]
  simp only [List.map_cons, List.map_nil, List.cons.injEq, and_true]
  unfold ccrHash
  rw [sigma1_eq]
  constructor
  · intro h
    have h := hrp (show crHash rp (Sigma x) = crHash rp (lo x ++ 0#64) from h)
    have h2 := congrArg lo h
    unfold Sigma at h2
    rw [lo_append, lo_append] at h2
    have h3 : lo x ^^^ hi x ^^^ hi x = 0#64 ^^^ hi x := by rw [h2]
    rw [BitVec.xor_assoc, BitVec.xor_self] at h3
    simpa using h3
  · intro h
    have : Sigma x = lo x ++ 0#64 := by
      unfold Sigma
      rw [← h, BitVec.xor_self]
    unfold Ccr crHash
    rw [this]

/-- From `2^32` blocks on the returned vector is shorter than the input. -/
theorem C101_truncated_violated (rp : B → B) (x : List B) (h : 2 ^ 32 ≤ x.length) : (paraCcrHash rp x).length < x.length := by
  unfold paraCcrHash sigmaN
  rw [crInplace_eq, List.length_map, List.length_map, List.length_take]
  have := Nat.mod_lt x.length (show 0 < 2 ^ 32 by omega)
  omega

/-- Two blocks that differ and collide; a function whose hash core is injective (a constant in place of AES). -/
example : (1#128 <<< 64) ≠ (0 : B) ∧ lo (1#128 <<< 64) = lo 0 := by decide
example : Function.Injective (crHash fun _ => 5#128) := by
  intro x y h
  exact (BitVec.xor_right_inj _).mp h

end Yacl.CrHash
