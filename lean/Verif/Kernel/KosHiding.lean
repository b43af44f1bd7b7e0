import Verif.Kernel.OtExt
import Mathlib.Data.Fintype.EquivFin
import Mathlib.Algebra.BigOperators.Group.Finset.Basic

/-!
# C75: what the masking choices of KOS would hide

`C75_violated` shows that the 64 masking choices of the code are constant.  Here: were
they drawn at random, the check message would say nothing about the choices, whenever
the challenge does not happen to be degenerate.
-/

namespace Yacl.OtExt

theorem getD_zipWith_xor (l l' : List Bool) (h : l.length = l'.length) (i : Nat) :
    (l.zipWith xor l').getD i false = xor (l.getD i false) (l'.getD i false) := by
  rw [List.getD_eq_getElem?_getD, List.getD_eq_getElem?_getD, List.getD_eq_getElem?_getD, List.getElem?_zipWith]
  rcases Nat.lt_or_ge i l.length with hi | hi
  · rw [List.getElem?_eq_getElem hi, List.getElem?_eq_getElem (by omega)]
    rfl
  · rw [List.getElem?_eq_none hi, List.getElem?_eq_none (by omega)]
    rfl

theorem choiceWord_xor (l l' : List Bool) (h : l.length = l'.length) (i : Nat) :
    choiceWord (l.zipWith xor l') i = choiceWord l i ^^^ choiceWord l' i := by
  apply BitVec.eq_of_getLsbD_eq
  intro j hj
  unfold choiceWord
  rw [BitVec.getLsbD_xor, word_bit _ j hj, word_bit _ j hj, word_bit _ j hj, getD_zipWith_xor l l' h]

/-- The first part of the check message. -/
theorem check_add (len : Nat) (chi : List (BitVec 64)) (hchi : chi.length = 2 * len) (l l' : List Bool)
    (h : l.length = l'.length) :
    ∃ a b, Gf.gf64MulSpan chi (words64 (choiceWord l) len) = some a ∧
      Gf.gf64MulSpan chi (words64 (choiceWord l') len) = some b ∧
      Gf.gf64MulSpan chi (words64 (choiceWord (l.zipWith xor l')) len) = some (a ^^^ b) := by
  have e : choiceWord (l.zipWith xor l') = fun i => choiceWord l i ^^^ choiceWord l' i :=
    funext fun i => choiceWord_xor l l' h i
  rw [e, words64_xor]
  exact span_linear chi _ _ (by rw [words64_length, hchi]) (by rw [words64_length, hchi])

theorem zipWith_xor_self (l : List Bool) : l.zipWith xor l = List.replicate l.length false := by
  induction l with
  | nil => rfl
  | cons b l ih => simp [List.replicate_succ, ih]

theorem zipWith_xor_zero (l : List Bool) : l.zipWith xor (List.replicate l.length false) = l := by
  induction l with
  | nil => rfl
  | cons b l ih => simp [List.replicate_succ, ih]

theorem zero_zipWith_xor (l : List Bool) : (List.replicate l.length false).zipWith xor l = l := by
  induction l with
  | nil => rfl
  | cons b l ih => simp [List.replicate_succ, ih]

theorem xor_eq_zero : ∀ (l l' : List Bool), l.length = l'.length →
    l.zipWith xor l' = List.replicate l.length false → l = l'
  | [], [], _, _ => rfl
  | b :: l, c :: l', h, h' => by
    simp only [List.zipWith_cons_cons, List.length_cons, List.replicate_succ, List.cons.injEq] at h'
    rw [xor_eq_zero l l' (by simpa using h) h'.2]
    have := h'.1
    cases b <;> cases c <;> simp_all

/-- The bits of a word. -/
def bits64 (v : BitVec 64) : List Bool := (List.range 64).map v.getLsbD

theorem bits64_xor (v w : BitVec 64) : bits64 (v ^^^ w) = (bits64 v).zipWith xor (bits64 w) := by
  unfold bits64
  rw [List.zipWith_map, List.zipWith_self]
  simp

theorem bits64_inj {v w : BitVec 64} (h : bits64 v = bits64 w) : v = w := by
  apply BitVec.eq_of_getLsbD_eq
  intro j hj
  have := congrArg (fun l => l[j]?) h
  simpa [bits64, hj] using this

/-- The challenge is not degenerate: for no masking choices but zero are they, as choices on their own, invisible. -/
def Good (n len : Nat) (chi : List (BitVec 64)) : Prop :=
  ∀ r : List Bool, r.length = 64 →
    Gf.gf64MulSpan chi (words64 (choiceWord (extendChoice (List.replicate n false) r)) len) = some 0 →
    r = List.replicate 64 false

theorem ext_xor (c c' r r' : List Bool) (h : c.length = c'.length) (hr : r.length = 64) (hr' : r'.length = 64) :
    (extendChoice c r).zipWith xor (extendChoice c' r') = extendChoice (c.zipWith xor c') (r.zipWith xor r') := by
  unfold extendChoice
  rw [List.take_of_length_le (by omega), List.take_of_length_le (by omega), List.take_of_length_le (by simp; omega),
    List.zipWith_append h]

theorem ext_length (c r : List Bool) (hr : r.length = 64) : (extendChoice c r).length = c.length + 64 := by
  unfold extendChoice
  simp [hr]

theorem surj (n len : Nat) (chi : List (BitVec 64)) (hchi : chi.length = 2 * len) (hg : Good n len chi) (a : BitVec 64) :
    ∃ r : List Bool, r.length = 64 ∧
      Gf.gf64MulSpan chi (words64 (choiceWord (extendChoice (List.replicate n false) r)) len) = some a := by
  have hf : ∀ v : BitVec 64, ∃ x, Gf.gf64MulSpan chi
      (words64 (choiceWord (extendChoice (List.replicate n false) (bits64 v))) len) = some x := fun v => by
    obtain ⟨x, _, h, _⟩ := check_add len chi hchi (extendChoice (List.replicate n false) (bits64 v)) _ rfl
    exact ⟨x, h⟩
  choose f hf using hf
  have hinj : Function.Injective f := by
    intro v w hvw
    have hl : ∀ v, (bits64 v).length = 64 := fun v => by simp [bits64]
    obtain ⟨x, y, hx, hy, hxy⟩ := check_add len chi hchi (extendChoice (List.replicate n false) (bits64 v))
      (extendChoice (List.replicate n false) (bits64 w)) (by rw [ext_length _ _ (hl v), ext_length _ _ (hl w)])
    rw [ext_xor _ _ _ _ rfl (hl v) (hl w), zipWith_xor_self, List.length_replicate, ← bits64_xor] at hxy
    rw [hf] at hx hy
    cases hx; cases hy
    rw [hvw, BitVec.xor_self] at hxy
    have hz := hg _ (hl _) hxy
    rw [bits64_xor] at hz
    exact bits64_inj (xor_eq_zero _ _ (by rw [hl, hl]) (by rw [hz, hl]))
  have hfin : Finite (BitVec 64) :=
    Finite.of_injective (fun v : BitVec 64 => v.toFin) (fun v w h => BitVec.eq_of_toFin_eq h)
  obtain ⟨v, hv⟩ := (Finite.injective_iff_surjective.1 hinj) a
  exact ⟨bits64 v, by simp [bits64], by rw [hf, hv]⟩

/-- C75, in part.  For every challenge that is not degenerate, all base OTs, any two choice vectors of the same length and all
masking choices, exactly one other set of masking choices makes the check message the same for the other choice vector: with
random masking choices every check message is as likely for the one as for the other.  (Missing: the code's masking choices are
not random.) -/
theorem C75_hides_partial (prg : Prg) (b : Base) (len : Nat) (chi : List (BitVec 64)) (hchi : chi.length = 2 * len)
    (c c' : List Bool) (h : c.length = c'.length) (hg : Good c.length len chi) (r : List Bool) (hr : r.length = 64) :
    ∃! r' : List Bool, r'.length = 64 ∧
      kosCheckMsg prg b len (extendChoice c' r') chi = kosCheckMsg prg b len (extendChoice c r) chi := by
  have hz : (List.replicate 64 false : List Bool).length = 64 := by simp
  obtain ⟨a, _, ha, _⟩ := check_add len chi hchi (extendChoice c r) _ rfl
  obtain ⟨d, _, hd, _⟩ := check_add len chi hchi (extendChoice c' (List.replicate 64 false)) _ rfl
  obtain ⟨r', hr', hx⟩ := surj c.length len chi hchi hg (d ^^^ a)
  have hzz : (List.replicate 64 false).zipWith xor r' = r' := by
    have := zero_zipWith_xor r'
    rwa [hr'] at this
  refine ⟨r', ⟨hr', ?_⟩, ?_⟩
  · obtain ⟨x, y, h1, h2, h3⟩ := check_add len chi hchi (extendChoice c' (List.replicate 64 false))
      (extendChoice (List.replicate c.length false) r') (by rw [ext_length _ _ hz, ext_length _ _ hr']; simp [h])
    rw [hd] at h1
    rw [hx] at h2
    cases h1; cases h2
    rw [ext_xor _ _ _ _ (by simp [h]) hz hr', h, zipWith_xor_zero, hzz, ← BitVec.xor_assoc,
      BitVec.xor_self, BitVec.zero_xor] at h3
    unfold kosCheckMsg
    rw [h3, ha]
  · rintro s ⟨hs, he⟩
    have he := congrArg Prod.fst he
    unfold kosCheckMsg at he
    obtain ⟨x, y, h1, h2, h3⟩ := check_add len chi hchi (extendChoice c' (List.replicate 64 false))
      (extendChoice (List.replicate c.length false) r') (by rw [ext_length _ _ hz, ext_length _ _ hr']; simp [h])
    rw [hd] at h1
    rw [hx] at h2
    cases h1; cases h2
    rw [ext_xor _ _ _ _ (by simp [h]) hz hr', h, zipWith_xor_zero, hzz, ← BitVec.xor_assoc,
      BitVec.xor_self, BitVec.zero_xor] at h3
    obtain ⟨x, y, h4, h5, h6⟩ := check_add len chi hchi (extendChoice c' s) (extendChoice c' r')
      (by rw [ext_length _ _ hs, ext_length _ _ hr'])
    rw [h3] at h5
    rw [show Gf.gf64MulSpan chi (words64 (choiceWord (extendChoice c' s)) len) = some a from he.trans ha] at h4
    cases h4; cases h5
    rw [ext_xor _ _ _ _ rfl hs hr', zipWith_xor_self, ← h, BitVec.xor_self] at h6
    have := hg _ (by simp [hs, hr']) h6
    exact xor_eq_zero s r' (by rw [hs, hr']) (by rw [this, hs])

/-! ### Degenerate challenges -/

theorem sum_zip (c y : List (BitVec 64)) (h : c.length = y.length) :
    ((c.zip y).map fun p => Gf.val64 p.1 * Gf.val64 p.2).sum =
      ∑ i ∈ Finset.range c.length, Gf.val64 (c.getD i 0) * Gf.val64 (y.getD i 0) := by
  induction c generalizing y with
  | nil => simp
  | cons a c ih =>
    cases y with
    | nil => simp at h
    | cons b y =>
      rw [List.zip_cons_cons, List.map_cons, List.sum_cons, ih y (by simpa using h), List.length_cons,
        Finset.sum_range_succ', add_comm]
      rfl

theorem words64_getD (f : Nat → B) (n i : Nat) (hi : i < 2 * n) :
    (words64 f n).getD i 0 = if i % 2 = 0 then Gf.lo (f (i / 2)) else Gf.hi (f (i / 2)) := by
  induction n with
  | zero => omega
  | succ n ih =>
    have e : words64 f (n + 1) = words64 f n ++ [Gf.lo (f n), Gf.hi (f n)] := by
      unfold words64
      rw [List.range_succ, List.flatMap_append]
      simp
    rw [e, List.getD_eq_getElem?_getD]
    rcases Nat.lt_or_ge i (2 * n) with h | h
    · rw [List.getElem?_append_left (by rw [words64_length]; omega), ← List.getD_eq_getElem?_getD, ih h]
    · rw [List.getElem?_append_right (by rw [words64_length]; omega), words64_length]
      rcases Nat.lt_or_ge i (2 * n + 1) with h' | h'
      · obtain rfl : i = 2 * n := by omega
        rw [if_pos (by omega), show 2 * n / 2 = n by omega]
        simp
      · obtain rfl : i = 2 * n + 1 := by omega
        rw [if_neg (by omega), show (2 * n + 1) / 2 = n by omega]
        simp

theorem words64_bit (l : List Bool) (n i j : Nat) (hi : i < 2 * n) (hj : j < 64) :
    ((words64 (choiceWord l) n).getD i 0).getLsbD j = l.getD (64 * i + j) false := by
  rw [words64_getD _ n i hi]
  split_ifs with h
  · simp only [Gf.lo, BitVec.getLsbD_extractLsb', hj, decide_true, Bool.true_and]
    rw [choiceWord, word_bit _ _ (by omega)]
    congr 1
    omega
  · simp only [Gf.hi, BitVec.getLsbD_extractLsb', hj, decide_true, Bool.true_and]
    rw [choiceWord, word_bit _ _ (by omega)]
    congr 1
    omega

/-- C75.  When the number of choices is a multiple of 64, a challenge is not degenerate exactly if the word that meets the
masking choices is not zero. -/
theorem C75_good (q len : Nat) (chi : List (BitVec 64)) (hchi : chi.length = 2 * len) (hq : q < 2 * len) :
    Good (64 * q) len chi ↔ chi.getD q 0 ≠ 0 := by
  have hbit : ∀ (r : List Bool), r.length = 64 → ∀ i j, i < 2 * len → j < 64 →
      ((words64 (choiceWord (extendChoice (List.replicate (64 * q) false) r)) len).getD i 0).getLsbD j =
        if i = q then r.getD j false else false := by
    intro r hr i j hi hj
    rw [words64_bit _ _ _ _ hi hj]
    unfold extendChoice
    rw [List.take_of_length_le (by omega), List.getD_eq_getElem?_getD]
    split_ifs with h
    · subst h
      rw [List.getElem?_append_right (by simp), List.length_replicate, Nat.add_sub_cancel_left, List.getD_eq_getElem?_getD]
    · rcases Nat.lt_or_ge i q with h' | h'
      · rw [List.getElem?_append_left (by simp; omega), List.getElem?_replicate, if_pos (by omega)]
        rfl
      · rw [List.getElem?_append_right (by simp; omega), List.getElem?_eq_none (by simp; omega)]
        rfl
  have hval : ∀ (r : List Bool), r.length = 64 → ∃ w z, (∀ j, j < 64 → w.getLsbD j = r.getD j false) ∧
      Gf.gf64MulSpan chi (words64 (choiceWord (extendChoice (List.replicate (64 * q) false) r)) len) = some z ∧
      Gf.val64 z = Gf.val64 (chi.getD q 0) * Gf.val64 w := by
    intro r hr
    obtain ⟨z, hz, hv⟩ := span_val chi (words64 (choiceWord (extendChoice (List.replicate (64 * q) false) r)) len)
      (by rw [words64_length, hchi])
    refine ⟨_, z, fun j hj => by rw [hbit r hr q j hq hj, if_pos rfl], hz, ?_⟩
    rw [hv, sum_zip _ _ (by rw [words64_length, hchi]), Finset.sum_eq_single q]
    · intro i hi hne
      have hi := Finset.mem_range.1 hi
      have : (words64 (choiceWord (extendChoice (List.replicate (64 * q) false) r)) len).getD i 0 = 0 := by
        apply BitVec.eq_of_getLsbD_eq
        intro j hj
        rw [hbit r hr i j (by omega) hj, if_neg hne]
        simp
      rw [this, Gf.val64_zero, mul_zero]
    · intro h
      exact absurd (Finset.mem_range.2 (by omega)) h
  constructor
  · intro hg h0
    obtain ⟨w, z, _, hz, hv⟩ := hval (List.replicate 64 true) (by simp)
    rw [h0, Gf.val64_zero, zero_mul, ← Gf.val64_zero] at hv
    rw [Gf.val64_inj hv] at hz
    have := hg _ (by simp) hz
    simp [List.replicate_succ] at this
  · intro h0 r hr hx
    obtain ⟨w, z, hw, hz, hv⟩ := hval r hr
    rw [hx] at hz
    cases hz
    rw [Gf.val64_zero] at hv
    have : Fact (Irreducible Gf.f64) := ⟨Gf.C59_irreducible64⟩
    rcases mul_eq_zero.1 hv.symm with h | h
    · exact absurd (Gf.val64_inj (h.trans Gf.val64_zero.symm)) h0
    · have hw0 := Gf.val64_inj (h.trans Gf.val64_zero.symm)
      apply List.ext_getElem (by simp [hr])
      intro j h1 h2
      have := hw j (by omega)
      rw [hw0, List.getD_eq_getElem?_getD, List.getElem?_eq_getElem h1] at this
      rw [List.getElem_replicate]
      simpa using this.symm

/-- 64 choices, so the second word of the challenge counts. -/
example : Good (64 * 1) 1 [3, 5] := (C75_good 1 1 [3, 5] rfl (by omega)).2 (by decide)

end Yacl.OtExt
