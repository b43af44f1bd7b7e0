import Verif.Kernel.Softspoken

/-! C98: SoftSpoken OT extension. -/
namespace Yacl.Softspoken
open Yacl.Ggm (B Base xsum)
open Yacl.OtExt (word choiceWord extendChoice Junk OtCorrect Correlated)
open Yacl.Matrix (Mat matrixTranspose128)

/-! ### XorReduce -/

theorem inner_fold (stride i : Nat) (a : Nat → B) (n : Nat) (hn : n ≤ stride) (pos : Nat) :
    (List.range n).foldl (fun (a : Nat → B) j => Function.update a (i + j) (a (i + j) ^^^ a (i + j + stride))) a pos =
      if i ≤ pos ∧ pos < i + n then a pos ^^^ a (pos + stride) else a pos := by
  induction n generalizing pos with
  | zero => simp
  | succ n ih =>
    rw [List.range_succ, List.foldl_append, List.foldl_cons, List.foldl_nil, Function.update_apply, ih (by omega), ih (by omega), ih (by omega)]
    by_cases h : pos = i + n
    · subst h
      rw [if_pos rfl, if_neg (by omega), if_neg (by omega), if_pos (by omega)]
    · rw [if_neg h]
      by_cases h2 : i ≤ pos ∧ pos < i + n
      · rw [if_pos h2, if_pos (by omega)]
      · rw [if_neg h2, if_neg (by omega)]

theorem block_eq (depth stride i : Nat) (hd : depth ≤ stride) (h0 : 0 < depth) (a : Nat → B) (pos : Nat) :
    xrBlock depth stride i a pos =
      if i ≤ pos ∧ pos < i + depth then a pos ^^^ a (pos + stride) else if pos = i + depth then a (i + stride) else a pos := by
  unfold xrBlock
  simp only [Function.update_apply]
  rw [inner_fold stride i a depth hd, inner_fold stride i a depth hd]
  by_cases h : pos = i + depth
  · subst h
    rw [if_pos rfl, if_neg (by omega), if_neg (by omega), if_pos rfl]
  · rw [if_neg h, if_neg h]

theorem div_of {m s p : Nat} (h1 : m * s ≤ p) (h2 : p < m * s + s) : p / s = m :=
  Nat.div_eq_of_lt_le h1 (by rw [Nat.succ_mul]; exact h2)

theorem depth_fold (depth stride : Nat) (hd : depth ≤ stride) (h0 : 0 < depth) (a : Nat → B) (m pos : Nat) :
    (List.range m).foldl (fun a b => xrBlock depth stride (b * (2 * stride)) a) a pos =
      if pos / (2 * stride) < m then xrBlock depth stride (pos / (2 * stride) * (2 * stride)) a pos else a pos := by
  induction m generalizing pos with
  | zero => simp
  | succ m ih =>
    have hs : 0 < 2 * stride := by omega
    have hdm := Nat.div_add_mod pos (2 * stride)
    have hml := Nat.mod_lt pos hs
    rw [List.range_succ, List.foldl_append, List.foldl_cons, List.foldl_nil, block_eq _ _ _ hd h0]
    have hcomm : 2 * stride * (pos / (2 * stride)) = pos / (2 * stride) * (2 * stride) := Nat.mul_comm _ _
    by_cases h : pos / (2 * stride) = m
    · rw [if_pos (by omega : pos / (2 * stride) < m + 1), block_eq _ _ _ hd h0]
      have q1 : ∀ p, p / (2 * stride) = m → (List.range m).foldl (fun a b => xrBlock depth stride (b * (2 * stride)) a) a p = a p := by
        intro p hp
        rw [ih, if_neg (by omega)]
      rw [h] at hdm hcomm ⊢
      by_cases h1 : m * (2 * stride) ≤ pos ∧ pos < m * (2 * stride) + depth
      · rw [if_pos h1, if_pos h1, q1 _ h, q1]
        exact div_of (by omega) (by omega)
      · rw [if_neg h1, if_neg h1, q1 _ h, q1 _ (div_of (by omega) (by omega))]
    · have hne : ¬ (m * (2 * stride) ≤ pos ∧ pos < m * (2 * stride) + 2 * stride) := by
        rintro ⟨ha, hb⟩
        exact h (div_of ha hb)
      rw [if_neg (by omega), if_neg (by omega), ih]
      by_cases h2 : pos / (2 * stride) < m
      · rw [if_pos h2, if_pos (by omega)]
      · rw [if_neg h2, if_neg (by omega)]

theorem le_stride (d : Nat) : d + 1 ≤ 2 ^ d := Nat.lt_two_pow_self

theorem depth_eq (size d : Nat) (a : Nat → B) (b : Nat) (hb : (b + 1) * 2 ^ (d + 1) ≤ size) (x : Nat) (hx : x < 2 ^ (d + 1)) :
    xrDepth size (d + 1) a (b * 2 ^ (d + 1) + x) =
      if x < d + 1 then a (b * 2 ^ (d + 1) + x) ^^^ a (b * 2 ^ (d + 1) + x + 2 ^ d) else if x = d + 1 then a (b * 2 ^ (d + 1) + 2 ^ d)
      else a (b * 2 ^ (d + 1) + x) := by
  have hp : 2 ^ (d + 1) = 2 * 2 ^ d := by rw [Nat.pow_succ]; omega
  have hq : (b * (2 * 2 ^ d) + x) / (2 * 2 ^ d) = b := by
    rw [hp] at hx
    exact div_of (by omega) (by omega)
  unfold xrDepth
  simp only [Nat.add_sub_cancel]
  rw [depth_fold _ _ (le_stride d) (by omega), hp, hq, block_eq _ _ _ (le_stride d) (by omega), if_pos]
  · by_cases h1 : x < d + 1
    · rw [if_pos (by omega), if_pos h1]
    · rw [if_neg (by omega), if_neg h1]
      by_cases h2 : x = d + 1
      · rw [if_pos (by omega), if_pos h2]
      · rw [if_neg (by omega), if_neg h2]
  · rw [hp] at hb
    rw [Nat.lt_div_iff_mul_lt (by have := le_stride d; omega)]
    have : (b + 1) * (2 * 2 ^ d) = b * (2 * 2 ^ d) + 2 * 2 ^ d := Nat.succ_mul _ _
    have h3 : b * (2 * 2 ^ d) = 2 * 2 ^ d * b := Nat.mul_comm _ _
    have h4 := le_stride d
    omega

/-- What the reduction computes: entry 0 of every block is the sum of the block, entry `1 + j` the sum of the elements whose index has bit `j`. -/
def Reduced (d size : Nat) (a0 a : Nat → B) : Prop :=
  ∀ b, (b + 1) * 2 ^ d ≤ size →
    a (b * 2 ^ d) = xsum (fun x => a0 (b * 2 ^ d + x)) (2 ^ d) ∧
    ∀ j < d, a (b * 2 ^ d + 1 + j) = xsum (fun x => if x.testBit j then a0 (b * 2 ^ d + x) else 0) (2 ^ d)

theorem reduced_step (d size : Nat) (a0 a : Nat → B) (h : Reduced d size a0 a) : Reduced (d + 1) size a0 (xrDepth size (d + 1) a) := by
  intro b hb
  have hp : 2 ^ (d + 1) = 2 ^ d + 2 ^ d := by rw [Nat.pow_succ]; omega
  have hpos : 0 < 2 ^ d := Nat.two_pow_pos d
  have hbig := le_stride d
  have e0 : 2 * b * 2 ^ d = b * 2 ^ (d + 1) := by rw [Nat.pow_succ]; ring
  have e1 : (2 * b + 1) * 2 ^ d = b * 2 ^ (d + 1) + 2 ^ d := by rw [Nat.pow_succ]; ring
  have s0 : (2 * b + 1) * 2 ^ d ≤ size := by
    rw [e1]
    rw [Nat.succ_mul] at hb
    omega
  have s1 : (2 * b + 1 + 1) * 2 ^ d ≤ size := by
    rw [Nat.succ_mul, e1]
    rw [Nat.succ_mul] at hb
    omega
  obtain ⟨l0, l1⟩ := h (2 * b) s0
  obtain ⟨r0, r1⟩ := h (2 * b + 1) s1
  rw [e0] at l0 l1
  rw [e1] at r0 r1
  constructor
  · have := depth_eq size d a b hb 0 (by omega)
    rw [if_pos (by omega)] at this
    simp only [Nat.add_zero] at this
    rw [this, l0, r0]
    conv_rhs => rw [show xsum (fun x => a0 (b * 2 ^ (d + 1) + x)) (2 ^ (d + 1)) = xsum (fun x => a0 (b * 2 ^ (d + 1) + x)) (2 ^ d + 2 ^ d) from congrArg _ hp, Ggm.xsum_add]
    congr 1
    apply Ggm.xsum_congr
    intro x _
    congr 1
    omega
  · intro j hj
    have hlt : 1 + j < 2 ^ (d + 1) := by omega
    have hde := depth_eq size d a b hb (1 + j) hlt
    rw [← Nat.add_assoc] at hde
    rw [hde]
    conv_rhs => rw [show xsum (fun x => if x.testBit j then a0 (b * 2 ^ (d + 1) + x) else 0) (2 ^ (d + 1)) =
      xsum (fun x => if x.testBit j then a0 (b * 2 ^ (d + 1) + x) else 0) (2 ^ d + 2 ^ d) from congrArg _ hp, Ggm.xsum_add]
    by_cases hj2 : j < d
    · rw [if_pos (by omega), l1 j hj2, show b * 2 ^ (d + 1) + 1 + j + 2 ^ d = b * 2 ^ (d + 1) + 2 ^ d + 1 + j by omega, r1 j hj2]
      congr 1
      apply Ggm.xsum_congr
      intro x _
      have : (2 ^ d + x).testBit j = x.testBit j := Nat.testBit_two_pow_add_gt hj2 x
      rw [this, Nat.add_assoc]
    · have : j = d := by omega
      subst this
      rw [if_neg (by omega), if_pos (by omega), r0]
      have z : xsum (fun x => if x.testBit j then a0 (b * 2 ^ (j + 1) + x) else 0) (2 ^ j) = 0 := by
        refine Eq.trans ?_ (Ggm.xsum_zero (2 ^ j))
        apply Ggm.xsum_congr
        intro x hx
        rw [Nat.testBit_lt_two_pow hx]
        rfl
      rw [z]
      refine Eq.trans ?_ (BitVec.zero_xor).symm
      apply Ggm.xsum_congr
      intro x hx
      have : (2 ^ j + x).testBit j = true := by rw [Nat.testBit_two_pow_add_eq, Nat.testBit_lt_two_pow hx]; rfl
      rw [this, if_pos rfl, Nat.add_assoc]

/-- `XorReduceImpl` computes the sums, for every depth and buffer. -/
theorem reduce_ok (k size : Nat) (a : Nat → B) : Reduced k size a (xorReduce k size a) := by
  induction k with
  | zero =>
    intro b _
    refine ⟨?_, fun j hj => absurd hj (Nat.not_lt_zero j)⟩
    rw [Nat.pow_zero]
    show a (b * 1) = xsum _ (0 + 1)
    rw [Ggm.xsum_succ]
    exact (BitVec.zero_xor).symm
  | succ k ih =>
    have e : xorReduce (k + 1) size a = xrDepth size (k + 1) (xorReduce k size a) := by
      unfold xorReduce
      rw [List.range_succ, List.foldl_append]
      rfl
    rw [e]
    exact reduced_step k size a _ ih

/-! ### The padding of the last tree stays zero -/

/-- Positions from `T` on are zero. -/
def ZeroFrom (T size : Nat) (a : Nat → B) : Prop := ∀ pos, T ≤ pos → pos < size → a pos = 0

theorem zero_depth (c k l d P : Nat) (hd : d < k) (hl : l ≤ k) (hP : P = c + 1) (a : Nat → B)
    (h : ZeroFrom (c * 2 ^ k + 2 ^ l) (P * 2 ^ k) a) : ZeroFrom (c * 2 ^ k + 2 ^ l) (P * 2 ^ k) (xrDepth (P * 2 ^ k) (d + 1) a) := by
  intro pos h1 h2
  have hpos : 0 < 2 ^ (d + 1) := Nat.two_pow_pos _
  have hp : 2 ^ (d + 1) = 2 ^ d + 2 ^ d := by rw [Nat.pow_succ]; omega
  have hkd : 2 ^ k = 2 ^ (k - (d + 1)) * 2 ^ (d + 1) := by rw [← Nat.pow_add]; congr 1; omega
  have hdm : pos / 2 ^ (d + 1) * 2 ^ (d + 1) + pos % 2 ^ (d + 1) = pos := Nat.div_add_mod' pos _
  have hml := Nat.mod_lt pos hpos
  have hb : (pos / 2 ^ (d + 1) + 1) * 2 ^ (d + 1) ≤ P * 2 ^ k := by
    have : pos / 2 ^ (d + 1) < P * 2 ^ (k - (d + 1)) := by
      rw [Nat.div_lt_iff_lt_mul hpos]
      rw [hkd, ← Nat.mul_assoc] at h2
      exact h2
    calc (pos / 2 ^ (d + 1) + 1) * 2 ^ (d + 1) ≤ P * 2 ^ (k - (d + 1)) * 2 ^ (d + 1) := Nat.mul_le_mul_right _ this
      _ = P * 2 ^ k := by rw [hkd, ← Nat.mul_assoc]
  have hde := depth_eq (P * 2 ^ k) d a (pos / 2 ^ (d + 1)) hb (pos % 2 ^ (d + 1)) hml
  rw [hdm] at hde
  rw [hde]
  have hS : (pos / 2 ^ (d + 1) + 1) * 2 ^ (d + 1) = pos / 2 ^ (d + 1) * 2 ^ (d + 1) + 2 ^ (d + 1) := Nat.succ_mul _ _
  have hle := le_stride d
  by_cases hx : pos % 2 ^ (d + 1) < d + 1
  · rw [if_pos hx, h pos h1 h2, h (pos + 2 ^ d) (by omega) (by omega)]
    exact BitVec.xor_self
  · rw [if_neg hx]
    by_cases hx2 : pos % 2 ^ (d + 1) = d + 1
    · rw [if_pos hx2]
      refine h _ ?_ (by omega)
      by_cases hdl : d + 1 ≤ l
      · -- the whole block is padding
        have e2 : c * 2 ^ k + 2 ^ l = (c * 2 ^ (k - (d + 1)) + 2 ^ (l - (d + 1))) * 2 ^ (d + 1) := by
          rw [Nat.add_mul, ← Nat.pow_add, Nat.mul_assoc, ← hkd]
          congr 2
          omega
        have : c * 2 ^ (k - (d + 1)) + 2 ^ (l - (d + 1)) ≤ pos / 2 ^ (d + 1) := by
          rw [Nat.le_div_iff_mul_le hpos, ← e2]
          exact h1
        have := Nat.mul_le_mul_right (2 ^ (d + 1)) this
        omega
      · have hld : 2 ^ l ≤ 2 ^ d := Nat.pow_le_pow_right (by omega) (by omega)
        have : c * 2 ^ (k - (d + 1)) ≤ pos / 2 ^ (d + 1) := by
          rw [Nat.le_div_iff_mul_le hpos, Nat.mul_assoc, ← hkd]
          exact Nat.le_trans (Nat.le_add_right _ _) h1
        have h6 := Nat.mul_le_mul_right (2 ^ (d + 1)) this
        rw [Nat.mul_assoc, ← hkd] at h6
        omega
    · rw [if_neg hx2]
      exact h pos h1 h2

theorem zero_reduce (c k l P : Nat) (hl : l ≤ k) (hP : P = c + 1) (a : Nat → B)
    (h : ZeroFrom (c * 2 ^ k + 2 ^ l) (P * 2 ^ k) a) : ZeroFrom (c * 2 ^ k + 2 ^ l) (P * 2 ^ k) (xorReduce k (P * 2 ^ k) a) := by
  have : ∀ m ≤ k, ZeroFrom (c * 2 ^ k + 2 ^ l) (P * 2 ^ k) ((List.range m).foldl (fun a d => xrDepth (P * 2 ^ k) (d + 1) a) a) := by
    intro m
    induction m with
    | zero => exact fun _ => h
    | succ m ih =>
      intro hm
      rw [List.range_succ, List.foldl_append]
      exact zero_depth c k l m P (by omega) hl hP _ (ih (by omega))
  exact this k (Nat.le_refl k)

/-! ### Parameters -/

theorem params (k : Nat) (h1 : 1 ≤ k) : ∃ c l, pprfNum k = c + 1 ∧ 1 ≤ l ∧ l ≤ k ∧ c * k + l = 128 ∧ (∀ i < c, kLimit k i = k) ∧ kLimit k c = l ∧
    totalSize k = c * 2 ^ k + 2 ^ l ∧ hashSize k = c * (2 ^ k - 1) + (2 ^ l - 1) := by
  have hP : pprfNum k = 127 / k + 1 := by
    unfold pprfNum
    rw [show 128 + k - 1 = 127 + k by omega, Nat.add_div_right _ (by omega)]
  have hdm := Nat.div_add_mod' 127 k
  have hml := Nat.mod_lt 127 (show k > 0 by omega)
  generalize 127 / k = c at *
  have hl : 128 - c * k = 127 % k + 1 := by omega
  generalize hL : 127 % k + 1 = l at *
  have hlk : 2 ^ l ≤ 2 ^ k := Nat.pow_le_pow_right (by omega) (by omega)
  have hT : totalSize k = c * 2 ^ k + 2 ^ l := by
    unfold totalSize
    rw [hP, Nat.add_sub_cancel, hl, Nat.succ_mul]
    have := Nat.two_pow_pos l
    omega
  refine ⟨c, l, hP, by omega, by omega, by omega, ?_, ?_, hT, ?_⟩
  · intro i hi
    unfold kLimit
    have : (i + 1) * k ≤ c * k := Nat.mul_le_mul_right k hi
    rw [Nat.succ_mul] at this
    omega
  · unfold kLimit
    omega
  · unfold hashSize
    rw [hT, hP, Nat.mul_sub]
    have h3 : c * 1 ≤ c * 2 ^ k := Nat.mul_le_mul_left c (Nat.one_le_two_pow)
    have := Nat.one_le_two_pow (n := l)
    omega

theorem pos_split (k : Nat) (h1 : 1 ≤ k) (pos : Nat) (h : pos < 128) : pos / k < pprfNum k ∧ pos % k < kLimit k (pos / k) ∧ pos / k * k + pos % k = pos := by
  have hdm := Nat.div_add_mod' pos k
  have hml := Nat.mod_lt pos (show k > 0 by omega)
  refine ⟨?_, ?_, hdm⟩
  · unfold pprfNum
    rw [show 128 + k - 1 = 127 + k by omega, Nat.add_div_right _ (by omega)]
    have := Nat.div_le_div_right (c := k) (show pos ≤ 127 by omega)
    omega
  · unfold kLimit
    omega

/-! ### One batch -/

/-- After the one-time setup: the receiver holds all leaves of every tree, the sender all but the one its index names (with leaf 0 stored in the
gap and slot 0 dropped). -/
def Linked (k : Nat) (leaves : List (List B)) (st : List (Nat × List B)) : Prop :=
  ∀ i < pprfNum k, ∃ L C a, leaves[i]? = some L ∧ st[i]? = some (a, C) ∧ L.length = 2 ^ kLimit k i ∧ a < 2 ^ kLimit k i ∧
    ∀ x, 0 < x → x < 2 ^ kLimit k i → C.getD (x - 1) 0 = if x = a then L.getD 0 0 else L.getD x 0

theorem getD_of {α : Type} {l : List α} {i : Nat} {v d : α} (h : l[i]? = some v) : l.getD i d = v := by
  rw [List.getD_eq_getElem?_getD, h]
  rfl

theorem flat_eq (w : Nat) (l : List (List B)) (i x : Nat) (hx : x < w) (L : List B) (h : l[i]? = some L) : flat w l (i * w + x) = L.getD x 0 := by
  have hd : (i * w + x) / w = i := div_of (by omega) (by omega)
  have hm : (i * w + x) % w = x := by rw [Nat.mul_add_mod', Nat.mod_eq_of_lt hx]
  unfold flat
  rw [hd, hm, getD_of h]

theorem limit_pos (k i : Nat) (h1 : 1 ≤ k) (hi : i < pprfNum k) : 1 ≤ kLimit k i ∧ kLimit k i ≤ k := by
  obtain ⟨c, l, hP, h3, h4, _, h6, h7, _, _⟩ := params k h1
  by_cases h : i < c
  · rw [h6 i h]; omega
  · have : i = c := by omega
    subst this
    rw [h7]; omega

theorem total_iff (k i x : Nat) (h1 : 1 ≤ k) (hi : i < pprfNum k) (hx : x < 2 ^ k) : i * 2 ^ k + x < totalSize k ↔ x < 2 ^ kLimit k i := by
  obtain ⟨c, l, hP, h3, h4, _, h6, h7, hT, _⟩ := params k h1
  rw [hT]
  by_cases h : i < c
  · rw [h6 i h]
    have : (i + 1) * 2 ^ k ≤ c * 2 ^ k := Nat.mul_le_mul_right _ h
    rw [Nat.succ_mul] at this
    have := Nat.two_pow_pos l
    omega
  · have : i = c := by omega
    subst this
    rw [h7]
    omega

theorem hash_limit (k i : Nat) (h1 : 1 ≤ k) (hi : i < pprfNum k) : min (2 ^ k - 1) (hashSize k - i * (2 ^ k - 1)) = 2 ^ kLimit k i - 1 := by
  obtain ⟨c, l, hP, h3, h4, _, h6, h7, _, hH⟩ := params k h1
  rw [hH]
  by_cases h : i < c
  · rw [h6 i h]
    have : (i + 1) * (2 ^ k - 1) ≤ c * (2 ^ k - 1) := Nat.mul_le_mul_right _ h
    rw [Nat.succ_mul] at this
    omega
  · have : i = c := by omega
    subst this
    rw [h7]
    have : 2 ^ l ≤ 2 ^ k := Nat.pow_le_pow_right (by omega) (by omega)
    omega

theorem scatter_eq (crh : B → B) (k : Nat) (h1 : 1 ≤ k) (leaves : List (List B)) (st : List (Nat × List B)) (hL : Linked k leaves st) (ctr : B)
    (xb : Nat → B) (i : Nat) (hi : i < pprfNum k) (x : Nat) (hx : x < 2 ^ k) :
    scatter k (st.map (·.1)) (fun pos => crh (flat (2 ^ k - 1) (st.map (·.2)) pos ^^^ ctr)) xb (i * 2 ^ k + x) =
      if x < 2 ^ kLimit k i then if x = (st.getD i (0, [])).1 then 0 else crh (flat (2 ^ k) leaves (i * 2 ^ k + x) ^^^ ctr)
      else xb (i * 2 ^ k + x) := by
  obtain ⟨L, C, a, hl, hs, hlen, ha, hC⟩ := hL i hi
  have hkl := limit_pos k i h1 hi
  have hle : 2 ^ kLimit k i ≤ 2 ^ k := Nat.pow_le_pow_right (by omega) hkl.2
  have hd : (i * 2 ^ k + x) / 2 ^ k = i := div_of (by omega) (by omega)
  have hm : (i * 2 ^ k + x) % 2 ^ k = x := by rw [Nat.mul_add_mod', Nat.mod_eq_of_lt hx]
  have hidx : (st.map (·.1)).getD i 0 = a := getD_of (by rw [List.getElem?_map, hs]; rfl)
  have hsi : (st.getD i (0, [])).1 = a := by rw [getD_of hs]
  have hc2 : (st.map (·.2))[i]? = some C := by rw [List.getElem?_map, hs]; rfl
  have hfl : ∀ x < 2 ^ k - 1, flat (2 ^ k - 1) (st.map (·.2)) (i * (2 ^ k - 1) + x) = C.getD x 0 := fun x hx => flat_eq _ _ i x hx C hc2
  have hfL : ∀ x < 2 ^ k, flat (2 ^ k) leaves (i * 2 ^ k + x) = L.getD x 0 := fun x hx => flat_eq _ _ i x hx L hl
  unfold scatter
  simp only [hd, hm, hidx, hsi, if_pos hi, hash_limit k i h1 hi]
  rw [hfL x hx]
  by_cases hx0 : x = 0
  · subst hx0
    rw [if_pos rfl, if_pos (Nat.two_pow_pos _)]
    by_cases ha0 : a = 0
    · rw [if_pos ha0, if_pos ha0.symm]
    · rw [if_neg ha0, if_pos (show a - 1 < 2 ^ kLimit k i - 1 by omega), if_neg (show ¬ 0 = a from fun e => ha0 e.symm), hfl _ (by omega), hC a (by omega) ha, if_pos rfl]
  · rw [if_neg hx0]
    by_cases hxa : x = a
    · rw [if_pos hxa, if_pos trivial, if_pos (show x < 2 ^ kLimit k i by omega), if_pos hxa]
    · rw [if_neg hxa, if_neg hx0, if_neg hxa]
      by_cases hxl : x < 2 ^ kLimit k i
      · rw [if_pos (by omega), if_pos hxl, hfl _ (by omega), hC x (by omega) hxl, if_neg hxa]
      · rw [if_neg (by omega), if_neg hxl]

theorem mask_cases (m : Bool) (x : B) : x &&& (if m then BitVec.allOnes 128 else 0) = if m then x else 0 := by
  cases m
  · exact BitVec.and_zero
  · exact BitVec.and_allOnes

/-- The zero padding, in terms of the buffer size. -/
def Padded (k : Nat) (xb : Nat → B) : Prop := ZeroFrom (totalSize k) (pprfNum k * 2 ^ k) xb

theorem padded_reduce (k : Nat) (h1 : 1 ≤ k) (a : Nat → B) (h : Padded k a) : Padded k (xorReduce k (pprfNum k * 2 ^ k) a) := by
  obtain ⟨c, l, hP, _, h4, _, _, _, hT, _⟩ := params k h1
  unfold Padded at *
  rw [hT] at h ⊢
  exact zero_reduce c k l _ h4 hP a h

theorem padded_pos (k i x : Nat) (h1 : 1 ≤ k) (hi : i < pprfNum k) (hx : x < 2 ^ k) (hge : ¬ x < 2 ^ kLimit k i) (xb : Nat → B) (h : Padded k xb) :
    xb (i * 2 ^ k + x) = 0 := by
  refine h _ ?_ ?_
  · have := total_iff k i x h1 hi hx
    omega
  · have : (i + 1) * 2 ^ k ≤ pprfNum k * 2 ^ k := Nat.mul_le_mul_right _ hi
    rw [Nat.succ_mul] at this
    omega

/-- One batch: the buffers stay padded, the message has one block per tree, and the sender's rows are the receiver's, shifted by the choice word
where the correlation has a one. -/
theorem batch_ok (crh : B → B) (k : Nat) (h1 : 1 ≤ k) (compact : Bool) (leaves : List (List B)) (st : List (Nat × List B)) (hL : Linked k leaves st)
    (hc : compact = true → maskAt k (st.map (·.1)) 0 = BitVec.allOnes 128) (ctr choice : B) (xr xs : Nat → B) (hr : Padded k xr) (hs : Padded k xs) :
    Padded k (genRecv crh k compact leaves ctr xr choice).1 ∧
    (genRecv crh k compact leaves ctr xr choice).2.1.length = pprfNum k ∧
    Padded k (genSend crh k compact st ctr xs (genRecv crh k compact leaves ctr xr choice).2.1).1 ∧
    ∀ pos < 128, (genSend crh k compact st ctr xs (genRecv crh k compact leaves ctr xr choice).2.1).2 pos =
      (genRecv crh k compact leaves ctr xr choice).2.2 pos ^^^ (choice &&& maskAt k (st.map (·.1)) pos) := by
  have pR : Padded k (fun pos => if pos < totalSize k then crh (flat (2 ^ k) leaves pos ^^^ ctr) else xr pos) := by
    intro pos a b
    show (if _ then _ else _) = _
    rw [if_neg (by omega)]
    exact hr pos a b
  have pS : Padded k (scatter k (st.map (·.1)) (fun pos => crh (flat (2 ^ k - 1) (st.map (·.2)) pos ^^^ ctr)) xs) := by
    intro pos a b
    have hpk := Nat.two_pow_pos k
    have hi : pos / 2 ^ k < pprfNum k := by
      rw [Nat.div_lt_iff_lt_mul hpk]
      exact b
    have hx := Nat.mod_lt pos hpk
    have he := Nat.div_add_mod' pos (2 ^ k)
    have := scatter_eq crh k h1 leaves st hL ctr xs (pos / 2 ^ k) hi (pos % 2 ^ k) hx
    have ht := total_iff k _ _ h1 hi hx
    rw [he] at this ht
    rw [this, if_neg (by omega)]
    exact hs pos a b
  refine ⟨padded_reduce k h1 _ pR, by simp [genRecv], padded_reduce k h1 _ pS, ?_⟩
  intro pos hpos
  obtain ⟨hi, hj, hsp⟩ := pos_split k h1 pos hpos
  by_cases hz : compact = true ∧ pos = 0
  · obtain ⟨rfl, rfl⟩ := hz
    simp only [genSend, genRecv, if_true]
    rw [hc rfl]
    show _ = choice ^^^ (choice &&& BitVec.allOnes 128)
    rw [BitVec.and_allOnes, BitVec.xor_self]
    rfl
  have eS : (genSend crh k compact st ctr xs (genRecv crh k compact leaves ctr xr choice).2.1).2 pos =
      (genSend crh k false st ctr xs (genRecv crh k false leaves ctr xr choice).2.1).2 pos := by
    cases compact with
    | false => rfl
    | true =>
      have : pos ≠ 0 := fun e => hz ⟨rfl, e⟩
      simp only [genSend, genRecv, if_true, if_neg this]
      rfl
  have eR : (genRecv crh k compact leaves ctr xr choice).2.2 pos = (genRecv crh k false leaves ctr xr choice).2.2 pos := by
    cases compact with
    | false => rfl
    | true =>
      have : pos ≠ 0 := fun e => hz ⟨rfl, e⟩
      simp only [genRecv, if_true, if_neg this]
      rfl
  rw [eS, eR]
  simp only [genSend, genRecv, Bool.false_eq_true, if_false]
  generalize hi' : pos / k = i at *
  generalize hj' : pos % k = j at *
  have hkl := limit_pos k i h1 hi
  have hblk : (i + 1) * 2 ^ k ≤ pprfNum k * 2 ^ k := Nat.mul_le_mul_right _ hi
  obtain ⟨r0, r1⟩ := reduce_ok k (pprfNum k * 2 ^ k) (fun pos => if pos < totalSize k then crh (flat (2 ^ k) leaves pos ^^^ ctr) else xr pos) i hblk
  obtain ⟨s0, s1⟩ := reduce_ok k (pprfNum k * 2 ^ k) (scatter k (st.map (·.1)) (fun pos => crh (flat (2 ^ k - 1) (st.map (·.2)) pos ^^^ ctr)) xs) i hblk
  obtain ⟨L, C, a, hl, hst, hlen, ha, hC⟩ := hL i hi
  have hle : 2 ^ kLimit k i ≤ 2 ^ k := Nat.pow_le_pow_right (by omega) hkl.2
  have hsi : (st.getD i (0, [])).1 = a := by rw [getD_of hst]
  have hmask : maskAt k (st.map (·.1)) pos = if a.testBit j then BitVec.allOnes 128 else 0 := by
    unfold maskAt
    rw [hi', hj', getD_of (show (st.map (·.1))[i]? = some a by rw [List.getElem?_map, hst]; rfl)]
  -- the sender's hashed leaves are the receiver's, except at the punctured position
  have hrel : ∀ x < 2 ^ k, scatter k (st.map (·.1)) (fun pos => crh (flat (2 ^ k - 1) (st.map (·.2)) pos ^^^ ctr)) xs (i * 2 ^ k + x) =
      if x = a then 0 else (fun pos => if pos < totalSize k then crh (flat (2 ^ k) leaves pos ^^^ ctr) else xr pos) (i * 2 ^ k + x) := by
    intro x hx
    rw [scatter_eq crh k h1 leaves st hL ctr xs i hi x hx, hsi]
    have ht := total_iff k i x h1 hi hx
    by_cases hxl : x < 2 ^ kLimit k i
    · rw [if_pos hxl]
      simp only [if_pos (ht.mpr hxl)]
    · rw [if_neg hxl, if_neg (by omega)]
      simp only [if_neg (fun h => hxl (ht.mp h))]
      rw [padded_pos k i x h1 hi hx hxl xr hr, padded_pos k i x h1 hi hx hxl xs hs]
  generalize (fun pos => if pos < totalSize k then crh (flat (2 ^ k) leaves pos ^^^ ctr) else xr pos) = aR at *
  generalize scatter k (st.map (·.1)) (fun pos => crh (flat (2 ^ k - 1) (st.map (·.2)) pos ^^^ ctr)) xs = aS at *
  have hu : ((List.range (pprfNum k)).map fun i => choice ^^^ xorReduce k (pprfNum k * 2 ^ k) aR (i * 2 ^ k)).getD i 0 =
      choice ^^^ xorReduce k (pprfNum k * 2 ^ k) aR (i * 2 ^ k) := by
    rw [List.getD_eq_getElem?_getD, List.getElem?_map, List.getElem?_range hi]
    rfl
  rw [hu, s0, r0, s1 j (by omega), r1 j (by omega), hmask]
  have hS0 : xsum (fun x => aS (i * 2 ^ k + x)) (2 ^ k) = xsum (fun x => aR (i * 2 ^ k + x)) (2 ^ k) ^^^ aR (i * 2 ^ k + a) := by
    rw [← Ggm.xsum_except (fun x => aR (i * 2 ^ k + x)) a (2 ^ k) (by omega)]
    exact Ggm.xsum_congr hrel
  have hSj : xsum (fun x => if x.testBit j then aS (i * 2 ^ k + x) else 0) (2 ^ k) =
      xsum (fun x => if x.testBit j then aR (i * 2 ^ k + x) else 0) (2 ^ k) ^^^ (if a.testBit j then aR (i * 2 ^ k + a) else 0) := by
    rw [← Ggm.xsum_except (fun x => if x.testBit j then aR (i * 2 ^ k + x) else 0) a (2 ^ k) (by omega)]
    apply Ggm.xsum_congr
    intro x hx
    show (if _ then _ else _) = _
    rw [hrel x hx]
    by_cases hxa : x = a
    · simp [hxa]
    · simp [hxa]
  rw [hS0, hSj, mask_cases, mask_cases]
  generalize xsum (fun x => if x.testBit j then aR (i * 2 ^ k + x) else 0) (2 ^ k) = w
  generalize xsum (fun x => aR (i * 2 ^ k + x)) (2 ^ k) = t
  generalize aR (i * 2 ^ k + a) = v
  cases a.testBit j with
  | true =>
    simp only [if_true]
    apply BitVec.eq_of_getLsbD_eq
    intro q _
    simp only [BitVec.getLsbD_xor]
    cases w.getLsbD q <;> cases t.getLsbD q <;> cases v.getLsbD q <;> cases choice.getLsbD q <;> rfl
  | false =>
    simp only [Bool.false_eq_true, if_false]
    show w ^^^ 0 ^^^ 0 = w ^^^ 0
    simp

end Yacl.Softspoken
