/-
Further helper lemmas for `Verif.MpInt.Props`: reading bytes, setting bits, two's
complement, built-in integers, powers.
-/
import Verif.MpInt.Lemmas

namespace Yacl.MPInt

/-! ### clamping -/

/-- A number as it is just before `mp_clamp`. -/
structure PreOk (D : Nat) (a : Mp) : Prop where
  used_le : a.used ≤ a.dp.length
  lt : ∀ d ∈ a.dp, d < 2 ^ D
  tail : ∀ i, a.used ≤ i → a.dp.getD i 0 = 0

theorem clampUsed_le (dp : List Nat) (u : Nat) : clampUsed dp u ≤ u := by
  induction u with
  | zero => simp [clampUsed]
  | succ u ih =>
    unfold clampUsed
    split
    · omega
    · omega

theorem clampUsed_zero (dp : List Nat) (u i : Nat) (h : clampUsed dp u ≤ i) (hi : i < u) :
    dp.getD i 0 = 0 := by
  induction u with
  | zero => omega
  | succ u ih =>
    unfold clampUsed at h
    by_cases hu : dp.getD u 0 = 0
    · rw [if_pos hu] at h
      by_cases hiu : i = u
      · rw [hiu]; exact hu
      · exact ih h (by omega)
    · rw [if_neg hu] at h
      omega

theorem clampUsed_top (dp : List Nat) (u : Nat) (h : 0 < clampUsed dp u) :
    dp.getD (clampUsed dp u - 1) 0 ≠ 0 := by
  induction u with
  | zero => simp [clampUsed] at h
  | succ u ih =>
    unfold clampUsed at h ⊢
    by_cases hu : dp.getD u 0 = 0
    · rw [if_pos hu] at h ⊢
      exact ih h
    · rw [if_neg hu]
      simpa using hu

theorem clamp_spec {D : Nat} (hD : Digit D) {a : Mp} (h : PreOk D a) :
    Ok D (clamp a) ∧ mag D (clamp a) = mag D a ∧
      (clamp a).neg = (a.neg && decide (mag D a ≠ 0)) := by
  have htail : ∀ i, clampUsed a.dp a.used ≤ i → a.dp.getD i 0 = 0 := by
    intro i hi
    by_cases hu : i < a.used
    · exact clampUsed_zero _ _ _ hi hu
    · exact h.tail i (by omega)
  have hmag : mag D (clamp a) = mag D a := by
    unfold mag
    rw [ofDigits_take_all _ _ _ h.tail]
    exact ofDigits_take_all _ _ _ htail
  have hok : Ok D (clamp a) := by
    refine ⟨?_, h.lt, htail, ?_, ?_⟩
    · exact Nat.le_trans (clampUsed_le _ _) h.used_le
    · exact clampUsed_top _ _
    · intro hn
      simp only [clamp] at hn ⊢
      by_contra h0
      rw [if_pos (by omega)] at hn
      cases hn
  refine ⟨hok, hmag, ?_⟩
  rw [← hmag]
  have := used_zero_iff hD hok
  show (if clampUsed a.dp a.used = 0 then false else a.neg) = _
  by_cases h0 : clampUsed a.dp a.used = 0
  · rw [if_pos h0, this.1 h0]; simp
  · rw [if_neg h0]
    have : mag D (clamp a) ≠ 0 := fun hm => h0 (this.2 hm)
    simp [this]

theorem clamp_toInt {D : Nat} (hD : Digit D) {a : Mp} (h : PreOk D a) :
    toInt D (clamp a) = toInt D a := by
  obtain ⟨_, h2, h3⟩ := clamp_spec hD h
  unfold toInt
  rw [h2, h3]
  by_cases h0 : mag D a = 0
  · simp [h0]
  · simp [h0]

/-! ### reading magnitude bytes -/

theorem readDigits_spec {D : Nat} (hD : Digit D) :
    ∀ (bs : List Nat) (cache cb : Nat), (∀ b ∈ bs, b < 256) → cache < 2 ^ cb → cb < D →
      cb % 4 = 0 →
      (∀ d ∈ readDigits D bs cache cb, d < 2 ^ D) ∧
      Nat.ofDigits (2 ^ D) (readDigits D bs cache cb) = cache + 2 ^ cb * Nat.ofDigits 256 bs ∧
      (readDigits D bs cache cb).length ≤ (cb + 8 * bs.length + D - 1) / D := by
  have hlo := hD.lo
  have hhi := hD.hi
  have h4 := hD.mul4
  intro bs
  induction bs with
  | nil =>
    intro cache cb _ hc hcb _
    unfold readDigits
    by_cases h : 0 < cache
    · rw [if_pos h, Nat.and_two_pow_sub_one_eq_mod]
      have hlt : cache < 2 ^ D := Nat.lt_of_lt_of_le hc (Nat.pow_le_pow_right (by decide) (by omega))
      rw [Nat.mod_eq_of_lt hlt]
      refine ⟨by simpa using hlt, by simp, ?_⟩
      have hcb0 : 0 < cb := by
        by_contra h0
        have : cb = 0 := by omega
        rw [this] at hc
        simp at hc
        omega
      simp only [List.length_cons, List.length_nil]
      rw [Nat.le_div_iff_mul_le (by omega)]
      omega
    · rw [if_neg h]
      obtain rfl : cache = 0 := by omega
      simp
  | cons b bs ih =>
    intro cache cb hb hc hcb hm
    have hb0 : b < 2 ^ 8 := by simpa using hb b (by simp)
    have hb' : ∀ x ∈ bs, x < 256 := fun x hx => hb x (by simp [hx])
    have hor := or_shl (D := 8) hc hb0 (by omega)
    unfold readDigits
    simp only [hor]
    have hlt : cache + b * 2 ^ cb < 2 ^ (cb + 8) := by
      have h1 : b * 2 ^ cb ≤ 255 * 2 ^ cb := Nat.mul_le_mul_right _ (by omega)
      have h2 : (2 : Nat) ^ (cb + 8) = 256 * 2 ^ cb := by rw [pow_add]; ring
      omega
    have hval : cache + 2 ^ cb * Nat.ofDigits 256 (b :: bs)
        = (cache + b * 2 ^ cb) + 2 ^ (cb + 8) * Nat.ofDigits 256 bs := by
      rw [Nat.ofDigits_cons, pow_add]
      ring
    rw [hval]
    generalize cache + b * 2 ^ cb = c at *
    simp only [List.length_cons]
    by_cases h : D ≤ cb + 8
    · rw [if_pos h, Nat.and_two_pow_sub_one_eq_mod, Nat.shiftRight_eq_div_pow]
      have hdiv : c / 2 ^ D < 2 ^ (cb + 8 - D) := by
        rw [Nat.div_lt_iff_lt_mul (Nat.two_pow_pos D), ← pow_add]
        rw [show cb + 8 - D + D = cb + 8 by omega]
        exact hlt
      obtain ⟨i1, i2, i3⟩ := ih (c / 2 ^ D) (cb + 8 - D) hb' hdiv (by omega) (by omega)
      refine ⟨?_, ?_, ?_⟩
      · intro d hd
        rcases List.mem_cons.1 hd with rfl | hd
        · exact Nat.mod_lt _ (Nat.two_pow_pos D)
        · exact i1 d hd
      · rw [Nat.ofDigits_cons, i2]
        have h3 := Nat.div_add_mod c (2 ^ D)
        have h5 : (2 : Nat) ^ (cb + 8) = 2 ^ D * 2 ^ (cb + 8 - D) := by
          rw [← pow_add]; congr 1; omega
        rw [h5, Nat.mul_add, Nat.mul_assoc]
        omega
      · rw [List.length_cons]
        rw [Nat.le_div_iff_mul_le (by omega)] at i3 ⊢
        rw [Nat.add_mul, Nat.one_mul]
        omega
    · rw [if_neg h]
      obtain ⟨i1, i2, i3⟩ := ih c (cb + 8) hb' hlt (by omega) (by omega)
      refine ⟨i1, i2, Nat.le_trans i3 ?_⟩
      apply Nat.div_le_div_right
      omega

theorem getD_append_replicate_drop (ds l : List Nat) (u i : Nat)
    (hl : ∀ i, u ≤ i → l.getD i 0 = 0) (hi : ds.length ≤ i) :
    (ds ++ List.replicate (u - ds.length) 0 ++ l.drop (max ds.length u)).getD i 0 = 0 := by
  simp only [List.getD_eq_getElem?_getD] at hl ⊢
  rw [List.append_assoc, List.getElem?_append_right hi]
  by_cases h1 : i - ds.length < u - ds.length
  · rw [List.getElem?_append_left (by simpa using h1), List.getElem?_replicate, if_pos h1]
    rfl
  · rw [List.getElem?_append_right (by simpa using Nat.le_of_not_lt h1), List.getElem?_drop]
    rw [List.length_replicate]
    have : max ds.length u + (i - ds.length - (u - ds.length)) = i := by omega
    rw [this]
    exact hl i (by omega)

theorem getD_grow (n : Nat) (l : List Nat) (i : Nat) : (grow n l).getD i 0 = l.getD i 0 := by
  unfold grow
  simp only [List.getD_eq_getElem?_getD]
  by_cases h : i < l.length
  · rw [List.getElem?_append_left h]
  · rw [List.getElem?_append_right (by omega), List.getElem?_replicate,
      List.getElem?_eq_none (by omega : l.length ≤ i)]
    split <;> rfl

theorem grow_mem {n : Nat} {l : List Nat} {d : Nat} (h : d ∈ grow n l) : d ∈ l ∨ d = 0 := by
  unfold grow at h
  rcases List.mem_append.1 h with h | h
  · exact Or.inl h
  · exact Or.inr (List.eq_of_mem_replicate h)

theorem fromMagBytes_spec {D : Nat} (hD : Digit D) {a : Mp} (ha : Ok D a) (buf : List Nat)
    (hb : ∀ b ∈ buf, b < 256) (e : Endian) :
    Ok D (fromMagBytes D a buf e) ∧ (fromMagBytes D a buf e).neg = false ∧
      mag D (fromMagBytes D a buf e) = Nat.ofDigits 256 (leBytes e buf) := by
  have hlo := hD.lo
  -- the number after the reset of an empty buffer
  have ha' : Ok D (if buf.length = 0 then zero a else a) := by
    by_cases h : buf.length = 0
    · rw [if_pos h]
      have hz : ∀ i, (a.dp.map fun _ => 0).getD i 0 = 0 := by
        intro i
        simp only [List.getD_eq_getElem?_getD, List.getElem?_map]
        cases a.dp[i]? <;> rfl
      exact ⟨by simp [zero], by
        intro d hd
        simp only [zero, List.mem_map] at hd
        obtain ⟨_, _, rfl⟩ := hd
        exact Nat.two_pow_pos D, fun i _ => hz i, by simp [zero], by simp [zero]⟩
    · rw [if_neg h]; exact ha
  have hbytes : ∀ b ∈ leBytes e buf, b < 256 := by
    intro b hbm
    cases e
    · exact hb b hbm
    · exact hb b (List.mem_reverse.1 hbm)
  obtain ⟨r1, r2, _⟩ := readDigits_spec hD (leBytes e buf) 0 0 hbytes (by simp) (by omega) (by omega)
  unfold fromMagBytes
  simp only
  generalize (if buf.length = 0 then zero a else a) = a' at *
  generalize readDigits D (leBytes e buf) 0 0 = ds at *
  have hpre : PreOk D ⟨false, ds.length, ds ++ List.replicate (a'.used - ds.length) 0 ++
      (grow ((buf.length * 8 + D - 1) / D) a'.dp).drop (max ds.length a'.used)⟩ := by
    refine ⟨?_, ?_, ?_⟩
    · show ds.length ≤ _
      simp only [List.length_append]; omega
    · intro d hd
      rcases List.mem_append.1 hd with hd | hd
      · rcases List.mem_append.1 hd with hd | hd
        · exact r1 d hd
        · rw [List.eq_of_mem_replicate hd]; exact Nat.two_pow_pos D
      · rcases grow_mem (List.mem_of_mem_drop hd) with hd | rfl
        · exact ha'.lt d hd
        · exact Nat.two_pow_pos D
    · intro i hi
      exact getD_append_replicate_drop _ _ _ _ (fun i hi => by rw [getD_grow]; exact ha'.tail i hi) hi
  obtain ⟨c1, c2, c3⟩ := clamp_spec hD hpre
  refine ⟨c1, by rw [c3]; rfl, ?_⟩
  rw [c2]
  unfold mag
  show Nat.ofDigits (2 ^ D) (List.take ds.length _) = _
  rw [List.append_assoc, List.take_left, r2]
  simp

/-! ### single bits -/

theorem testBit_mag {D : Nat} (hD : Digit D) {l : List Nat} (h : ∀ d ∈ l, d < 2 ^ D) (i : Nat) :
    (Nat.ofDigits (2 ^ D) l).testBit i = (l.getD (i / D) 0).testBit (i % D) := by
  rw [getD_ofDigits (one_lt_base hD) l h, Nat.testBit_mod_two_pow, ← pow_mul,
    Nat.testBit_div_two_pow]
  have : i % D < D := Nat.mod_lt _ (by have := hD.lo; omega)
  simp only [this, decide_true, Bool.true_and]
  congr 1
  have := Nat.div_add_mod i D
  omega

theorem getBit_eq {D : Nat} (hD : Digit D) {a : Mp} (h : Ok D a) (i : Nat) :
    getBit D a i = if (mag D a).testBit i then 1 else 0 := by
  rw [mag_eq_all h, testBit_mag hD h.lt]
  unfold getBit
  by_cases hu : a.used ≤ i / D
  · rw [if_pos hu, h.tail _ hu]
    simp
  · rw [if_neg hu, Nat.testBit_eq_decide_div_mod_eq, Nat.shiftRight_eq_div_pow,
      Nat.and_one_is_mod]
    have : a.dp.getD (i / D) 0 / 2 ^ (i % D) % 2 < 2 := Nat.mod_lt _ (by omega)
    split
    · simp_all
    · simp_all

theorem shl64_one {k : Nat} (hk : k < 64) : shl64 1 k = 2 ^ k := by
  unfold shl64
  rw [Nat.shiftLeft_eq, Nat.one_mul, Nat.mod_eq_of_lt (Nat.pow_lt_pow_right (by decide) hk)]

theorem setBit_spec {D : Nat} (hD : Digit D) {a : Mp} (h : PreOk D a) (index value : Nat) :
    Ok D (setBit D a index value) ∧
      (∀ i, (mag D (setBit D a index value)).testBit i
        = if i = index then decide (value ≠ 0) else (mag D a).testBit i) ∧
      (setBit D a index value).neg
        = (a.neg && decide (mag D (setBit D a index value) ≠ 0)) := by
  have hlo := hD.lo
  have hhi := hD.hi
  have hk : index % D < D := Nat.mod_lt _ (by omega)
  have hule := h.used_le
  -- the array after growing: same digits, long enough
  have hex : ∃ dp, (if a.dp.length ≤ index / D then
      a.dp.take a.used ++ List.replicate (index / D + 1 - a.used) 0 ++
        (grow (index / D + 1) a.dp).drop (index / D + 1) else a.dp) = dp ∧
      index / D < dp.length ∧ (∀ d ∈ dp, d < 2 ^ D) ∧ (∀ i, dp.getD i 0 = a.dp.getD i 0) := by
    refine ⟨_, rfl, ?_⟩
    by_cases hl : a.dp.length ≤ index / D
    · rw [if_pos hl]
      refine ⟨?_, ?_, ?_⟩
      · simp only [List.length_append, List.length_take, List.length_replicate]; omega
      · intro d hd
        rcases List.mem_append.1 hd with hd | hd
        · rcases List.mem_append.1 hd with hd | hd
          · exact h.lt d (List.mem_of_mem_take hd)
          · rw [List.eq_of_mem_replicate hd]; exact Nat.two_pow_pos D
        · rcases grow_mem (List.mem_of_mem_drop hd) with hd | rfl
          · exact h.lt d hd
          · exact Nat.two_pow_pos D
      · intro i
        have htl : (a.dp.take a.used).length = a.used := by rw [List.length_take]; omega
        by_cases hi : i < a.used
        · simp only [List.getD_eq_getElem?_getD]
          rw [List.append_assoc, List.getElem?_append_left (by omega), List.getElem?_take,
            if_pos hi]
        · rw [h.tail i (by omega)]
          have hz := getD_append_replicate_drop (a.dp.take a.used) (grow (index / D + 1) a.dp)
            (index / D + 1) i (fun i hi => by
              rw [getD_grow]; exact h.tail i (by omega)) (by omega)
          rw [htl, Nat.max_eq_right (by omega)] at hz
          exact hz
    · rw [if_neg hl]
      exact ⟨by omega, h.lt, fun _ => rfl⟩
  obtain ⟨dp, hdp, hlen, hlt, hget⟩ := hex
  unfold setBit
  simp only [hdp]
  rw [shl64_one (by omega)]
  -- the new digit
  have hdlt := getD_lt hlt (index / D)
  have hnew : ∃ x, (if value ≠ 0 then dp.getD (index / D) 0 ||| 2 ^ (index % D)
      else dp.getD (index / D) 0 &&& (2 ^ 64 - 1 - 2 ^ (index % D))) = x ∧ x < 2 ^ D ∧
      ∀ j, j < D → x.testBit j = if j = index % D then decide (value ≠ 0)
        else (dp.getD (index / D) 0).testBit j := by
    refine ⟨_, rfl, ?_⟩
    generalize dp.getD (index / D) 0 = d at *
    by_cases hv : value ≠ 0
    · rw [if_pos hv]
      refine ⟨Nat.or_lt_two_pow hdlt (Nat.pow_lt_pow_right (by decide) hk), ?_⟩
      intro j hj
      rw [Nat.testBit_or, Nat.testBit_two_pow]
      by_cases hji : j = index % D
      · simp [hji, hv]
      · simp [hji, Ne.symm hji]
    · rw [if_neg hv]
      refine ⟨Nat.lt_of_le_of_lt Nat.and_le_left hdlt, ?_⟩
      intro j hj
      rw [Nat.testBit_and, Nat.sub_sub, Nat.add_comm 1, Nat.testBit_two_pow_sub_succ
        (Nat.pow_lt_pow_right (by decide) (by omega)), Nat.testBit_two_pow]
      by_cases hji : j = index % D
      · simp [hji, hv]
      · have : j < 64 := by omega
        simp [hji, Ne.symm hji, this]
  obtain ⟨x, hx, hxlt, hxbit⟩ := hnew
  rw [hx]
  have hpre : PreOk D ⟨a.neg, if a.used ≤ index / D then index / D + 1 else a.used,
      dp.set (index / D) x⟩ := by
    refine ⟨?_, ?_, ?_⟩
    · simp only [List.length_set]
      split
      · omega
      · rename_i hlt'
        by_contra hgt
        -- `used` digits are nonempty
        have : dp.length = a.dp.length ∨ a.dp.length ≤ index / D := by
          by_cases hl : a.dp.length ≤ index / D
          · exact Or.inr hl
          · rw [if_neg hl] at hdp
            exact Or.inl (by rw [hdp])
        omega
    · intro d hd
      rcases List.mem_or_eq_of_mem_set hd with hd | rfl
      · exact hlt d hd
      · exact hxlt
    · intro i hi
      simp only at hi
      have : i ≠ index / D := by split at hi <;> omega
      rw [getD_set, if_neg (by omega), hget]
      apply h.tail
      split at hi <;> omega
  obtain ⟨c1, c2, c3⟩ := clamp_spec hD hpre
  refine ⟨c1, ?_, by rw [c3, c2]⟩
  intro i
  rw [c2]
  have hm1 : mag D ⟨a.neg, if a.used ≤ index / D then index / D + 1 else a.used,
      dp.set (index / D) x⟩ = Nat.ofDigits (2 ^ D) (dp.set (index / D) x) :=
    ofDigits_take_all _ _ _ hpre.tail
  have hm2 : mag D a = Nat.ofDigits (2 ^ D) a.dp := ofDigits_take_all _ _ _ h.tail
  rw [hm1, hm2, testBit_mag hD hpre.lt, testBit_mag hD h.lt, getD_set]
  have hdm1 := Nat.div_add_mod i D
  have hdm2 := Nat.div_add_mod index D
  by_cases hid : index / D = i / D
  · rw [if_pos ⟨hid, hlen⟩, hxbit _ (Nat.mod_lt _ (by omega)), hget, hid]
    by_cases him : i = index
    · rw [if_pos him, if_pos (by rw [him])]
    · rw [if_neg him, if_neg]
      intro hmod
      apply him
      rw [← hdm1, ← hdm2, hid, hmod]
  · rw [if_neg (by tauto), hget, if_neg]
    rintro rfl
    exact hid rfl

/-! ### two's complement -/

theorem drainTo_spec (e : Endian) (n : Nat) (Y : Int) (buf0 : List Nat) (hn : n ≤ buf0.length) :
    ∀ (rem : Nat) (buf : List Nat) (pos cache : Nat),
      Written e n Y buf0 buf pos → (cache : Int) = Y / 256 ^ pos % 2 ^ rem → pos ≤ n →
      let r := drainTo e n buf pos cache rem
      Written e n Y buf0 r.1 r.2.1 ∧ (r.2.2.1 : Int) = Y / 256 ^ r.2.1 % 2 ^ r.2.2.2 ∧
      8 * r.2.1 + r.2.2.2 = 8 * pos + rem ∧ (r.2.2.2 < 8 ∨ r.2.1 = n) ∧ r.2.1 ≤ n := by
  intro rem
  induction rem using Nat.strongRecOn with
  | _ rem ih =>
    intro buf pos cache hw hc hp
    unfold drainTo
    by_cases h : 8 ≤ rem ∧ pos < n
    · rw [if_pos h]
      have h2 := cache_byte hc h.1
      have := ih (rem - 8) (by omega) (buf.set (place e n pos) (cache &&& 255)) (pos + 1)
        (cache >>> 8) (hw.write h.2 hn h2.1) (by rw [h2.2, ediv_step]) (by omega)
      obtain ⟨h3, h4, h5, h6, h7⟩ := this
      exact ⟨h3, h4, by omega, h6, h7⟩
    · rw [if_neg h]
      exact ⟨hw, hc, rfl, by simp only; omega, hp⟩

/-- Base-`2^D` digits of the negation, with the carry of the `+1`. -/
theorem neg_digit (M B : Nat) (hB : 1 < B) (i : Nat) :
    let ac := if M % B ^ i = 0 then 1 else 0
    let s := ac + (B - 1 - M / B ^ i % B)
    ((s % B : Nat) : Int) = (-(M : Int)) / (B : Int) ^ i % (B : Int) ∧
      s / B = if M % B ^ (i + 1) = 0 then 1 else 0 := by
  have hBi : 0 < B ^ i := by positivity
  have hdm := Nat.div_add_mod M (B ^ i)
  have hlt := Nat.mod_lt M hBi
  have hmod := Nat.mod_mul (x := M) (a := B ^ i) (b := B)
  rw [← pow_succ] at hmod
  generalize hq : M / B ^ i = q at *
  generalize hr : M % B ^ i = r at *
  have hqB := Nat.mod_lt q (show 0 < B by omega)
  have hqdm := Nat.div_add_mod q B
  -- the quotient of the negation
  have hneg : (-(M : Int)) / (B : Int) ^ i = if r = 0 then -(q : Int) else -(q : Int) - 1 := by
    have hBi' : (0 : Int) < (B : Int) ^ i := by exact_mod_cast hBi
    have hM : (M : Int) = (B : Int) ^ i * q + r := by rw [← hdm]; push_cast; rfl
    by_cases h0 : r = 0
    · rw [if_pos h0, hM, h0]
      simp only [Nat.cast_zero, add_zero]
      rw [← mul_neg, Int.mul_ediv_cancel_left _ (by omega)]
    · rw [if_neg h0]
      have hrlt : (r : Int) < (B : Int) ^ i := by exact_mod_cast hlt
      have : -(M : Int) = ((B : Int) ^ i - r) + (B : Int) ^ i * (-(q : Int) - 1) := by
        rw [hM]; ring
      rw [this, Int.add_mul_ediv_left _ _ (by omega), Int.ediv_eq_zero_of_lt (by omega) (by omega)]
      ring
  have hBZ : ((B : Int)) ≠ 0 := by omega
  by_cases h0 : r = 0
  · subst h0
    rw [if_pos rfl] at hneg
    simp only [if_true]
    have hs : 1 + (B - 1 - q % B) = B - q % B := by omega
    rw [hs, hneg]
    by_cases hq0 : q % B = 0
    · rw [hq0, Nat.sub_zero, Nat.mod_self, Nat.div_self (by omega), hmod, hq0]
      refine ⟨?_, by simp⟩
      have : (q : Int) = (B : Int) * ((q / B : Nat) : Int) := by
        rw [← Nat.cast_mul]
        congr 1
        omega
      rw [this, ← mul_neg, Int.mul_emod_right]
      rfl
    · rw [Nat.mod_eq_of_lt (by omega), Nat.div_eq_of_lt (by omega), hmod]
      refine ⟨?_, ?_⟩
      · have hqZ : (q : Int) = (B : Int) * ((q / B : Nat) : Int) + ((q % B : Nat) : Int) := by
          rw [← Nat.cast_mul, ← Nat.cast_add, hqdm]
        have : -(q : Int) = ((B : Int) - ((q % B : Nat) : Int))
            + (B : Int) * (-((q / B : Nat) : Int) - 1) := by
          have : -(q : Int) = -((B : Int) * ((q / B : Nat) : Int) + ((q % B : Nat) : Int)) := by
            rw [← hqZ]
          rw [this]
          ring
        rw [this, Int.add_mul_emod_self_left, Int.emod_eq_of_lt (by omega) (by omega)]
        omega
      · have : 0 < B ^ i * (q % B) := Nat.mul_pos hBi (by omega)
        rw [if_neg (by omega)]
  · rw [if_neg h0] at hneg
    simp only [if_neg h0, Nat.zero_add]
    rw [Nat.mod_eq_of_lt (by omega), Nat.div_eq_of_lt (by omega), hneg, hmod]
    refine ⟨?_, ?_⟩
    · have hqZ : (q : Int) = (B : Int) * ((q / B : Nat) : Int) + ((q % B : Nat) : Int) := by
        rw [← Nat.cast_mul, ← Nat.cast_add, hqdm]
      have : -(q : Int) - 1 = ((B : Int) - 1 - ((q % B : Nat) : Int))
          + (B : Int) * (-((q / B : Nat) : Int) - 1) := by
        have : -(q : Int) - 1 = -((B : Int) * ((q / B : Nat) : Int) + ((q % B : Nat) : Int)) - 1 := by
          rw [← hqZ]
        rw [this]
        ring
      rw [this, Int.add_mul_emod_self_left, Int.emod_eq_of_lt (by omega) (by omega)]
      omega
    · have : 0 ≤ B ^ i * (q % B) := Nat.zero_le _
      rw [if_neg (by omega)]

/-- The carry before digit `idx`. -/
def carry (D : Nat) (a : Mp) (idx : Nat) : Nat :=
  if a.neg then (if mag D a % (2 ^ D) ^ idx = 0 then 1 else 0) else 1

theorem not_and_mask {D d : Nat} (hD : Digit D) (hd : d < 2 ^ D) :
    (2 ^ 64 - 1 - d) &&& (2 ^ D - 1) = 2 ^ D - 1 - d := by
  have hhi := hD.hi
  apply Nat.eq_of_testBit_eq
  intro i
  have h64 : d < 2 ^ 64 := Nat.lt_of_lt_of_le hd (Nat.pow_le_pow_right (by decide) (by omega))
  rw [Nat.testBit_and, Nat.sub_sub, Nat.sub_sub, Nat.add_comm 1 d,
    Nat.testBit_two_pow_sub_succ h64, Nat.testBit_two_pow_sub_succ hd,
    Nat.testBit_two_pow_sub_one]
  by_cases h : i < D
  · have : i < 64 := by omega
    simp [h, this]
  · simp [h]

theorem nextDigit_spec {D : Nat} (hD : Digit D) {a : Mp} (h : Ok D a) (idx : Nat) :
    (((nextDigit D a idx (carry D a idx)).1 : Nat) : Int)
        = toInt D a / (2 ^ D) ^ idx % 2 ^ D ∧
      (nextDigit D a idx (carry D a idx)).2 = carry D a (idx + 1) := by
  unfold nextDigit
  have hget := dp_getD hD h idx
  have hlt := getD_lt h.lt idx
  have htail := h.tail idx
  cases hn : a.neg
  · simp only [Bool.false_eq_true, if_false, toInt, carry, hn]
    refine ⟨?_, trivial⟩
    have : (if a.used ≤ idx then 0 else a.dp.getD idx 0) = a.dp.getD idx 0 := by
      split
      · rw [htail (by assumption)]
      · rfl
    rw [this, hget]
    push_cast
    rfl
  · simp only [if_true, toInt, carry, hn]
    have hx : (if a.used ≤ idx then 2 ^ D - 1
        else (2 ^ 64 - 1 - a.dp.getD idx 0) &&& (2 ^ D - 1))
        = 2 ^ D - 1 - mag D a / (2 ^ D) ^ idx % 2 ^ D := by
      rw [← hget]
      split
      · rw [htail (by assumption), Nat.sub_zero]
      · exact not_and_mask hD hlt
    rw [hx, Nat.and_two_pow_sub_one_eq_mod, Nat.shiftRight_eq_div_pow]
    have := neg_digit (mag D a) (2 ^ D) (one_lt_base hD) idx
    refine ⟨?_, this.2⟩
    rw [this.1]
    push_cast
    rfl

theorem toBytesLoop_spec {D : Nat} (hD : Digit D) {a : Mp} (h : Ok D a) (e : Endian) (n : Nat)
    (buf0 : List Nat) (hn : n ≤ buf0.length) :
    ∀ (fuel idx : Nat) (buf : List Nat) (pos cache rem : Nat),
      Written e n (toInt D a) buf0 buf pos → pos ≤ n → n ≤ pos + fuel →
      (pos < n → (cache : Int) = toInt D a / 256 ^ pos % 2 ^ rem ∧
        8 * pos + rem = D * idx ∧ rem < 8) →
      Written e n (toInt D a) buf0
        (toBytesLoop D e n a fuel idx (carry D a idx) buf pos cache rem) n := by
  have hlo := hD.lo
  have hhi := hD.hi
  have hD4 := hD.mul4
  intro fuel
  induction fuel with
  | zero =>
    intro idx buf pos cache rem hw hp hf _
    obtain rfl : pos = n := by omega
    exact hw
  | succ fuel ih =>
    intro idx buf pos cache rem hw hp hf hinv
    unfold toBytesLoop
    by_cases hpn : pos < n
    · rw [if_pos hpn]
      obtain ⟨hc, he, hr⟩ := hinv hpn
      have hr4 : rem ≤ 4 := by
        have h4 : 4 ∣ D * idx := Dvd.dvd.mul_right (by omega) _
        omega
      obtain ⟨hx1, hx2⟩ := nextDigit_spec hD h idx
      have hx : (((nextDigit D a idx (carry D a idx)).1 : Nat) : Int)
          = toInt D a / 256 ^ pos / 2 ^ rem % 2 ^ D := by
        rw [hx1]
        congr 1
        rw [Int.ediv_ediv_of_nonneg (by positivity)]
        congr 1
        rw [show (256 : Int) = 2 ^ 8 by norm_num, ← pow_mul, ← pow_mul, ← pow_add, he]
      have hca := cache_add hc hx (by omega)
      obtain ⟨d1, d2, d3, d4, d5⟩ := drainTo_spec e n (toInt D a) buf0 hn (rem + D) buf pos _ hw hca hp
      simp only
      rw [hx2]
      generalize drainTo e n buf pos (cache ||| shl64 (nextDigit D a idx (carry D a idx)).1 rem)
        (rem + D) = r at *
      apply ih
      · split
        · rename_i hcond
          exact d1.overwrite hcond.2
        · exact d1
      · exact d5
      · omega
      · intro hlt
        refine ⟨d2, ?_, by omega⟩
        rw [d3]
        have : D * (idx + 1) = D * idx + D := by ring
        omega
    · rw [if_neg hpn]
      obtain rfl : pos = n := by omega
      exact hw

theorem toBytes_spec {D : Nat} (hD : Digit D) {a : Mp} (h : Ok D a) (e : Endian) (n : Nat)
    (buf0 : List Nat) (hn : n ≤ buf0.length) :
    Written e n (toInt D a) buf0 (toBytes D a buf0 n e) n := by
  have hc : carry D a 0 = 1 := by
    unfold carry
    simp [Nat.mod_one]
  unfold toBytes
  rw [← hc]
  apply toBytesLoop_spec hD h e n buf0 hn
  · exact ⟨rfl, by simp, fun _ _ => rfl⟩
  · omega
  · omega
  · intro _
    refine ⟨?_, by simp, by omega⟩
    rw [pow_zero, pow_zero, Int.emod_one]
    rfl

/-! ### built-in integers -/

theorem setDigits_eq {D : Nat} (hD : Digit D) (w b : Nat) (hb : b < 2 ^ w) :
    setDigits D w b = Nat.digits (2 ^ D) b := by
  have hB := one_lt_base hD
  induction b using Nat.strongRecOn with
  | _ b ih =>
    unfold setDigits
    by_cases h : b = 0
    · rw [dif_pos h, h]; simp
    · rw [dif_neg h, Nat.and_two_pow_sub_one_eq_mod, Nat.digits_eq_cons_digits_div hB h]
      congr 1
      by_cases hw : w ≤ D
      · rw [if_pos hw, Nat.div_eq_of_lt (Nat.lt_of_lt_of_le hb (Nat.pow_le_pow_right (by decide) hw))]
        simp
      · rw [if_neg hw, Nat.shiftRight_eq_div_pow]
        have hlt : b / 2 ^ D < b := Nat.div_lt_self (by omega) hB
        rw [dif_pos hlt]
        exact ih _ hlt (by omega)

theorem setUnsigned_spec {D : Nat} (hD : Digit D) (w : Nat) (a : Mp) (b : Nat)
    (hb : b < 2 ^ w) :
    Ok D (setUnsigned D w a b) ∧ (setUnsigned D w a b).neg = false ∧
      mag D (setUnsigned D w a b) = b ∧
      (setUnsigned D w a b).dp.length = max a.dp.length ((w + D - 1) / D) := by
  have hB := one_lt_base hD
  have hlo := hD.lo
  have hlen : (Nat.digits (2 ^ D) b).length ≤ (w + D - 1) / D := by
    rw [Nat.digits_length_le_iff hB, ← pow_mul]
    apply Nat.lt_of_lt_of_le hb
    apply Nat.pow_le_pow_right (by decide)
    have := Nat.div_add_mod (w + D - 1) D
    have := Nat.mod_lt (w + D - 1) (show 0 < D by omega)
    omega
  unfold setUnsigned
  simp only [setDigits_eq hD w b hb]
  have hglen : (grow ((w + D - 1) / D) a.dp).length = max a.dp.length ((w + D - 1) / D) := by
    unfold grow
    rw [List.length_append, List.length_replicate]
    omega
  rw [hglen]
  refine ⟨⟨?_, ?_, ?_, ?_, ?_⟩, by trivial, ?_, ?_⟩
  · simp
  · intro d hd
    rcases List.mem_append.1 hd with hd | hd
    · exact Nat.digits_lt_base hB hd
    · rw [List.eq_of_mem_replicate hd]; exact Nat.two_pow_pos D
  · intro i hi
    simp only at hi ⊢
    simp only [List.getD_eq_getElem?_getD]
    rw [List.getElem?_append_right hi, List.getElem?_replicate]
    split <;> rfl
  · intro hpos
    simp only at hpos ⊢
    have hne : Nat.digits (2 ^ D) b ≠ [] := by
      intro h0; rw [h0] at hpos; simp at hpos
    rw [List.getD_eq_getElem?_getD, List.getElem?_append_left (by omega),
      ← List.getLast?_eq_getElem?, List.getLast?_eq_getLast_of_ne_nil hne]
    exact Nat.getLast_digit_ne_zero _ (Nat.digits_ne_nil_iff_ne_zero.1 hne)
  · intro hn; cases hn
  · unfold mag
    simp only
    rw [List.take_left, Nat.ofDigits_digits]
  · rw [List.length_append, List.length_replicate]
    omega

theorem ofDigits_take_succ (b : Nat) (l : List Nat) (i : Nat) :
    Nat.ofDigits b (l.take (i + 1)) = Nat.ofDigits b (l.take i) + b ^ i * l.getD i 0 := by
  induction l generalizing i with
  | nil => simp
  | cons d l ih =>
    cases i with
    | zero => simp
    | succ i =>
      rw [List.take_succ_cons, Nat.ofDigits_cons, ih, List.take_succ_cons, Nat.ofDigits_cons,
        List.getD_cons_succ, pow_succ]
      ring

theorem getLoop_spec {D w : Nat} (hw : D < w) (dp : List Nat) (hlt : ∀ d ∈ dp, d < 2 ^ D) :
    ∀ (i res : Nat), getLoop D w dp i res % 2 ^ w
      = (res * (2 ^ D) ^ i + Nat.ofDigits (2 ^ D) (dp.take i)) % 2 ^ w ∧
      (res < 2 ^ w → getLoop D w dp i res < 2 ^ w) := by
  intro i
  induction i with
  | zero => intro res; simp [getLoop]
  | succ i ih =>
    intro res
    have hd := getD_lt hlt i
    have hor : (res <<< D) % 2 ^ w ||| dp.getD i 0 % 2 ^ w
        = (res <<< D) % 2 ^ w + dp.getD i 0 := by
      have hsplit : (2 : Nat) ^ w = 2 ^ D * 2 ^ (w - D) := by
        rw [← pow_add]; congr 1; omega
      rw [Nat.mod_eq_of_lt (Nat.lt_of_lt_of_le hd (Nat.pow_le_pow_right (by decide) (by omega)))]
      have hsh : (res <<< D) % 2 ^ w = (res % 2 ^ (w - D)) <<< D := by
        rw [Nat.shiftLeft_eq, Nat.shiftLeft_eq, hsplit, Nat.mul_comm res, Nat.mul_mod_mul_left,
          Nat.mul_comm]
      rw [hsh, ← Nat.shiftLeft_add_eq_or_of_lt hd]
    have hbound : (res <<< D) % 2 ^ w + dp.getD i 0 < 2 ^ w := by
      rw [← hor]
      exact Nat.or_lt_two_pow (Nat.mod_lt _ (Nat.two_pow_pos w)) (Nat.mod_lt _ (Nat.two_pow_pos w))
    unfold getLoop
    rw [hor]
    refine ⟨?_, fun _ => (ih _).2 hbound⟩
    rw [(ih _).1, ofDigits_take_succ, Nat.shiftLeft_eq]
    have e1 : (res * 2 ^ D % 2 ^ w + dp.getD i 0) * (2 ^ D) ^ i
        + Nat.ofDigits (2 ^ D) (dp.take i) ≡
        (res * 2 ^ D + dp.getD i 0) * (2 ^ D) ^ i
        + Nat.ofDigits (2 ^ D) (dp.take i) [MOD 2 ^ w] :=
      Nat.ModEq.add_right _ (Nat.ModEq.mul_right _ (Nat.ModEq.add_right _ (Nat.mod_modEq _ _)))
    rw [e1]
    congr 1
    rw [pow_succ]
    ring

theorem getMag_eq {D : Nat} (hD : Digit D) {a : Mp} (h : Ok D a) (w : Nat) (hw : 0 < w) :
    getMag D w a = mag D a % 2 ^ w := by
  have hlo := hD.lo
  have hcpos : 0 < (w + D - 1) / D := Nat.div_pos (by omega) (by omega)
  unfold getMag
  by_cases hu : a.used = 0
  · simp only [hu, Nat.zero_min, if_true]
    rw [(used_zero_iff hD h).1 hu]
    simp
  · simp only
    rw [if_neg (by omega)]
    by_cases hwD : w ≤ D
    · rw [if_pos hwD]
      have hone : (w + D - 1) / D = 1 := by
        rw [Nat.div_eq_iff (by omega)]
        omega
      rw [hone, Nat.min_eq_right (by omega), dp_getD hD h]
      simp only [Nat.sub_self, pow_zero, Nat.div_one]
      exact Nat.mod_mod_of_dvd _ (Nat.pow_dvd_pow 2 hwD)
    · rw [if_neg hwD]
      obtain ⟨g1, g2⟩ := getLoop_spec (by omega : D < w) a.dp h.lt (min a.used ((w + D - 1) / D)) 0
      rw [← Nat.mod_eq_of_lt (g2 (Nat.two_pow_pos w)), g1, Nat.zero_mul, Nat.zero_add]
      rcases Nat.le_total a.used ((w + D - 1) / D) with hle | hle
      · rw [Nat.min_eq_left hle]
        rfl
      · rw [Nat.min_eq_right hle, mag_eq_all h]
        generalize hc : (w + D - 1) / D = c at *
        have hcw : w ≤ D * c := by
          have := Nat.div_add_mod (w + D - 1) D
          have := Nat.mod_lt (w + D - 1) (show 0 < D by omega)
          rw [hc] at *
          omega
        have hlen : c ≤ a.dp.length := Nat.le_trans hle h.used_le
        conv_rhs => rw [← List.take_append_drop c a.dp, Nat.ofDigits_append]
        rw [List.length_take, Nat.min_eq_left hlen, ← pow_mul]
        have : (2 : Nat) ^ (D * c) = 2 ^ w * 2 ^ (D * c - w) := by
          rw [← pow_add]; congr 1; omega
        rw [this, Nat.mul_assoc, Nat.add_mul_mod_self_left]

theorem asSigned_congr {w : Nat} {x y : Int} (h : x % 2 ^ w = y % 2 ^ w) :
    asSigned w x = asSigned w y := by
  unfold asSigned
  rw [h]

theorem asSigned_mod (w : Nat) (x : Int) : asSigned w x % 2 ^ w = x % 2 ^ w := by
  unfold asSigned
  simp only
  split
  · exact Int.emod_emod_of_dvd _ (dvd_refl _)
  · rw [Int.sub_emod_right, Int.emod_emod_of_dvd _ (dvd_refl _)]

theorem asSigned_of_range {w : Nat} (hw : 0 < w) {x : Int} (h1 : -2 ^ (w - 1) ≤ x)
    (h2 : x < 2 ^ (w - 1)) : asSigned w x = x := by
  have hp : (2 : Int) ^ w = 2 * 2 ^ (w - 1) := by
    rw [← pow_succ']; congr 1; omega
  have hpos := pow2_pos (w - 1)
  unfold asSigned
  simp only
  rcases Int.lt_or_le x 0 with hx | hx
  · have : x % 2 ^ w = x + 2 ^ w := by
      have := Int.add_mul_emod_self_left x ((2 : Int) ^ w) 1
      rw [mul_one] at this
      rw [← this]
      exact Int.emod_eq_of_lt (by omega) (by omega)
    rw [this, if_neg (by omega)]
    omega
  · rw [Int.emod_eq_of_lt hx (by omega), if_pos h2]

theorem getSigned_eq {D : Nat} (hD : Digit D) {a : Mp} (h : Ok D a) (w : Nat) (hw : 0 < w) :
    getSigned D w a = asSigned w (toInt D a) := by
  unfold getSigned toInt
  simp only
  rw [getMag_eq hD h w hw]
  apply asSigned_congr
  have hm : asSigned w ((mag D a % 2 ^ w : Nat) : Int) % 2 ^ w = (mag D a : Int) % 2 ^ w := by
    rw [asSigned_mod]
    push_cast
    exact Int.emod_emod_of_dvd _ (dvd_refl _)
  cases a.neg
  · simpa using hm
  · simp only [if_true]
    exact Int.ModEq.neg hm

theorem setSigned_spec {D : Nat} (hD : Digit D) (w : Nat) (hw : 0 < w) (a : Mp) (b : Int)
    (h1 : -2 ^ (w - 1) ≤ b) (h2 : b < 2 ^ (w - 1)) :
    Ok D (setSigned D w a b) ∧ toInt D (setSigned D w a b) = b := by
  have hp : (2 : Int) ^ w = 2 * 2 ^ (w - 1) := by
    rw [← pow_succ']; congr 1; omega
  have hpos := pow2_pos (w - 1)
  unfold setSigned
  by_cases hb : b < 0
  · simp only [if_pos hb]
    rw [Int.emod_eq_of_lt (by omega) (by omega)]
    have hlt : (-b).toNat < 2 ^ w := by
      zify
      rw [Int.toNat_of_nonneg (by omega)]
      omega
    obtain ⟨s1, _, s3, _⟩ := setUnsigned_spec hD w a (-b).toNat hlt
    refine ⟨⟨s1.used_le, s1.lt, s1.tail, s1.top, ?_⟩, ?_⟩
    · intro _
      show 0 < (setUnsigned D w a (-b).toNat).used
      have := used_zero_iff hD s1
      rw [s3] at this
      omega
    · show (if true = true then -((mag D (setUnsigned D w a (-b).toNat) : Nat) : Int) else _) = b
      rw [if_pos rfl, s3, Int.toNat_of_nonneg (by omega)]
      omega
  · simp only [if_neg hb]
    rw [Int.emod_eq_of_lt (by omega) (by omega)]
    have hlt : b.toNat < 2 ^ w := by
      zify
      rw [Int.toNat_of_nonneg (by omega)]
      omega
    obtain ⟨s1, s2, s3, _⟩ := setUnsigned_spec hD w a b.toNat hlt
    refine ⟨s1, ?_⟩
    unfold toInt
    rw [s2, s3]
    simp only [Bool.false_eq_true, if_false]
    omega

/-! ### powers -/

theorem powFull_spec {T : Type} [Monoid T] (base : T) :
    ∀ (k e i j : Nat), powFull (fun x y : T => x * y) k e (base ^ i) (base ^ j)
      = (base ^ (i + j * (e % 2 ^ k)), base ^ (j * 2 ^ k)) := by
  intro k
  induction k with
  | zero => intro e i j; simp [powFull, Nat.mod_one]
  | succ k ih =>
    intro e i j
    unfold powFull
    have hsq : base ^ j * base ^ j = base ^ (2 * j) := by rw [← pow_add]; congr 1; omega
    have hif : (if e &&& 1 = 1 then base ^ i * base ^ j else base ^ i)
        = base ^ (i + j * (e % 2)) := by
      rw [Nat.and_one_is_mod]
      have : e % 2 < 2 := Nat.mod_lt _ (by omega)
      split
      · rename_i h; rw [h, ← pow_add, Nat.mul_one]
      · rename_i h
        rw [show e % 2 = 0 by omega, Nat.mul_zero, Nat.add_zero]
    rw [hsq, hif, ih]
    have hm : e % 2 ^ (k + 1) = e % 2 + 2 * (e / 2 % 2 ^ k) := by
      rw [pow_succ, Nat.mul_comm, Nat.mod_mul]
    rw [Nat.shiftRight_eq_div_pow, hm, pow_one]
    refine Prod.ext ?_ ?_
    · simp only
      congr 1
      ring
    · simp only
      congr 1
      rw [pow_succ]
      ring

theorem powDigits_spec {T : Type} [Monoid T] (base : T) (D : Nat) :
    ∀ (ds : List Nat) (i j : Nat), (∀ d ∈ ds, d < 2 ^ D) →
      powDigits (fun x y : T => x * y) D ds (base ^ i) (base ^ j)
      = (base ^ (i + j * Nat.ofDigits (2 ^ D) ds), base ^ (j * (2 ^ D) ^ ds.length)) := by
  intro ds
  induction ds with
  | nil => intro i j _; simp [powDigits]
  | cons d ds ih =>
    intro i j hds
    unfold powDigits
    simp only
    rw [powFull_spec, Nat.mod_eq_of_lt (hds d (by simp)), ih _ _ (fun x hx => hds x (by simp [hx]))]
    refine Prod.ext ?_ ?_
    · simp only
      congr 1
      rw [Nat.ofDigits_cons]
      ring
    · simp only
      congr 1
      rw [List.length_cons, pow_succ]
      ring

theorem powLast_spec {T : Type} [Monoid T] (base : T) :
    ∀ (e i j : Nat), powLast (fun x y : T => x * y) e (base ^ i) (base ^ j)
      = base ^ (i + j * e) := by
  intro e
  induction e using Nat.strongRecOn with
  | _ e ih =>
    intro i j
    unfold powLast
    by_cases h : e = 0
    · rw [dif_pos h, h, Nat.mul_zero, Nat.add_zero]
    · rw [dif_neg h]
      have hif : (if e &&& 1 = 1 then base ^ i * base ^ j else base ^ i)
          = base ^ (i + j * (e % 2)) := by
        rw [Nat.and_one_is_mod]
        have : e % 2 < 2 := Nat.mod_lt _ (by omega)
        split
        · rename_i h; rw [h, ← pow_add, Nat.mul_one]
        · rename_i h
          rw [show e % 2 = 0 by omega, Nat.mul_zero, Nat.add_zero]
      have hsh : e >>> 1 = e / 2 := by rw [Nat.shiftRight_eq_div_pow]
      have hdm := Nat.div_add_mod e 2
      simp only [hif, hsh]
      by_cases h0 : e / 2 = 0
      · rw [if_neg (by simpa using h0), ih (e / 2) (by omega), h0]
        congr 1
        rw [Nat.mul_zero, Nat.add_zero]
        congr 2
        omega
      · rw [if_pos h0]
        have hsq : base ^ j * base ^ j = base ^ (2 * j) := by rw [← pow_add]; congr 1; omega
        rw [hsq, ih (e / 2) (by omega)]
        congr 1
        calc i + j * (e % 2) + 2 * j * (e / 2) = i + j * (2 * (e / 2) + e % 2) := by ring
          _ = i + j * e := by rw [hdm]

end Yacl.MPInt
