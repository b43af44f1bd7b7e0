/-
C88: the byte formats, bit accessors and conversions of `MPInt` denote the right
integers.

The specification is the integer a number stands for (`toInt`), Mathlib's
`Nat.digits`/`Nat.ofDigits`, `Nat.size` and floor division on `Int`.
-/
import Verif.MpInt.Lemmas2

namespace Yacl.MPInt

theorem natAbs_toInt (D : Nat) (a : Mp) : (toInt D a).natAbs = mag D a := by
  unfold toInt
  split <;> omega

/-- The build: 60-bit digits. -/
theorem digit60 : Digit 60 := ⟨by decide, by decide, by decide⟩

/-- Two well-formed numbers that stand for the same integer have the same digits. -/
theorem toInt_inj {D : Nat} (hD : Digit D) {a b : Mp} (ha : Ok D a) (hb : Ok D b)
    (h : toInt D a = toInt D b) : a.neg = b.neg ∧ a.dp.take a.used = b.dp.take b.used := by
  have hm : mag D a = mag D b := by rw [← natAbs_toInt, ← natAbs_toInt, h]
  refine ⟨?_, by rw [digits_eq hD ha, digits_eq hD hb, hm]⟩
  have h1 := fun hn => ha.sign hn
  have h2 := fun hn => hb.sign hn
  have z1 := used_zero_iff hD ha
  have z2 := used_zero_iff hD hb
  unfold toInt at h
  cases hna : a.neg <;> cases hnb : b.neg <;> simp only [hna, hnb, if_true, Bool.false_eq_true,
    if_false] at h ⊢
  · have := h2 hnb; omega
  · have := h1 hna; omega

/-! ### number of bits -/

/-- C88 (a): `BitCount` is the bit length of the absolute value. -/
theorem C88_bit_count {D : Nat} (hD : Digit D) {a : Mp} (ha : Ok D a) :
    countBits D a = ((toInt D a).natAbs.size : Int) := by
  rw [natAbs_toInt]
  exact countBits_eq hD ha

/-- The table-driven bit length of a 64-bit word, for every word. -/
theorem C88_word_bits (v : Nat) (hv : v < 2 ^ 64) : countBitsWord v = (v.size : Int) :=
  countBitsWord_eq v hv

/-! ### magnitude bytes -/

/-- C88 (b): `ToMagBytes` gives the base-256 digits of the absolute value, least
    significant first or last, with no leading zero byte; nothing outside the
    digits is written; a buffer that is too small is refused. -/
theorem C88_mag_bytes {D : Nat} (hD : Digit D) {a : Mp} (ha : Ok D a) (buf : List Nat) :
    let ds := Nat.digits 256 (toInt D a).natAbs
    (ds.length ≤ buf.length → ∀ e, ∃ out, toMagBytes D a buf e = some (out ++ buf.drop ds.length, ds.length)
      ∧ out = match e with | .little => ds | .big => ds.reverse) ∧
    (buf.length < ds.length → ∀ e, toMagBytes D a buf e = none) := by
  rw [natAbs_toInt]
  refine ⟨fun hb e => ?_, fun hb e => ?_⟩
  · obtain ⟨buf', h1, h2⟩ := toMagBytes_written hD ha buf e hb
    refine ⟨buf'.take (Nat.digits 256 (mag D a)).length, ?_, ?_⟩
    · rw [h1, ← h2.drop, List.take_append_drop]
    · cases e
      · exact h2.take_little rfl hb
      · exact h2.take_big rfl hb
  · unfold toMagBytes
    have hu : a.used ≠ 0 := by
      intro h0
      rw [(used_zero_iff hD ha).1 h0] at hb
      simp at hb
    rw [if_neg hu]
    simp only [magBytesSize_eq hD ha]
    rw [if_pos hb]

/-- The buffer-returning overload. -/
theorem C88_mag_bytes_new {D : Nat} (hD : Digit D) {a : Mp} (ha : Ok D a) (fill : Nat) :
    MPInt_toMagBytes D fill a .little = some (Nat.digits 256 (toInt D a).natAbs) ∧
    MPInt_toMagBytes D fill a .big = some (Nat.digits 256 (toInt D a).natAbs).reverse := by
  have hsz := magBytesSize_eq hD ha
  have h := (C88_mag_bytes hD ha (List.replicate (magBytesSize D a) fill)).1
    (by rw [List.length_replicate, hsz, natAbs_toInt])
  have hdrop : (List.replicate (magBytesSize D a) fill).drop
      (Nat.digits 256 (toInt D a).natAbs).length = [] := by
    apply List.drop_eq_nil_of_le
    rw [List.length_replicate, hsz, natAbs_toInt]
  unfold MPInt_toMagBytes
  constructor
  · obtain ⟨out, h1, h2⟩ := h .little
    rw [h1, hdrop, h2]
    simp
  · obtain ⟨out, h1, h2⟩ := h .big
    rw [h1, hdrop, h2]
    simp

/-- C88 (c): `FromMagBytes` reads any byte string as an unsigned number, whatever the
    target held before, and stays inside the digits it allocated. -/
theorem C88_from_mag {D : Nat} (hD : Digit D) {a : Mp} (ha : Ok D a) (buf : List Nat)
    (hb : ∀ b ∈ buf, b < 256) (e : Endian) :
    Ok D (fromMagBytes D a buf e) ∧
    toInt D (fromMagBytes D a buf e)
      = (Nat.ofDigits 256 (match e with | .little => buf | .big => buf.reverse) : Nat) ∧
    (readDigits D (leBytes e buf) 0 0).length ≤ (buf.length * 8 + D - 1) / D := by
  obtain ⟨h1, h2, h3⟩ := fromMagBytes_spec hD ha buf hb e
  refine ⟨h1, ?_, ?_⟩
  · unfold toInt
    rw [h2, h3]
    cases e <;> rfl
  · have hlo := hD.lo
    have := (readDigits_spec hD (leBytes e buf) 0 0 (by
      intro b hbm
      cases e
      · exact hb b hbm
      · exact hb b (List.mem_reverse.1 hbm)) (by simp) (by omega) (by omega)).2.2
    have hl : (leBytes e buf).length = buf.length := by
      cases e
      · rfl
      · exact List.length_reverse
    rw [hl] at this
    rw [Nat.mul_comm]
    simpa using this

/-- C88 (d): writing the magnitude and reading it back gives the absolute value. -/
theorem C88_mag_roundtrip {D : Nat} (hD : Digit D) {a b : Mp} (ha : Ok D a) (hb : Ok D b)
    (fill : Nat) (e : Endian) :
    ∃ bytes, MPInt_toMagBytes D fill a e = some bytes ∧
      toInt D (fromMagBytes D b bytes e) = |toInt D a| := by
  obtain ⟨h1, h2⟩ := C88_mag_bytes_new hD ha fill
  have hlt : ∀ d ∈ Nat.digits 256 (toInt D a).natAbs, d < 256 :=
    fun d hd => Nat.digits_lt_base (by norm_num) hd
  cases e
  · refine ⟨_, h1, ?_⟩
    rw [(C88_from_mag hD hb _ hlt .little).2.1]
    simp only
    rw [Nat.ofDigits_digits, Int.natCast_natAbs]
  · refine ⟨_, h2, ?_⟩
    rw [(C88_from_mag hD hb _ (fun d hd => hlt d (List.mem_reverse.1 hd)) .big).2.1]
    simp only
    rw [List.reverse_reverse, Nat.ofDigits_digits, Int.natCast_natAbs]

/-! ### two's complement bytes -/

/-- C88 (e): `ToBytes` of `n` bytes is the two's complement representation modulo
    `256^n`: the byte of weight `256^p` is the `p`-th byte of the integer extended
    to the left by its sign.  Bytes of the buffer above `n` are untouched. -/
theorem C88_to_bytes {D : Nat} (hD : Digit D) {a : Mp} (ha : Ok D a) (buf : List Nat) (n : Nat)
    (hn : n ≤ buf.length) (p : Nat) (hp : p < n) :
    (((toBytes D a buf n .little).getD p 0 : Nat) : Int) = toInt D a / 256 ^ p % 256 ∧
    (((toBytes D a buf n .big).getD (n - 1 - p) 0 : Nat) : Int) = toInt D a / 256 ^ p % 256 ∧
    (toBytes D a buf n .little).drop n = buf.drop n ∧
    (toBytes D a buf n .big).drop n = buf.drop n :=
  ⟨(toBytes_spec hD ha .little n buf hn).bytes p hp, (toBytes_spec hD ha .big n buf hn).bytes p hp,
    (toBytes_spec hD ha .little n buf hn).drop, (toBytes_spec hD ha .big n buf hn).drop⟩

/-! ### bits -/

/-- C88 (f): `GetBit`/`SetBit` read and write one bit of the absolute value and leave the
    others and the sign alone (zero is non-negative). -/
theorem C88_bits {D : Nat} (hD : Digit D) {a : Mp} (ha : Ok D a) (k v : Nat) :
    (∀ i, getBit D a i = if (toInt D a).natAbs.testBit i then 1 else 0) ∧
    Ok D (setBit D a k v) ∧
    (∀ i, (toInt D (setBit D a k v)).natAbs.testBit i
      = if i = k then decide (v ≠ 0) else (toInt D a).natAbs.testBit i) ∧
    (toInt D (setBit D a k v) < 0 ↔ toInt D a < 0 ∧ toInt D (setBit D a k v) ≠ 0) := by
  obtain ⟨h1, h2, h3⟩ := setBit_spec hD ⟨ha.used_le, ha.lt, ha.tail⟩ k v
  refine ⟨fun i => by rw [natAbs_toInt]; exact getBit_eq hD ha i, h1,
    fun i => by rw [natAbs_toInt, natAbs_toInt]; exact h2 i, ?_⟩
  have hs : a.neg = true → mag D a ≠ 0 := fun hn h0 => by
    have := ha.sign hn
    have := (used_zero_iff hD ha).2 h0
    omega
  unfold toInt
  rw [h3]
  cases hn : a.neg
  · simp only [Bool.false_and, Bool.false_eq_true, if_false]
    constructor
    · intro h; omega
    · intro h; omega
  · have := hs hn
    by_cases h0 : mag D (setBit D a k v) = 0
    · simp [h0]
    · simp only [Bool.true_and, ne_eq, h0, not_false_eq_true, decide_true, if_true]
      omega

/-! ### signed serialisation -/

/-- Lists of bytes by value and length. -/
theorem list_eq_of_ofDigits {l l' : List Nat} (h : l.length = l'.length)
    (h1 : ∀ d ∈ l, d < 256) (h2 : ∀ d ∈ l', d < 256)
    (h3 : Nat.ofDigits 256 l = Nat.ofDigits 256 l') : l = l' := by
  apply List.ext_getElem h
  intro i hi hi'
  have e1 := getD_ofDigits (by norm_num : 1 < 256) l h1 i
  have e2 := getD_ofDigits (by norm_num : 1 < 256) l' h2 i
  rw [List.getD_eq_getElem _ _ hi] at e1
  rw [List.getD_eq_getElem _ _ hi'] at e2
  rw [e1, e2, h3]

theorem half_pow (n : Nat) (hn : 0 < n) : 2 ^ (8 * n - 1) = 128 * 256 ^ (n - 1) := by
  rw [show (256 : Nat) = 2 ^ 8 by norm_num, show (128 : Nat) = 2 ^ 7 by norm_num, ← pow_mul,
    ← pow_add]
  congr 1
  omega

/-- C88 (g): `Serialize` writes `size` bytes, the absolute value in little-endian order
    with the sign in the top bit of the last byte. -/
theorem C88_serialize {D : Nat} (hD : Digit D) {a : Mp} (ha : Ok D a) (fill : Nat) :
    ∃ bytes, MPInt_serialize D fill a = some bytes ∧
      bytes.length = (toInt D a).natAbs.size / 8 + 1 ∧ (∀ b ∈ bytes, b < 256) ∧
      Nat.ofDigits 256 bytes
        = (toInt D a).natAbs + (if toInt D a < 0 then 2 ^ (8 * bytes.length - 1) else 0) ∧
      (toInt D a).natAbs < 2 ^ (8 * bytes.length - 1) := by
  rw [natAbs_toInt]
  have hneg : (toInt D a < 0) ↔ a.neg = true := by
    unfold toInt
    have hs : a.neg = true → mag D a ≠ 0 := fun hn h0 => by
      have := ha.sign hn
      have := (used_zero_iff hD ha).2 h0
      omega
    cases hn : a.neg
    · simp
    · have := hs hn
      simp only [if_true, iff_true]
      omega
  have htot : serializeSize D a = (mag D a).size / 8 + 1 := by
    unfold serializeSize
    rw [countBits_eq hD ha]
    simp
  have hL := length_digits256 (mag D a)
  have hsmall : mag D a < 2 ^ (8 * ((mag D a).size / 8 + 1) - 1) :=
    Nat.lt_of_lt_of_le (Nat.lt_size_self _) (Nat.pow_le_pow_right (by decide) (by omega))
  generalize hT : (mag D a).size / 8 + 1 = T at *
  have hTpos : 0 < T := by omega
  -- the magnitude bytes in the buffer
  have hlen0 : ((List.replicate T fill).set (T - 1) 0).length = T := by simp
  obtain ⟨buf', h1, h2⟩ := toMagBytes_written hD ha ((List.replicate T fill).set (T - 1) 0) .little
    (by rw [hlen0, hL]; omega)
  have hlen' : buf'.length = T := by rw [h2.len, hlen0]
  have hbytes : ∀ i, i < T → buf'.getD i 0 = mag D a / 256 ^ i % 256 := by
    intro i hi
    by_cases hin : i < (Nat.digits 256 (mag D a)).length
    · have := h2.bytes i hin
      simp only [place] at this
      exact_mod_cast this
    · have hiT : i = T - 1 := by omega
      rw [h2.rest i (by omega), hiT, getD_set, if_pos ⟨rfl, by simp; omega⟩]
      have : mag D a < 256 ^ (T - 1) := by
        rw [← Nat.digits_length_le_iff (by norm_num)]
        omega
      rw [Nat.div_eq_of_lt this]
  have hmem : ∀ b ∈ buf', b < 256 := by
    intro b hb
    obtain ⟨i, hi, rfl⟩ := List.mem_iff_getElem.1 hb
    have := hbytes i (by omega)
    rw [List.getD_eq_getElem _ _ hi] at this
    rw [this]
    exact Nat.mod_lt _ (by norm_num)
  have hval : Nat.ofDigits 256 buf' = mag D a := by
    have hMlt : mag D a < 256 ^ T := by
      rw [← Nat.digits_length_le_iff (by norm_num)]; omega
    have : buf' = Nat.digits 256 (mag D a) ++
        List.replicate (T - (Nat.digits 256 (mag D a)).length) 0 := by
      apply List.ext_getElem
      · rw [List.length_append, List.length_replicate]; omega
      · intro i hi hi'
        have e1 := hbytes i (by omega)
        rw [List.getD_eq_getElem _ _ hi] at e1
        rw [e1, ← Nat.getD_digits _ _ (by norm_num), ← List.getD_eq_getElem _ 0 hi']
        simp only [List.getD_eq_getElem?_getD]
        by_cases hin : i < (Nat.digits 256 (mag D a)).length
        · rw [List.getElem?_append_left hin]
        · rw [List.getElem?_append_right (by omega), List.getElem?_replicate,
            List.getElem?_eq_none (by omega)]
          split <;> rfl
    rw [this, Nat.ofDigits_append_replicate_zero, Nat.ofDigits_digits]
  have htop : buf'.getD (T - 1) 0 < 128 := by
    rw [hbytes (T - 1) (by omega)]
    apply Nat.lt_of_le_of_lt (Nat.mod_le _ _)
    rw [Nat.div_lt_iff_lt_mul (by positivity), ← half_pow T hTpos]
    exact hsmall
  -- the sign bit
  have hor : buf'.getD (T - 1) 0 ||| (if a.neg then 1 else 0) <<< 7
      = buf'.getD (T - 1) 0 + (if a.neg then 128 else 0) := by
    have : (if a.neg then 1 else 0 : Nat) <<< 7 = (if a.neg then 128 else 0) := by
      cases a.neg <;> rfl
    rw [Nat.or_comm, ← Nat.shiftLeft_add_eq_or_of_lt (by simpa using htop), this, Nat.add_comm]
  have hser : MPInt_serialize D fill a = some (buf'.set (T - 1)
      (buf'.getD (T - 1) 0 + (if a.neg then 128 else 0))) := by
    unfold MPInt_serialize serialize
    simp only [htot, List.length_replicate]
    rw [if_neg (Nat.lt_irrefl T), h1]
    simp only
    rw [if_pos (by omega), ← hor]
    rfl
  generalize hb : buf'.getD (T - 1) 0 = b at *
  have hsplit : buf' = buf'.take (T - 1) ++ [b] := by
    conv_lhs => rw [← List.take_append_drop (T - 1) buf']
    congr 1
    have hlt : T - 1 < buf'.length := by omega
    rw [List.drop_eq_getElem_cons hlt, List.drop_eq_nil_of_le (by omega)]
    rw [← hb, List.getD_eq_getElem _ _ hlt]
  have hset : ∀ x, buf'.set (T - 1) x = buf'.take (T - 1) ++ [x] := by
    intro x
    have hlt : T - 1 < buf'.length := by omega
    rw [List.set_eq_take_append_cons_drop, if_pos hlt, List.drop_eq_nil_of_le (by omega)]
  have htl : (buf'.take (T - 1)).length = T - 1 := by rw [List.length_take]; omega
  refine ⟨_, hser, by rw [List.length_set, hlen'], ?_, ?_, by rw [List.length_set, hlen']; exact hsmall⟩
  · intro x hx
    rcases List.mem_or_eq_of_mem_set hx with hx | rfl
    · exact hmem x hx
    · cases a.neg <;> simp <;> omega
  · rw [List.length_set, hlen', hset, Nat.ofDigits_append, Nat.ofDigits_singleton, htl]
    rw [hsplit, Nat.ofDigits_append, Nat.ofDigits_singleton, htl] at hval
    rw [half_pow T hTpos, Nat.mul_add, ← Nat.add_assoc, hval]
    by_cases hn : a.neg = true
    · rw [if_pos hn, if_pos (hneg.2 hn), Nat.mul_comm]
    · rw [if_neg hn, if_neg (fun h => hn (hneg.1 h)), Nat.mul_zero]

/-- C88 (h): `Deserialize` of any non-empty byte string, into any number: the top bit of
    the last byte is the sign, the remaining bits are the absolute value (a
    negative zero is read as zero). -/
theorem C88_deserialize {D : Nat} (hD : Digit D) {a : Mp} (ha : Ok D a) (buf : List Nat)
    (hb : ∀ b ∈ buf, b < 256) :
    (buf = [] → deserialize D a buf = none) ∧
    (buf ≠ [] → ∃ r, deserialize D a buf = some r ∧ Ok D r ∧
      toInt D r = (if 2 ^ (8 * buf.length - 1) ≤ Nat.ofDigits 256 buf
        then -(((Nat.ofDigits 256 buf : Nat) : Int) - 2 ^ (8 * buf.length - 1))
        else ((Nat.ofDigits 256 buf : Nat) : Int))) := by
  constructor
  · rintro rfl; rfl
  · intro hne
    have hlen : 0 < buf.length := List.length_pos_iff.2 hne
    obtain ⟨f1, f2, f3⟩ := fromMagBytes_spec hD ha buf hb .little
    simp only [leBytes] at f3
    unfold deserialize
    rw [if_neg (by omega)]
    refine ⟨_, rfl, ?_⟩
    have htopd : buf.getD (buf.length - 1) 0 = Nat.ofDigits 256 buf / 256 ^ (buf.length - 1) := by
      rw [getD_ofDigits (by norm_num) buf hb, Nat.mod_eq_of_lt]
      rw [Nat.div_lt_iff_lt_mul (by positivity), ← pow_succ', Nat.sub_add_cancel (by omega)]
      exact Nat.ofDigits_lt_base_pow_length (by norm_num) hb
    have hVlt : Nat.ofDigits 256 buf < 2 ^ (8 * buf.length) := by
      have := Nat.ofDigits_lt_base_pow_length (b := 256) (by norm_num) hb
      rwa [show (256 : Nat) ^ buf.length = 2 ^ (8 * buf.length) by rw [pow_mul]; norm_num] at this
    have hhalf := half_pow buf.length hlen
    have hdbl : 2 ^ (8 * buf.length) = 2 * 2 ^ (8 * buf.length - 1) := by
      rw [← pow_succ']; congr 1; omega
    generalize hV : Nat.ofDigits 256 buf = V at *
    have hsign : (buf.getD (buf.length - 1) 0 >>> 7 = 1) ↔ 2 ^ (8 * buf.length - 1) ≤ V := by
      rw [htopd, Nat.shiftRight_eq_div_pow, Nat.div_div_eq_div_mul, hhalf,
        Nat.mul_comm (256 ^ (buf.length - 1))]
      have hp : 0 < 128 * 256 ^ (buf.length - 1) := by positivity
      constructor
      · intro h
        by_contra hlt
        rw [Nat.div_eq_of_lt (by simpa using hlt)] at h
        omega
      · intro h
        have h2 : V / (2 ^ 7 * 256 ^ (buf.length - 1)) < 2 := by
          rw [Nat.div_lt_iff_lt_mul (by positivity)]
          omega
        have h3 : 0 < V / (2 ^ 7 * 256 ^ (buf.length - 1)) := Nat.div_pos (by simpa using h)
          (by positivity)
        omega
    generalize hr : fromMagBytes D a buf Endian.little = r at *
    obtain ⟨s1, s2, s3⟩ := setBit_spec hD (a := { r with neg := decide (buf.getD (buf.length - 1) 0 >>> 7 = 1) })
      ⟨f1.used_le, f1.lt, f1.tail⟩ (buf.length * 8 - 1) 0
    refine ⟨s1, ?_⟩
    have hm : mag D { r with neg := decide (buf.getD (buf.length - 1) 0 >>> 7 = 1) } = V := f3
    rw [hm] at s2
    -- the magnitude afterwards
    have hmag : mag D (setBit D { r with neg := decide (buf.getD (buf.length - 1) 0 >>> 7 = 1) }
        (buf.length * 8 - 1) 0) = V % 2 ^ (8 * buf.length - 1) := by
      apply Nat.eq_of_testBit_eq
      intro i
      rw [s2 i, Nat.testBit_mod_two_pow]
      by_cases hi : i = buf.length * 8 - 1
      · rw [if_pos hi, hi]
        simp
        intro h; omega
      · rw [if_neg hi]
        by_cases hlt : i < 8 * buf.length - 1
        · simp [hlt]
        · have : V.testBit i = false := Nat.testBit_lt_two_pow
            (Nat.lt_of_lt_of_le hVlt (Nat.pow_le_pow_right (by decide) (by omega)))
          simp [this]
    have hcast : (2 : Int) ^ (8 * buf.length - 1) = ((2 ^ (8 * buf.length - 1) : Nat) : Int) := by
      push_cast; rfl
    unfold toInt
    rw [s3, hmag, hcast]
    have hneg : ({ r with neg := decide (buf.getD (buf.length - 1) 0 >>> 7 = 1) } : Mp).neg
        = decide (2 ^ (8 * buf.length - 1) ≤ V) := decide_eq_decide.2 hsign
    rw [hneg]
    clear hneg hcast hmag s3 s2 s1 hm hsign hhalf htopd f1 f2 f3
    generalize 2 ^ (8 * buf.length - 1) = H at *
    by_cases hge : H ≤ V
    · have hmod : V % H = V - H := by
        rw [Nat.mod_eq_sub_mod hge, Nat.mod_eq_of_lt (by omega)]
      rw [hmod, if_pos hge]
      by_cases h0 : V - H = 0
      · simp only [hge, h0, decide_true, ne_eq, not_true_eq_false, decide_false, Bool.and_false,
          Bool.false_eq_true, if_false]
        omega
      · simp only [hge, h0, decide_true, ne_eq, not_false_eq_true, Bool.and_self, if_true]
        omega
    · rw [if_neg hge, Nat.mod_eq_of_lt (by omega)]
      simp [hge]

/-- C88 (i): `Deserialize(Serialize(x)) = x` for every integer, whatever the target held. -/
theorem C88_serialize_roundtrip {D : Nat} (hD : Digit D) {a b : Mp} (ha : Ok D a) (hb : Ok D b)
    (fill : Nat) :
    ∃ bytes r, MPInt_serialize D fill a = some bytes ∧ deserialize D b bytes = some r ∧
      Ok D r ∧ toInt D r = toInt D a := by
  obtain ⟨bytes, h1, h2, h3, h4, h5⟩ := C88_serialize hD ha fill
  have hne : bytes ≠ [] := by
    intro h; rw [h] at h2; simp at h2
  obtain ⟨r, r1, r2, r3⟩ := (C88_deserialize hD hb bytes h3).2 hne
  refine ⟨bytes, r, h1, r1, r2, ?_⟩
  rw [r3, h4]
  by_cases hn : toInt D a < 0
  · rw [if_pos hn, if_pos (by omega)]
    push_cast
    have : |toInt D a| = -toInt D a := abs_of_neg hn
    rw [this]
    ring
  · rw [if_neg hn, Nat.add_zero, if_neg (by omega)]
    rw [Int.natCast_natAbs]
    exact abs_of_nonneg (by omega)

/-- Hence different integers have different serialisations. -/
theorem C88_serialize_injective {D : Nat} (hD : Digit D) {a b : Mp} (ha : Ok D a) (hb : Ok D b)
    (f g : Nat) (h : MPInt_serialize D f a = MPInt_serialize D g b) : toInt D a = toInt D b := by
  obtain ⟨x, r, h1, h2, _, h4⟩ := C88_serialize_roundtrip hD ha ha f
  obtain ⟨y, s, g1, g2, _, g4⟩ := C88_serialize_roundtrip hD hb ha g
  rw [h1, g1] at h
  cases h
  rw [h2] at g2
  cases g2
  rw [← h4, ← g4]

/-! ### built-in integers -/

/-- C88 (j): setting from an unsigned or signed `w`-bit integer stores exactly it,
    whatever the number held before. -/
theorem C88_set {D : Nat} (hD : Digit D) (w : Nat) (hw : 0 < w) (a : Mp) :
    (∀ b : Nat, b < 2 ^ w → Ok D (setUnsigned D w a b) ∧ toInt D (setUnsigned D w a b) = b) ∧
    (∀ b : Int, -2 ^ (w - 1) ≤ b → b < 2 ^ (w - 1) →
      Ok D (setSigned D w a b) ∧ toInt D (setSigned D w a b) = b) := by
  refine ⟨fun b hb => ?_, fun b h1 h2 => setSigned_spec hD w hw a b h1 h2⟩
  obtain ⟨s1, s2, s3, _⟩ := setUnsigned_spec hD w a b hb
  refine ⟨s1, ?_⟩
  unfold toInt
  rw [s2, s3]
  rfl

/-- C88 (k): getting an unsigned `w`-bit integer is the absolute value modulo `2^w`;
    getting a signed one is the integer reduced into the signed range. -/
theorem C88_get {D : Nat} (hD : Digit D) (w : Nat) (hw : 0 < w) {a : Mp} (ha : Ok D a) :
    getMag D w a = (toInt D a).natAbs % 2 ^ w ∧
    (getSigned D w a - toInt D a) % 2 ^ w = 0 ∧
    -2 ^ (w - 1) ≤ getSigned D w a ∧ getSigned D w a < 2 ^ (w - 1) := by
  refine ⟨by rw [natAbs_toInt]; exact getMag_eq hD ha w hw, ?_⟩
  rw [getSigned_eq hD ha w hw]
  have hp : (2 : Int) ^ w = 2 * 2 ^ (w - 1) := by
    rw [← pow_succ']; congr 1; omega
  have hpos := pow2_pos (w - 1)
  refine ⟨Int.emod_eq_emod_iff_emod_sub_eq_zero.1 (asSigned_mod w _), ?_⟩
  unfold asSigned
  simp only
  have h1 := Int.emod_nonneg (toInt D a) (show (2 : Int) ^ w ≠ 0 by omega)
  have h2 := Int.emod_lt_of_pos (toInt D a) (show (0 : Int) < 2 ^ w by omega)
  split <;> omega

/-- C88 (l): `Get<T>(Set<T>(v)) = v`. -/
theorem C88_set_get {D : Nat} (hD : Digit D) (w : Nat) (hw : 0 < w) (a : Mp) :
    (∀ b : Nat, b < 2 ^ w → getMag D w (setUnsigned D w a b) = b) ∧
    (∀ b : Int, -2 ^ (w - 1) ≤ b → b < 2 ^ (w - 1) → getSigned D w (setSigned D w a b) = b) := by
  obtain ⟨h1, h2⟩ := C88_set hD w hw a
  refine ⟨fun b hb => ?_, fun b hb1 hb2 => ?_⟩
  · rw [(C88_get hD w hw (h1 b hb).1).1, (h1 b hb).2, Int.natAbs_natCast, Nat.mod_eq_of_lt hb]
  · rw [getSigned_eq hD (h2 b hb1 hb2).1 w hw, (h2 b hb1 hb2).2]
    exact asSigned_of_range hw hb1 hb2

/-! ### random bits -/

theorem and_mask_lt (x k : Nat) : x &&& (2 ^ k - 1) < 2 ^ k := by
  rw [Nat.and_two_pow_sub_one_eq_mod]
  exact Nat.mod_lt _ (Nat.two_pow_pos k)

/-- C88 (m): `RandomExactBits(bits)` is a number below `2^bits`, whatever the random source
    delivers, and every such number is delivered for some random words. -/
theorem C88_rand_bits {D : Nat} (hD : Digit D) (bits : Nat) :
    (∀ words : List Nat, (bits + D - 1) / D ≤ words.length →
      Ok D (randBits D bits words) ∧ 0 ≤ toInt D (randBits D bits words) ∧
      toInt D (randBits D bits words) < 2 ^ bits) ∧
    (∀ r : Nat, r < 2 ^ bits → ∃ words : List Nat, words.length = (bits + D - 1) / D ∧
      (∀ x ∈ words, x < 2 ^ 64) ∧ toInt D (randBits D bits words) = r) := by
  have hlo := hD.lo
  have hhi := hD.hi
  have hB := one_lt_base hD
  by_cases hb0 : bits = 0
  · subst hb0
    refine ⟨fun words _ => ?_, fun r hr => ?_⟩
    · refine ⟨⟨by simp [randBits], by simp [randBits], by simp [randBits], by simp [randBits],
        by simp [randBits]⟩, by simp [randBits, toInt, mag], by simp [randBits, toInt, mag]⟩
    · obtain rfl : r = 0 := by simpa using hr
      refine ⟨[], ?_, by simp, by simp [randBits, toInt, mag]⟩
      rw [List.length_nil, Nat.zero_add, Nat.div_eq_of_lt (by omega)]
  · -- number of digits
    have hdm := Nat.div_add_mod (bits + D - 1) D
    have hml := Nat.mod_lt (bits + D - 1) (show 0 < D by omega)
    have hbdm := Nat.div_add_mod bits D
    have hbml := Nat.mod_lt bits (show 0 < D by omega)
    generalize hn : (bits + D - 1) / D = n at *
    have hnpos : 0 < n := by
      rcases Nat.eq_zero_or_pos n with h | h
      · rw [h, Nat.mul_zero] at hdm; omega
      · exact h
    obtain ⟨m, rfl⟩ : ∃ m, n = m + 1 := ⟨n - 1, by omega⟩
    have hmul : D * (m + 1) = D * m + D := by ring
    have hbm : D * m < bits := by omega
    -- top digit width
    have hrem : 0 < bits % D → bits = D * m + bits % D := by
      intro hpos
      have hq : bits / D = m := by
        have h1 : bits / D * D ≤ bits := Nat.div_mul_le_self _ _
        apply le_antisymm
        · by_contra hlt
          have h2 : D * (m + 1) ≤ D * (bits / D) := Nat.mul_le_mul_left _ (by omega)
          omega
        · by_contra hlt
          have h2 : D * (bits / D + 1) ≤ D * m := Nat.mul_le_mul_left _ (by omega)
          have : D * (bits / D + 1) = D * (bits / D) + D := by ring
          omega
      rw [hq] at hbdm
      omega
    have hrem0 : bits % D = 0 → bits = D * m + D := by
      intro h0
      rw [h0] at hbdm
      have h1 : D * (bits / D) = bits := by omega
      have hq : bits / D = m + 1 := by
        apply le_antisymm
        · by_contra hlt
          have h2 : D * (m + 2) ≤ D * (bits / D) := Nat.mul_le_mul_left _ (by omega)
          have : D * (m + 2) = D * m + 2 * D := by ring
          omega
        · by_contra hlt
          have h2 : D * (bits / D) ≤ D * m := Nat.mul_le_mul_left _ (by omega)
          omega
      rw [hq] at h1
      omega
    -- the digit array
    have hform : ∀ words : List Nat, m + 1 ≤ words.length →
        ∃ dp, randBits D bits words = clamp ⟨false, m + 1, dp⟩ ∧ dp.length = m + 1 ∧
          (∀ d ∈ dp, d < 2 ^ D) ∧
          (∀ i, i < m → dp.getD i 0 = words.getD i 0 % 2 ^ D) ∧
          dp.getD m 0 = words.getD m 0 % 2 ^ (bits - D * m) := by
      intro words hw
      refine ⟨_, by unfold randBits; rw [if_neg hb0]; simp only [hn, Nat.add_sub_cancel]; rfl, ?_⟩
      have hbase : ∀ i, i < m + 1 → ((words.take (m + 1)).map (· &&& (2 ^ D - 1))).getD i 0
          = words.getD i 0 % 2 ^ D := by
        intro i hi
        rw [List.getD_eq_getElem _ _ (by simp; omega), List.getD_eq_getElem _ _ (by omega)]
        rw [List.getElem_map, List.getElem_take, Nat.and_two_pow_sub_one_eq_mod]
      have hlen : ((words.take (m + 1)).map (· &&& (2 ^ D - 1))).length = m + 1 := by simp; omega
      have hltb : ∀ d ∈ (words.take (m + 1)).map (· &&& (2 ^ D - 1)), d < 2 ^ D := by
        intro d hd
        obtain ⟨x, _, rfl⟩ := List.mem_map.1 hd
        exact and_mask_lt _ _
      generalize (words.take (m + 1)).map (· &&& (2 ^ D - 1)) = dp0 at *
      by_cases hpos : 0 < bits % D
      · rw [if_pos hpos, shl64_one (by omega), Nat.and_two_pow_sub_one_eq_mod]
        have hb := hrem hpos
        refine ⟨by rw [List.length_set, hlen], ?_, ?_, ?_⟩
        · intro d hd
          rcases List.mem_or_eq_of_mem_set hd with hd | rfl
          · exact hltb d hd
          · exact Nat.lt_of_lt_of_le (Nat.mod_lt _ (Nat.two_pow_pos _))
              (Nat.pow_le_pow_right (by decide) (by omega))
        · intro i hi
          rw [getD_set, if_neg (by omega), hbase i (by omega)]
        · rw [getD_set, if_pos ⟨rfl, by omega⟩, hbase m (by omega)]
          rw [show bits - D * m = bits % D by omega]
          exact Nat.mod_mod_of_dvd _ (Nat.pow_dvd_pow 2 (by omega))
      · rw [if_neg hpos]
        have hb := hrem0 (by omega)
        refine ⟨hlen, hltb, fun i hi => hbase i (by omega), ?_⟩
        rw [hbase m (by omega), show bits - D * m = D by omega]
    have hpre : ∀ dp : List Nat, dp.length = m + 1 → (∀ d ∈ dp, d < 2 ^ D) →
        PreOk D ⟨false, m + 1, dp⟩ := by
      intro dp h1 h2
      refine ⟨by simp [h1], h2, fun i hi => ?_⟩
      exact List.getD_eq_default _ _ (by simp only at hi ⊢; omega)
    have hval : ∀ dp : List Nat, dp.length = m + 1 → (∀ d ∈ dp, d < 2 ^ D) →
        toInt D (clamp ⟨false, m + 1, dp⟩) = ((Nat.ofDigits (2 ^ D) (dp.take m)
          + (2 ^ D) ^ m * dp.getD m 0 : Nat) : Int) := by
      intro dp h1 h2
      rw [clamp_toInt hD (hpre dp h1 h2)]
      unfold toInt mag
      simp only [Bool.false_eq_true, if_false]
      rw [ofDigits_take_succ]
    refine ⟨fun words hw => ?_, fun r hr => ?_⟩
    · obtain ⟨dp, e1, e2, e3, _, e5⟩ := hform words hw
      rw [e1]
      refine ⟨(clamp_spec hD (hpre dp e2 e3)).1, ?_, ?_⟩
      · rw [hval dp e2 e3]; positivity
      · rw [hval dp e2 e3]
        have h1 : Nat.ofDigits (2 ^ D) (dp.take m) < (2 ^ D) ^ m := by
          have := Nat.ofDigits_lt_base_pow_length hB
            (l := dp.take m) (fun d hd => e3 d (List.mem_of_mem_take hd))
          rwa [List.length_take, e2, Nat.min_eq_left (by omega)] at this
        have h2 : dp.getD m 0 + 1 ≤ 2 ^ (bits - D * m) := by
          rw [e5]; exact Nat.mod_lt _ (Nat.two_pow_pos _)
        have h3 : (2 : Nat) ^ bits = (2 ^ D) ^ m * 2 ^ (bits - D * m) := by
          rw [← pow_mul, ← pow_add]; congr 1; omega
        have h4 : (2 ^ D) ^ m * (dp.getD m 0 + 1) ≤ (2 ^ D) ^ m * 2 ^ (bits - D * m) :=
          Nat.mul_le_mul_left _ h2
        rw [← h3, Nat.mul_add, Nat.mul_one] at h4
        have : Nat.ofDigits (2 ^ D) (dp.take m) + (2 ^ D) ^ m * dp.getD m 0 < 2 ^ bits := by omega
        exact_mod_cast this
    · -- the digits of `r`, padded
      refine ⟨(List.range (m + 1)).map fun i => r / (2 ^ D) ^ i % 2 ^ D, by simp, ?_, ?_⟩
      · intro x hx
        obtain ⟨i, _, rfl⟩ := List.mem_map.1 hx
        exact Nat.lt_of_lt_of_le (Nat.mod_lt _ (Nat.two_pow_pos D))
          (Nat.pow_le_pow_right (by decide) (by omega))
      · have hwget : ∀ i, i < m + 1 →
            ((List.range (m + 1)).map fun i => r / (2 ^ D) ^ i % 2 ^ D).getD i 0
            = r / (2 ^ D) ^ i % 2 ^ D := by
          intro i hi
          rw [List.getD_eq_getElem _ _ (by simpa using hi)]
          simp
        obtain ⟨dp, e1, e2, e3, e4, e5⟩ := hform
          ((List.range (m + 1)).map fun i => r / (2 ^ D) ^ i % 2 ^ D) (by simp)
        rw [e1, hval dp e2 e3]
        have hrlt : r < (2 ^ D) ^ (m + 1) := by
          rw [← pow_mul, hmul]
          exact Nat.lt_of_lt_of_le hr (Nat.pow_le_pow_right (by decide) (by omega))
        have hdigit : ∀ i, dp.getD i 0 = r / (2 ^ D) ^ i % 2 ^ D := by
          intro i
          rcases Nat.lt_trichotomy i m with hi | rfl | hi
          · rw [e4 i hi, hwget i (by omega), Nat.mod_mod]
          · rw [e5, hwget i (by omega)]
            have h1 : r / (2 ^ D) ^ i < 2 ^ (bits - D * i) := by
              rw [Nat.div_lt_iff_lt_mul (by positivity), ← pow_mul, ← pow_add]
              rwa [show bits - D * i + D * i = bits by omega]
            have h2 : (2 : Nat) ^ (bits - D * i) ≤ 2 ^ D :=
              Nat.pow_le_pow_right (by decide) (by omega)
            rw [Nat.mod_eq_of_lt (Nat.lt_of_lt_of_le h1 h2), Nat.mod_eq_of_lt h1]
          · rw [List.getD_eq_default _ _ (by omega), Nat.div_eq_of_lt, Nat.zero_mod]
            exact Nat.lt_of_lt_of_le hrlt (Nat.pow_le_pow_right (by positivity) (by omega))
        rw [← ofDigits_take_succ, List.take_of_length_le (by omega)]
        congr 1
        -- equal digits, equal value
        have hd : ∀ i, (Nat.digits (2 ^ D) r).getD i 0 = dp.getD i 0 := by
          intro i
          rw [hdigit, Nat.getD_digits _ _ (by omega)]
        have hdl : (Nat.digits (2 ^ D) r).length ≤ m + 1 := by
          rw [Nat.digits_length_le_iff hB]; exact hrlt
        have : dp = Nat.digits (2 ^ D) r ++
            List.replicate (m + 1 - (Nat.digits (2 ^ D) r).length) 0 := by
          apply List.ext_getElem
          · rw [List.length_append, List.length_replicate]; omega
          · intro i hi hi'
            rw [← List.getD_eq_getElem _ 0 hi, ← hd, ← List.getD_eq_getElem _ 0 hi']
            simp only [List.getD_eq_getElem?_getD]
            by_cases hin : i < (Nat.digits (2 ^ D) r).length
            · rw [List.getElem?_append_left hin]
            · rw [List.getElem?_append_right (by omega), List.getElem?_replicate,
                List.getElem?_eq_none (by omega)]
              split <;> rfl
        rw [this, Nat.ofDigits_append_replicate_zero, Nat.ofDigits_digits]

/-! ### generic powers -/

/-- C88 (n): `SlowCustomPow` computes `base ^ scalar` in any monoid, for every
    non-negative scalar, and refuses negative ones. -/
theorem C88_custom_pow {T : Type} [Monoid T] (base : T) {D : Nat} (hD : Digit D) {k : Mp}
    (hk : Ok D k) :
    slowCustomPow (fun x y : T => x * y) 1 base D k
      = if toInt D k < 0 then none else some (base ^ (toInt D k).natAbs) := by
  rw [natAbs_toInt]
  have hs : k.neg = true → mag D k ≠ 0 := fun hn h0 => by
    have := hk.sign hn
    have := (used_zero_iff hD hk).2 h0
    omega
  unfold slowCustomPow toInt
  cases hn : k.neg
  · simp only [Bool.false_eq_true, if_false]
    rw [if_neg (by omega : ¬ ((mag D k : Int) < 0))]
    by_cases hu : k.used = 0
    · rw [if_pos hu, (used_zero_iff hD hk).1 hu, pow_zero]
    · rw [if_neg hu]
      have hp := powDigits_spec base D (k.dp.take (k.used - 1)) 0 1
        (fun d hd => hk.lt d (List.mem_of_mem_take hd))
      rw [pow_zero, pow_one] at hp
      simp only [hp]
      rw [powLast_spec, Nat.and_two_pow_sub_one_eq_mod, Nat.mod_eq_of_lt (getD_lt hk.lt _)]
      congr 2
      have hule := hk.used_le
      have := ofDigits_take_succ (2 ^ D) k.dp (k.used - 1)
      rw [show k.used - 1 + 1 = k.used by omega] at this
      unfold mag
      rw [this, List.length_take, Nat.min_eq_left (by omega)]
      ring
  · simp only [if_true]
    have := hs hn
    rw [if_pos (by omega)]

/-! ### the hypotheses are met -/

/-- `-(2^60 + 5)`, two digits, one spare. -/
def sample : Mp := ⟨true, 2, [5, 1, 0]⟩

theorem sample_ok : Ok 60 sample := by
  refine ⟨by decide, ?_, ?_, by decide, by decide⟩
  · intro d hd
    simp [sample] at hd
    rcases hd with rfl | rfl | rfl <;> norm_num
  · intro i hi
    rcases i with _ | _ | _ | i
    · exact absurd hi (by decide)
    · exact absurd hi (by decide)
    · rfl
    · rfl

example : toInt 60 sample = -(2 ^ 60 + 5) := by
  simp [toInt, mag, sample, Nat.ofDigits_cons]

example : MPInt_serialize 60 0 sample = some [5, 0, 0, 0, 0, 0, 0, 0x90] := by decide +kernel
example : toBytes 60 sample (List.replicate 10 0) 10 .big
    = [0xff, 0xff, 0xef, 0xff, 0xff, 0xff, 0xff, 0xff, 0xff, 0xfb] := by decide +kernel
example : countBits 60 sample = 61 := by decide +kernel

end Yacl.MPInt
