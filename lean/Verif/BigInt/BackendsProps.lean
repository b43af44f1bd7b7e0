/-
C110: the OpenSSL and GMP integers agree with each other and with `MPInt`, except where
shown.
-/
import Verif.BigInt.Backends
import Mathlib.Tactic.Linarith
import Mathlib.Tactic.Ring
import Mathlib.Tactic.IntervalCases
import Mathlib.Algebra.Order.Ring.Int

namespace Yacl.BigInt.Back

open Yacl.MPInt (Endian)

/-! ### two's complement bytes -/

/-- The `len` low bytes of an integer in two's complement, least significant first. -/
def twos (z : Int) (len : Nat) : List Nat :=
  (List.range len).map fun i => (z / 256 ^ i % 256).toNat

theorem twos_length (z : Int) (len : Nat) : (twos z len).length = len := by simp [twos]

theorem twos_zero (z : Int) : twos z 0 = [] := rfl

theorem twos_succ (z : Int) (len : Nat) :
    twos z (len + 1) = (z % 256).toNat :: twos (z / 256) len := by
  unfold twos
  rw [List.range_succ_eq_map]
  simp only [List.map_cons, pow_zero, Int.ediv_one, List.map_map]
  congr 1
  apply List.map_congr_left
  intro i _
  simp only [Function.comp]
  rw [Int.ediv_ediv_of_nonneg (by norm_num), pow_succ']

theorem twos_getD (z : Int) (len p : Nat) (hp : p < len) :
    (((twos z len).getD p 0 : Nat) : Int) = z / 256 ^ p % 256 := by
  unfold twos
  rw [List.getD_eq_getElem _ _ (by simpa using hp)]
  simp only [List.getElem_map, List.getElem_range]
  exact Int.toNat_of_nonneg (Int.emod_nonneg _ (by norm_num))

theorem le_eq_twos (n len : Nat) : le n len = twos n len := by
  unfold le twos
  apply List.map_congr_left
  intro i _
  have : ((n : Int) / 256 ^ i % 256) = ((n / 256 ^ i % 256 : Nat) : Int) := by push_cast; rfl
  rw [this, Int.toNat_natCast]

theorem twos_take (z : Int) (n len : Nat) (h : len ≤ n) : (twos z n).take len = twos z len := by
  unfold twos
  rw [← List.map_take, List.take_range, Nat.min_eq_left h]

theorem inv_twos (z : Int) (len : Nat) :
    (twos z len).map (fun b => 255 - b) = twos (-z - 1) len := by
  induction len generalizing z with
  | zero => rfl
  | succ n ih =>
    rw [twos_succ, twos_succ, List.map_cons, ih]
    have h1 : 255 - (z % 256).toNat = ((-z - 1) % 256).toNat := by omega
    have h2 : -(z / 256) - 1 = (-z - 1) / 256 := by omega
    rw [h1, h2]

theorem incr_twos (z : Int) (len : Nat) : incr (twos z len) = twos (z + 1) len := by
  induction len generalizing z with
  | zero => rfl
  | succ n ih =>
    rw [twos_succ, twos_succ, incr]
    have h1 : ((z % 256).toNat + 1) % 256 = ((z + 1) % 256).toNat := by omega
    rw [h1]
    by_cases h : ((z + 1) % 256).toNat = 0
    · rw [if_pos h, ih]
      have h2 : z / 256 + 1 = (z + 1) / 256 := by omega
      rw [h2]
    · rw [if_neg h]
      have h2 : z / 256 = (z + 1) / 256 := by omega
      rw [h2]

/-- Two's complement bytes in either order. -/
def bytesOf (z : Int) (len : Nat) (e : Endian) : List Nat :=
  match e with
  | .little => twos z len
  | .big => (twos z len).reverse

theorem negate_bytes (z : Int) (len : Nat) (e : Endian) :
    negateBytes (bytesOf z len e) e = bytesOf (-z) len e := by
  have h : -z - 1 + 1 = -z := by ring
  cases e
  · simp only [negateBytes, bytesOf, inv_twos, incr_twos, h]
  · simp only [negateBytes, bytesOf, List.map_reverse, inv_twos, List.reverse_reverse, incr_twos, h]

theorem fill_sign (a : Int) (len : Nat) (e : Endian) :
    (if a < 0 then negateBytes (bytesOf a.natAbs len e) e else bytesOf a.natAbs len e)
      = bytesOf a len e := by
  by_cases h : a < 0
  · rw [if_pos h, negate_bytes]
    congr 1
    omega
  · rw [if_neg h]
    congr 1
    omega

theorem short_buffer (a : Int) (n len : Nat) (h : len ≤ n) :
    ((bytesOf a n .big).drop (n - len)).take len = bytesOf a len .big := by
  simp only [bytesOf]
  rw [List.drop_reverse, twos_length, show n - (n - len) = len by omega, twos_take _ _ _ h]
  exact List.take_of_length_le (by simp [twos_length])

theorem bnFill_eq (a : Int) (len : Nat) (e : Endian) (h : numBytes a ≤ len) :
    bnFill a len e = some (bytesOf a len e) := by
  unfold bnFill bn2binpad bn2lebinpad
  rw [if_neg (by omega)]
  cases e
  · simp only [Option.bind_eq_bind, Option.bind_some, Option.pure_def, le_eq_twos]
    have := fill_sign a len .little
    simp only [bytesOf] at this ⊢
    rw [this]
  · simp only [Option.map_some, Option.bind_eq_bind, Option.bind_some, Option.pure_def, le_eq_twos]
    have := fill_sign a len .big
    simp only [bytesOf] at this ⊢
    rw [this]

theorem bnToBytes_eq (a : Int) (len : Nat) (e : Endian) :
    bnToBytes a len e = some (bytesOf a len e) := by
  unfold bnToBytes
  by_cases h : len < numBytes a
  · simp only [if_pos h, bnFill_eq a _ e (le_refl _), Option.bind_eq_bind, Option.bind_some,
      Option.pure_def]
    cases e
    · simp only [bytesOf, twos_take _ _ _ h.le]
    · simp only [short_buffer a _ _ h.le]
  · simp only [if_neg h]
    exact bnFill_eq a len e (by omega)

theorem digits_length_bytes (n : Nat) : (Nat.digits 256 n).length = (n.size + 7) / 8 :=
  Yacl.MPInt.length_digits256 n

theorem digits_pad (n len : Nat) (h : (Nat.digits 256 n).length ≤ len) :
    Nat.digits 256 n ++ List.replicate (len - (Nat.digits 256 n).length) 0 = twos n len := by
  rw [← le_eq_twos]
  unfold le
  apply List.ext_getElem
  · simp; omega
  · intro i h1 h2
    have hi : i < len := by simpa using h2
    simp only [List.getElem_map, List.getElem_range]
    rw [← Nat.getD_digits n i (by norm_num : 2 ≤ 256)]
    by_cases hlt : i < (Nat.digits 256 n).length
    · rw [List.getElem_append_left hlt, List.getD_eq_getElem _ _ hlt]
    · rw [List.getElem_append_right (by omega), List.getElem_replicate,
        List.getD_eq_default _ _ (by omega)]

theorem gmp_count (a : Int) :
    (Nat.digits 256 a.natAbs).length ≤ (sizeInBase2 a + 7) / 8 ∧
    (a ≠ 0 → (Nat.digits 256 a.natAbs).length = (sizeInBase2 a + 7) / 8) := by
  unfold sizeInBase2 numBits
  rw [digits_length_bytes]
  by_cases h : a = 0
  · subst h; simp
  · rw [if_neg h]; exact ⟨le_refl _, fun _ => rfl⟩

theorem gmpFill_eq (a : Int) (len : Nat) (e : Endian) (h : (sizeInBase2 a + 7) / 8 ≤ len) :
    gmpFill a len e = bytesOf a len e := by
  obtain ⟨hc, hc0⟩ := gmp_count a
  rw [← fill_sign a len e]
  unfold gmpFill
  have hL : (match e with
      | .little => patch (List.replicate len 0) 0 (mpzExport a .little)
      | .big => patch (List.replicate len 0) (len - (sizeInBase2 a + 7) / 8) (mpzExport a .big))
      = bytesOf a.natAbs len e := by
    cases e
    · simp only [patch, mpzExport, bytesOf, List.take_zero, List.nil_append, zero_add,
        List.drop_replicate]
      exact digits_pad _ _ (by omega)
    · simp only [patch, mpzExport, bytesOf, List.take_replicate, List.drop_replicate,
        List.length_reverse]
      rw [← digits_pad _ len (by omega), List.reverse_append, List.reverse_replicate]
      by_cases ha : a = 0
      · subst ha
        have h1 : sizeInBase2 0 = 1 := rfl
        simp only [Int.natAbs_zero, Nat.digits_zero, List.reverse_nil, List.append_nil,
          List.length_nil, List.replicate_append_replicate, h1] at h ⊢
        congr 1
        omega
      · rw [← hc0 ha] at h ⊢
        rw [show len - (len - (Nat.digits 256 a.natAbs).length + (Nat.digits 256 a.natAbs).length) = 0 by omega,
          List.replicate_zero, List.append_nil, Nat.min_eq_left (by omega)]
  cases e <;> simp only at hL ⊢ <;> rw [hL]

theorem gmpToBytes_eq (a : Int) (len : Nat) (e : Endian) :
    gmpToBytes a len e = bytesOf a len e := by
  unfold gmpToBytes
  by_cases h : len < (sizeInBase2 a + 7) / 8
  · simp only [if_pos h, gmpFill_eq a _ e (le_refl _)]
    cases e
    · simp only [bytesOf, twos_take _ _ _ h.le]
    · exact short_buffer a _ _ h.le
  · simp only [if_neg h]
    exact gmpFill_eq a len e (by omega)

/-- C110 (a): `ToBytes` of the OpenSSL and of the GMP number gives, for every number,
    buffer length and byte order, the same bytes: those of the number in two's complement
    cut to the buffer. -/
theorem C110_to_bytes (a : Int) (len : Nat) :
    (∃ out, bnToBytes a len .little = some out ∧ gmpToBytes a len .little = out ∧
      out.length = len ∧ ∀ p, p < len → ((out.getD p 0 : Nat) : Int) = a / 256 ^ p % 256) ∧
    (∃ out, bnToBytes a len .big = some out ∧ gmpToBytes a len .big = out ∧
      out.length = len ∧
      ∀ p, p < len → ((out.getD (len - 1 - p) 0 : Nat) : Int) = a / 256 ^ p % 256) := by
  refine ⟨⟨_, bnToBytes_eq a len .little, gmpToBytes_eq a len .little, twos_length _ _,
    fun p hp => twos_getD a len p hp⟩,
    ⟨_, bnToBytes_eq a len .big, gmpToBytes_eq a len .big, by simp [bytesOf, twos_length],
    fun p hp => ?_⟩⟩
  rw [← twos_getD a len p hp]
  simp only [bytesOf]
  rw [List.getD_eq_getElem _ _ (by simp [twos_length]; omega),
    List.getD_eq_getElem _ _ (by simpa [twos_length] using hp), List.getElem_reverse]
  congr 2
  simp only [twos_length]
  omega

/-- ... and `MPInt` gives these bytes as well. -/
theorem C110_to_bytes_mpint {D : Nat} (hD : Yacl.MPInt.Digit D) {x : Yacl.MPInt.Mp}
    (hx : Yacl.MPInt.Ok D x) (buf : List Nat) (e : Endian) :
    some (Yacl.MPInt.toBytes D x buf buf.length e)
      = bnToBytes (Yacl.MPInt.toInt D x) buf.length e := by
  rw [bnToBytes_eq]
  congr 1
  have h := fun p hp => Yacl.MPInt.C88_to_bytes hD hx buf buf.length (le_refl _) p hp
  have hlen : ∀ e, (Yacl.MPInt.toBytes D x buf buf.length e).length = buf.length := fun e =>
    (Yacl.MPInt.toBytes_spec hD hx e buf.length buf (le_refl _)).len
  cases e
  · apply List.ext_getElem (by rw [hlen]; simp [bytesOf, twos_length])
    intro p h1 h2
    have hp : p < buf.length := by rw [hlen] at h1; exact h1
    have e1 := (h p hp).1
    have e2 := twos_getD (Yacl.MPInt.toInt D x) buf.length p hp
    rw [List.getD_eq_getElem _ _ h1] at e1
    rw [List.getD_eq_getElem _ _ (by simpa [twos_length] using hp)] at e2
    have : ((Yacl.MPInt.toBytes D x buf buf.length .little)[p] : Int)
        = (((twos (Yacl.MPInt.toInt D x) buf.length)[p]'(by simpa [twos_length] using hp) : Nat) : Int) := by
      rw [e1, e2]
    exact_mod_cast this
  · apply List.ext_getElem (by rw [hlen]; simp [bytesOf, twos_length])
    intro q h1 h2
    have hq : q < buf.length := by rw [hlen] at h1; exact h1
    have e1 := (h (buf.length - 1 - q) (by omega)).2.1
    have e2 := twos_getD (Yacl.MPInt.toInt D x) buf.length (buf.length - 1 - q) (by omega)
    rw [show buf.length - 1 - (buf.length - 1 - q) = q by omega, List.getD_eq_getElem _ _ h1] at e1
    rw [List.getD_eq_getElem _ _ (by simp [twos_length]; omega)] at e2
    simp only [bytesOf, List.getElem_reverse, twos_length]
    have : ((Yacl.MPInt.toBytes D x buf buf.length .big)[q] : Int)
        = (((twos (Yacl.MPInt.toInt D x) buf.length)[buf.length - 1 - q]'(by simp [twos_length]; omega) : Nat) : Int) := by
      rw [e1, e2]
    exact_mod_cast this

example : bnToBytes (-2) 3 .little = some [254, 255, 255] ∧ gmpToBytes (-2) 3 .big = [255, 255, 254] ∧
    bnToBytes (-65536) 1 .big = some [0] ∧ gmpToBytes 0 2 .big = [0, 0] ∧
    gmpToBytes 0x1234 1 .big = [0x34] := by decide


/-! ### the serialised form -/

theorem ofDigits_twos (n len : Nat) (h : n < 256 ^ len) : Nat.ofDigits 256 (twos n len) = n := by
  induction len generalizing n with
  | zero => simp [twos] at h ⊢; omega
  | succ k ih =>
    have e1 : ((n : Int) % 256).toNat = n % 256 := by omega
    have e2 : ((n : Int) / 256) = ((n / 256 : Nat) : Int) := by omega
    rw [twos_succ, Nat.ofDigits_cons, e1, e2, ih _ (by rw [pow_succ] at h; omega)]
    exact Nat.mod_add_div n 256

theorem twos_lt (z : Int) (len : Nat) : ∀ b ∈ twos z len, b < 256 := by
  intro b hb
  unfold twos at hb
  obtain ⟨i, -, rfl⟩ := List.mem_map.1 hb
  have := Int.emod_lt_of_pos (z / 256 ^ i) (show (0 : Int) < 256 by norm_num)
  have := Int.emod_nonneg (z / 256 ^ i) (show (256 : Int) ≠ 0 by norm_num)
  omega

theorem twos_last (z : Int) (k : Nat) :
    twos z (k + 1) = twos z k ++ [(z / 256 ^ k % 256).toNat] := by
  unfold twos
  rw [List.range_succ]
  simp

theorem or_128 (b : Nat) (h : b < 128) : b ||| 128 = b + 128 := by
  have : ∀ b : Fin 128, b.val ||| 128 = b.val + 128 := by decide
  exact this ⟨b, h⟩

/-- What a serialised number looks like: `size / 8 + 1` bytes, the absolute value in
    little-endian order, the sign in the top bit of the last byte. -/
def IsSerialized (a : Int) (bytes : List Nat) : Prop :=
  bytes.length = a.natAbs.size / 8 + 1 ∧ (∀ b ∈ bytes, b < 256) ∧
  Nat.ofDigits 256 bytes = a.natAbs + (if a < 0 then 2 ^ (8 * bytes.length - 1) else 0)

theorem IsSerialized.unique {a : Int} {x y : List Nat} (hx : IsSerialized a x)
    (hy : IsSerialized a y) : x = y := by
  have hl : x.length = y.length := by rw [hx.1, hy.1]
  refine Nat.ofDigits_inj_of_len_eq (by norm_num) hl hx.2.1 hy.2.1 ?_
  rw [hx.2.2, hy.2.2, hl]

theorem orByte_spec (a : Int) :
    IsSerialized a (orByte (twos a.natAbs (a.natAbs.size / 8 + 1)) (a.natAbs.size / 8)
      (if a < 0 then 128 else 0)) := by
  set n := a.natAbs with hn
  set k := n.size / 8 with hk
  have hsmall : n < 2 ^ (8 * k + 7) :=
    Nat.lt_of_lt_of_le (Nat.lt_size_self _) (Nat.pow_le_pow_right (by decide) (by omega))
  have hp : (2 : Nat) ^ (8 * k + 7) = 256 ^ k * 128 := by
    rw [pow_add, pow_mul]; norm_num
  have hq : n / 256 ^ k < 128 := Nat.div_lt_of_lt_mul (by rw [← hp]; exact hsmall)
  have hlast : (((n : Int)) / 256 ^ k % 256).toNat = n / 256 ^ k := by
    have : ((n : Int) / 256 ^ k) = ((n / 256 ^ k : Nat) : Int) := by push_cast; rfl
    rw [this]
    generalize n / 256 ^ k = q at hq
    clear_value n
    omega
  have hT : orByte (twos n (k + 1)) k (if a < 0 then 128 else 0)
      = twos n k ++ [n / 256 ^ k + if a < 0 then 128 else 0] := by
    unfold orByte
    rw [twos_last, hlast, List.getD_eq_getElem _ _ (by simp [twos_length]),
      List.getElem_append_right (by simp [twos_length]),
      List.set_append_right _ _ (by simp [twos_length])]
    simp only [twos_length, Nat.sub_self, List.getElem_cons_zero, List.set_cons_zero]
    by_cases h : a < 0
    · rw [if_pos h, or_128 _ hq]
    · rw [if_neg h, Nat.or_zero, Nat.add_zero]
  rw [hT]
  refine ⟨by simp [twos_length, hk, hn], ?_, ?_⟩
  · intro b hb
    rcases List.mem_append.1 hb with h | h
    · exact twos_lt _ _ b h
    · rw [List.mem_singleton.1 h]
      split <;> omega
  · rw [Nat.ofDigits_append, Nat.ofDigits_singleton, twos_length]
    have hlow : Nat.ofDigits 256 (twos n k) = n % 256 ^ k := by
      have : twos (n : Int) k = twos ((n % 256 ^ k : Nat) : Int) k := by
        unfold twos
        apply List.map_congr_left
        intro i hi
        have hi := List.mem_range.1 hi
        have e1 : ((n : Int) / 256 ^ i % 256) = ((n / 256 ^ i % 256 : Nat) : Int) := by push_cast; rfl
        have e2 : (((n % 256 ^ k : Nat) : Int) / 256 ^ i % 256)
            = ((n % 256 ^ k / 256 ^ i % 256 : Nat) : Int) := by push_cast; rfl
        rw [e1, e2]
        congr 2
        have hsp : (256 : Nat) ^ k = 256 ^ i * 256 * 256 ^ (k - i - 1) := by
          rw [← pow_succ, ← pow_add]; congr 1; omega
        rw [hsp, mul_assoc, Nat.mod_mul_right_div_self, Nat.mod_mul_right_mod]
      rw [this, ofDigits_twos _ _ (Nat.mod_lt _ (by positivity))]
    rw [hlow]
    have hdm := Nat.mod_add_div n (256 ^ k)
    have hexp : 8 * (twos n k ++ [n / 256 ^ k + if a < 0 then 128 else 0]).length - 1 = 8 * k + 7 := by
      simp [twos_length]; omega
    rw [hexp, hp, mul_add, ← add_assoc, hdm]
    split <;> simp [hn]

theorem bnSerialize_spec (a : Int) : ∃ bytes, bnSerialize a = some bytes ∧ IsSerialized a bytes := by
  refine ⟨_, ?_, orByte_spec a⟩
  unfold bnSerialize bnSerializeTo bn2lebinpad bnSerializeSize numBytes numBits
  have h1 : ¬ a.natAbs.size / 8 + 1 < a.natAbs.size / 8 + 1 := by omega
  have h2 : ¬ a.natAbs.size / 8 + 1 < (a.natAbs.size + 7) / 8 := by omega
  simp only [if_neg h1, if_neg h2, Option.map_some, le_eq_twos, Nat.add_sub_cancel]

theorem gmpSerializeSize_eq (a : Int) : gmpSerializeSize a = a.natAbs.size / 8 + 1 := by
  unfold gmpSerializeSize sizeInBase2 numBits
  by_cases h : a = 0
  · subst h; rfl
  · rw [if_neg h]

theorem gmpSerialize_spec (fill : Nat) (a : Int) :
    ∃ bytes, gmpSerialize fill a = some bytes ∧ IsSerialized a bytes := by
  refine ⟨_, ?_, orByte_spec a⟩
  unfold gmpSerialize gmpSerializeTo
  rw [gmpSerializeSize_eq, List.length_replicate, if_neg (by omega)]
  simp only [mpzExport, Nat.add_sub_cancel]
  have hd := digits_length_bytes a.natAbs
  generalize hk : a.natAbs.size / 8 = k at *
  have hL : (Nat.digits 256 a.natAbs).length = k ∨ (Nat.digits 256 a.natAbs).length = k + 1 := by omega
  rw [if_pos (by omega)]
  congr 2
  rw [← digits_pad _ (k + 1) (by omega)]
  simp only [patch, List.take_zero, List.nil_append, zero_add]
  congr 1
  rcases hL with h | h
  · rw [h, List.drop_set, if_neg (by omega), List.drop_replicate]
    simp
  · rw [h, List.drop_set, if_pos (by omega), List.drop_replicate]
    simp

theorem value_lt (buf : List Nat) (hb : ∀ b ∈ buf, b < 256) :
    Nat.ofDigits 256 buf < 2 ^ (8 * buf.length) := by
  have := Nat.ofDigits_lt_base_pow_length (b := 256) (by norm_num) hb
  rwa [show (256 : Nat) = 2 ^ 8 by norm_num, ← pow_mul, show (2 : Nat) ^ 8 = 256 by norm_num] at this

theorem top_bit (n k : Nat) (h : n < 2 ^ (k + 1)) : n.testBit k = decide (2 ^ k ≤ n) := by
  rw [Nat.testBit_eq_decide_div_mod_eq, decide_eq_decide]
  have hp : 0 < 2 ^ k := by positivity
  have : n / 2 ^ k < 2 := Nat.div_lt_of_lt_mul (by rw [pow_succ] at h; exact h)
  constructor
  · intro h1
    by_contra hc
    rw [Nat.div_eq_of_lt (by omega)] at h1
    omega
  · intro h1
    have : 1 ≤ n / 2 ^ k := by rw [Nat.le_div_iff_mul_le hp]; omega
    omega

/-- The value that a byte string stands for. -/
def parsed (buf : List Nat) : Int :=
  if 2 ^ (8 * buf.length - 1) ≤ Nat.ofDigits 256 buf
    then -(((Nat.ofDigits 256 buf : Nat) : Int) - 2 ^ (8 * buf.length - 1))
    else ((Nat.ofDigits 256 buf : Nat) : Int)

theorem bnDeserialize_spec (buf : List Nat) (hb : ∀ b ∈ buf, b < 256) :
    bnDeserialize buf = if buf = [] then none else some (parsed buf) := by
  unfold bnDeserialize
  by_cases h : buf = []
  · rw [if_pos h, if_pos h]
  · rw [if_neg h, if_neg h]
    have hl : 0 < buf.length := List.length_pos_iff.2 h
    have hv := value_lt buf hb
    simp only [lebin2bn, Int.natAbs_natCast, parsed]
    have ht := top_bit (Nat.ofDigits 256 buf) (buf.length * 8 - 1)
      (by rw [show buf.length * 8 - 1 + 1 = 8 * buf.length by omega]; exact hv)
    simp only [show 8 * buf.length - 1 = buf.length * 8 - 1 by omega, ht]
    by_cases hc : 2 ^ (buf.length * 8 - 1) ≤ Nat.ofDigits 256 buf
    · simp only [hc, decide_true, if_true]
      have : ((2 : Int) ^ (buf.length * 8 - 1)) ≤ (Nat.ofDigits 256 buf : Nat) := by exact_mod_cast hc
      unfold setNegative
      simp only [if_true]
      congr 1
      omega
    · simp [hc]

theorem gmpDeserialize_spec (buf : List Nat) (hb : ∀ b ∈ buf, b < 256) :
    gmpDeserialize buf = if buf = [] then none else some (parsed buf) := by
  unfold gmpDeserialize
  by_cases h : buf = []
  · rw [if_pos h, if_pos h]
  · rw [if_neg h, if_neg h]
    have hl : 0 < buf.length := List.length_pos_iff.2 h
    have hv := value_lt buf hb
    simp only [mpzImport, Int.natAbs_natCast, parsed]
    have ht := top_bit (Nat.ofDigits 256 buf) (buf.length * 8 - 1)
      (by rw [show buf.length * 8 - 1 + 1 = 8 * buf.length by omega]; exact hv)
    simp only [show 8 * buf.length - 1 = buf.length * 8 - 1 by omega, ht]
    by_cases hc : 2 ^ (buf.length * 8 - 1) ≤ Nat.ofDigits 256 buf
    · simp [hc]
    · simp [hc]

theorem parsed_serialized {a : Int} {bytes : List Nat} (h : IsSerialized a bytes) :
    bytes ≠ [] ∧ parsed bytes = a := by
  obtain ⟨h1, h2, h3⟩ := h
  refine ⟨fun h => by rw [h] at h1; simp at h1, ?_⟩
  have hsmall : a.natAbs < 2 ^ (8 * bytes.length - 1) :=
    Nat.lt_of_lt_of_le (Nat.lt_size_self _) (Nat.pow_le_pow_right (by decide) (by omega))
  unfold parsed
  rw [h3]
  by_cases hn : a < 0
  · rw [if_pos hn, if_pos (by omega), Nat.cast_add, Nat.cast_pow, Nat.cast_ofNat]
    omega
  · rw [if_neg hn, Nat.add_zero, if_neg (by omega)]
    omega

/-- C110 (b): the three libraries write the same bytes for the same number, whatever the
    fresh buffer held: the absolute value in little-endian order in `size / 8 + 1` bytes
    with the sign in the top bit; GMP's length check never fails. -/
theorem C110_serialize_same (a : Int) (f : Nat) :
    ∃ bytes, bnSerialize a = some bytes ∧ gmpSerialize f a = some bytes ∧ IsSerialized a bytes ∧
      ∀ {D : Nat}, Yacl.MPInt.Digit D → ∀ {x : Yacl.MPInt.Mp}, Yacl.MPInt.Ok D x →
        Yacl.MPInt.toInt D x = a → ∀ g, Yacl.MPInt.MPInt_serialize D g x = some bytes := by
  obtain ⟨bytes, h1, h2⟩ := bnSerialize_spec a
  obtain ⟨bytes', g1, g2⟩ := gmpSerialize_spec f a
  have := h2.unique g2
  subst this
  refine ⟨bytes, h1, g1, h2, ?_⟩
  intro D hD x hx hxa g
  obtain ⟨b3, s1, s2, s3, s4, _⟩ := Yacl.MPInt.C88_serialize hD hx g
  rw [hxa] at s2 s4
  have : IsSerialized a b3 := ⟨s2, s3, s4⟩
  rw [s1, this.unique h2]

/-- C110 (c): each library reads every byte string as the same number, and an empty one
    is refused by all. -/
theorem C110_deserialize_same (buf : List Nat) (hb : ∀ b ∈ buf, b < 256) :
    bnDeserialize buf = gmpDeserialize buf ∧
    ∀ {D : Nat}, Yacl.MPInt.Digit D → ∀ {x : Yacl.MPInt.Mp}, Yacl.MPInt.Ok D x →
      (Yacl.MPInt.deserialize D x buf).map (Yacl.MPInt.toInt D) = bnDeserialize buf := by
  rw [bnDeserialize_spec buf hb, gmpDeserialize_spec buf hb]
  refine ⟨rfl, ?_⟩
  intro D hD x hx
  obtain ⟨h1, h2⟩ := Yacl.MPInt.C88_deserialize hD hx buf hb
  by_cases h : buf = []
  · rw [if_pos h, h1 h]; rfl
  · obtain ⟨r, r1, _, r3⟩ := h2 h
    rw [if_neg h, r1, Option.map_some, r3]
    rfl

/-- C110 (d): what any of the libraries wrote, any of them reads back as the same
    number. -/
theorem C110_roundtrip (a : Int) (f : Nat) (bytes : List Nat)
    (h : bnSerialize a = some bytes ∨ gmpSerialize f a = some bytes ∨
      ∃ D x g, Yacl.MPInt.Digit D ∧ Yacl.MPInt.Ok D x ∧ Yacl.MPInt.toInt D x = a ∧
        Yacl.MPInt.MPInt_serialize D g x = some bytes) :
    bnDeserialize bytes = some a ∧ gmpDeserialize bytes = some a ∧
    ∀ {D : Nat}, Yacl.MPInt.Digit D → ∀ {x : Yacl.MPInt.Mp}, Yacl.MPInt.Ok D x →
      (Yacl.MPInt.deserialize D x bytes).map (Yacl.MPInt.toInt D) = some a := by
  obtain ⟨b, h1, h2, h3, h4⟩ := C110_serialize_same a f
  have hb : bytes = b := by
    rcases h with h | h | ⟨D, x, g, hD, hx, hxa, h⟩
    · rw [h1] at h; exact (Option.some.inj h).symm
    · rw [h2] at h; exact (Option.some.inj h).symm
    · rw [h4 hD hx hxa g] at h; exact (Option.some.inj h).symm
  subst hb
  obtain ⟨hne, hp⟩ := parsed_serialized h3
  have e1 : bnDeserialize bytes = some a := by
    rw [bnDeserialize_spec _ h3.2.1, if_neg hne, hp]
  refine ⟨e1, ?_, ?_⟩
  · rw [← (C110_deserialize_same bytes h3.2.1).1, e1]
  · intro D hD x hx
    rw [(C110_deserialize_same bytes h3.2.1).2 hD hx, e1]

example : bnSerialize (-300) = some [44, 129] ∧ gmpSerialize 7 (-300) = some [44, 129] ∧
    bnDeserialize [44, 129] = some (-300) ∧ gmpSerialize 7 0 = some [0] ∧
    bnSerialize 255 = some [255, 0] ∧ bnDeserialize [128] = some 0 := by decide


/-! ### bitwise operators -/

/-- A bitwise operator on integers, on naturals and on bits. -/
structure BitOp (fi : Int → Int → Int) (fn : Nat → Nat → Nat) (fb : Bool → Bool → Bool) : Prop where
  int_bit : ∀ a m b n, fi (Int.bit a m) (Int.bit b n) = Int.bit (fb a b) (fi m n)
  nat_bit : ∀ a m b n, fn (Nat.bit a m) (Nat.bit b n) = Nat.bit (fb a b) (fn m n)
  zero : fn 0 0 = 0
  ends : ∀ x y : Int, (x = 0 ∨ x = -1) → (y = 0 ∨ y = -1) → (fi x y = 0 ∨ fi x y = -1)

theorem bitOp_and : BitOp Int.land (· &&& ·) and :=
  ⟨Int.land_bit, Nat.land_bit, rfl, by
    rintro x y (rfl | rfl) (rfl | rfl) <;> decide +kernel⟩

theorem bitOp_or : BitOp Int.lor (· ||| ·) or :=
  ⟨Int.lor_bit, Nat.lor_bit, rfl, by
    rintro x y (rfl | rfl) (rfl | rfl) <;> decide +kernel⟩

theorem bitOp_xor : BitOp Int.xor (· ^^^ ·) xor :=
  ⟨Int.lxor_bit, fun a m b n => by rw [Nat.xor_bit], rfl, by
    rintro x y (rfl | rfl) (rfl | rfl) <;> decide +kernel⟩

variable {fi : Int → Int → Int} {fn : Nat → Nat → Nat} {fb : Bool → Bool → Bool}

theorem BitOp.half (h : BitOp fi fn fb) (a b : Int) :
    fi a b / 2 = fi (a / 2) (b / 2) ∧ Int.bodd (fi a b) = fb (Int.bodd a) (Int.bodd b) := by
  conv_lhs => rw [← Int.bit_decomp a, ← Int.bit_decomp b]
  have h1 := h.int_bit (Int.bodd a) (Int.div2 a) (Int.bodd b) (Int.div2 b)
  rw [Int.bit_decomp, Int.bit_decomp] at h1
  rw [Int.bit_decomp, Int.bit_decomp, h1]
  refine ⟨?_, Int.bodd_bit _ _⟩
  rw [← Int.div2_val a, ← Int.div2_val b, Int.bit_val]
  cases fb (Int.bodd a) (Int.bodd b) <;> simp <;> omega

theorem BitOp.shift (h : BitOp fi fn fb) (a b : Int) (k : Nat) :
    fi a b / 2 ^ k = fi (a / 2 ^ k) (b / 2 ^ k) := by
  induction k generalizing a b with
  | zero => simp
  | succ k ih =>
    rw [pow_succ', ← Int.ediv_ediv_of_nonneg (by norm_num), ← Int.ediv_ediv_of_nonneg (by norm_num),
      ← Int.ediv_ediv_of_nonneg (by norm_num), (h.half a b).1, ih]

theorem low_bits (z : Int) (k : Nat) :
    (z % 2 ^ (k + 1)).toNat = Nat.bit (Int.bodd z) ((z / 2) % 2 ^ k).toNat := by
  have h1 : z = 2 * (z / 2) + (if Int.bodd z then 1 else 0) := by
    have := Int.bodd_add_div2 z
    rw [Int.div2_val] at this
    cases hb : Int.bodd z <;> rw [hb] at this <;> simp at this ⊢ <;> omega
  have hp : (0 : Int) < 2 ^ k := by positivity
  have h2 := Int.emod_add_mul_ediv (z / 2) (2 ^ k)
  have h3 := Int.emod_nonneg (z / 2) hp.ne'
  have h4 := Int.emod_lt_of_pos (z / 2) hp
  have h5 : z % 2 ^ (k + 1) = 2 * ((z / 2) % 2 ^ k) + (if Int.bodd z then 1 else 0) := by
    rw [← Int.emod_eq_of_lt (a := 2 * ((z / 2) % 2 ^ k) + (if Int.bodd z then 1 else 0))
      (b := 2 ^ (k + 1)) (by split <;> omega) (by rw [pow_succ]; split <;> omega)]
    apply Int.emod_eq_emod_iff_emod_sub_eq_zero.2
    apply Int.emod_eq_zero_of_dvd
    refine ⟨z / 2 / 2 ^ k, ?_⟩
    rw [pow_succ]
    linear_combination h1 - 2 * h2
  rw [h5, Nat.bit_val]
  cases Int.bodd z <;> simp <;> omega

theorem BitOp.low (h : BitOp fi fn fb) (a b : Int) (k : Nat) :
    (fi a b % 2 ^ k).toNat = fn (a % 2 ^ k).toNat (b % 2 ^ k).toNat := by
  induction k generalizing a b with
  | zero => simp [Int.emod_one, h.zero]
  | succ k ih =>
    rw [low_bits, low_bits, low_bits, h.nat_bit, (h.half a b).1, (h.half a b).2, ih]

theorem BitOp.bytes (h : BitOp fi fn fb) (a b : Int) (len : Nat) :
    List.zipWith fn (twos a len) (twos b len) = twos (fi a b) len := by
  induction len generalizing a b with
  | zero => rfl
  | succ n ih =>
    rw [twos_succ, twos_succ, twos_succ, List.zipWith_cons_cons, ih]
    have h1 := h.low a b 8
    have h2 := h.shift a b 8
    norm_num at h1 h2
    rw [h1, h2]

theorem BitOp.range (h : BitOp fi fn fb) (a b : Int) (k : Nat)
    (ha : -2 ^ k ≤ a ∧ a < 2 ^ k) (hb : -2 ^ k ≤ b ∧ b < 2 ^ k) :
    -2 ^ k ≤ fi a b ∧ fi a b < 2 ^ k := by
  have hp : (0 : Int) < 2 ^ k := by positivity
  have key : ∀ z : Int, (-2 ^ k ≤ z ∧ z < 2 ^ k) ↔ (z / 2 ^ k = 0 ∨ z / 2 ^ k = -1) := by
    intro z
    have h1 := Int.emod_add_mul_ediv z (2 ^ k)
    have h2 := Int.emod_nonneg z hp.ne'
    have h3 := Int.emod_lt_of_pos z hp
    constructor
    · rintro ⟨h4, h5⟩
      have h6 : z / 2 ^ k < 1 := by
        by_contra hc
        have : (2 : Int) ^ k * 1 ≤ 2 ^ k * (z / 2 ^ k) := by
          apply Int.mul_le_mul_of_nonneg_left (by omega) hp.le
        omega
      have h7 : -2 < z / 2 ^ k := by
        by_contra hc
        have : (2 : Int) ^ k * (z / 2 ^ k) ≤ 2 ^ k * -2 := by
          apply Int.mul_le_mul_of_nonneg_left (by omega) hp.le
        omega
      omega
    · rintro (h4 | h4) <;> rw [h4] at h1 <;> omega
  rw [key] at ha hb ⊢
  rw [h.shift]
  exact h.ends _ _ ha hb

theorem signed_twos (z : Int) (len : Nat) (h1 : -2 ^ (8 * len + 7) ≤ z) (h2 : z < 2 ^ (8 * len + 7)) :
    signedLebin2bn (twos z (len + 1)) = z := by
  have hp : (2 : Int) ^ (8 * (len + 1)) = 2 * 2 ^ (8 * len + 7) := by
    rw [← pow_succ']; congr 1
  have hpow : (256 : Nat) ^ (len + 1) = 2 ^ (8 * (len + 1)) := by
    rw [pow_mul]; norm_num
  have hpos : (0 : Int) < 2 ^ (8 * len + 7) := by positivity
  -- the bytes are those of the residue
  have hres : twos z (len + 1) = twos ((z % 2 ^ (8 * (len + 1))).toNat : Nat) (len + 1) := by
    unfold twos
    apply List.map_congr_left
    intro i hi
    have hi := List.mem_range.1 hi
    rw [Int.toNat_of_nonneg (Int.emod_nonneg _ (by positivity))]
    congr 1
    have hsp : (2 : Int) ^ (8 * (len + 1)) = 256 ^ i * (256 * 256 ^ (len - i)) := by
      rw [show (256 : Int) = 2 ^ 8 by norm_num, ← pow_mul, ← pow_mul, ← pow_add, ← pow_add]
      congr 1
      omega
    have h3 := Int.emod_add_mul_ediv z (2 ^ (8 * (len + 1)))
    have hpi : (0 : Int) < 256 ^ i := by positivity
    have h4 : z / 256 ^ i = z % 2 ^ (8 * (len + 1)) / 256 ^ i
        + 256 * 256 ^ (len - i) * (z / 2 ^ (8 * (len + 1))) := by
      conv_lhs => rw [← h3, hsp, mul_assoc, ← hsp]
      rw [Int.add_mul_ediv_left _ _ hpi.ne']
    rw [h4, mul_assoc, Int.add_mul_emod_self_left]
  have hlt : (z % 2 ^ (8 * (len + 1))).toNat < 256 ^ (len + 1) := by
    have := Int.emod_lt_of_pos z (show (0 : Int) < 2 ^ (8 * (len + 1)) by positivity)
    have h0 := Int.emod_nonneg z (show (2 : Int) ^ (8 * (len + 1)) ≠ 0 by positivity)
    rw [hpow]
    zify
    rw [Int.toNat_of_nonneg h0]
    exact this
  have hval : Nat.ofDigits 256 (twos z (len + 1)) = (z % 2 ^ (8 * (len + 1))).toNat := by
    rw [hres, ofDigits_twos _ _ hlt]
  unfold signedLebin2bn
  rw [hval, twos_length]
  have h0 := Int.emod_nonneg z (show (2 : Int) ^ (8 * (len + 1)) ≠ 0 by positivity)
  rw [Int.toNat_of_nonneg h0]
  by_cases hz : 0 ≤ z
  · have e : z % 2 ^ (8 * (len + 1)) = z := Int.emod_eq_of_lt hz (by rw [hp]; omega)
    rw [e, if_neg]
    zify
    rw [Int.toNat_of_nonneg hz, hp]
    omega
  · have e : z % 2 ^ (8 * (len + 1)) = z + 2 ^ (8 * (len + 1)) := by
      rw [← Int.add_emod_right]
      exact Int.emod_eq_of_lt (by rw [hp]; omega) (by omega)
    rw [e, if_pos]
    · ring
    · zify
      rw [Int.toNat_of_nonneg (by rw [hp]; omega), hp]
      omega

theorem BitOp.bn (h : BitOp fi fn fb) (a b : Int) : bnBitwise fn a b = some (fi a b) := by
  unfold bnBitwise
  simp only [bnToBytes_eq, bytesOf, Option.bind_eq_bind, Option.bind_some, Option.pure_def]
  rw [h.bytes]
  congr 1
  set M := max (numBits a) (numBits b) with hM
  have hr : ∀ z : Int, numBits z ≤ M → -2 ^ (8 * ((M + 7) / 8) + 7) ≤ z ∧ z < 2 ^ (8 * ((M + 7) / 8) + 7) := by
    intro z hz
    have h1 : z.natAbs < 2 ^ (8 * ((M + 7) / 8) + 7) :=
      Nat.lt_of_lt_of_le (Nat.lt_size_self _)
        (Nat.pow_le_pow_right (by decide) (by unfold numBits at hz; omega))
    have h2 : ((z.natAbs : Nat) : Int) < 2 ^ (8 * ((M + 7) / 8) + 7) := by exact_mod_cast h1
    omega
  have := h.range a b _ (hr a (le_max_left _ _)) (hr b (le_max_right _ _))
  exact signed_twos _ _ this.1 this.2

/-- C110 (e): the bitwise operators of the OpenSSL number are those of two's complement
    on numbers of unbounded length, which is what GMP's are. -/
theorem C110_bitwise (a b : Int) :
    (∃ r, bnAnd a b = some r ∧ ∀ i, r.testBit i = (a.testBit i && b.testBit i)) ∧
    (∃ r, bnOr a b = some r ∧ ∀ i, r.testBit i = (a.testBit i || b.testBit i)) ∧
    (∃ r, bnXor a b = some r ∧ ∀ i, r.testBit i = (a.testBit i ^^ b.testBit i)) :=
  ⟨⟨_, bitOp_and.bn a b, Int.testBit_land a b⟩, ⟨_, bitOp_or.bn a b, Int.testBit_lor a b⟩,
    ⟨_, bitOp_xor.bn a b, Int.testBit_lxor a b⟩⟩

example : bnAnd (-6) 5 = some 0 ∧ bnOr (-6) 5 = some (-1) ∧ bnXor (-256) 255 = some (-1) ∧
    bnAnd (-128) (-1) = some (-128) := by decide

end Yacl.BigInt.Back
