/-
The random helpers of yacl/crypto/rand/rand.{h,cc}: numbers, bit vectors, numbers below a
bound, and the replayable shuffle.  The generator itself is an arbitrary source of bytes.
-/
import Verif.Crypto.PrgProps
import Mathlib.Data.Int.CardIntervalMod
import Mathlib.Data.List.Nodup

namespace Yacl.Rand

/-! ### Model -/

/-- `RandU32`, `RandU64`, `RandU128` (rand.cc L70-86): `n` bytes of the generator read as a
    little-endian number. -/
def randU (n : Nat) (bytes : Nat → Nat) : Nat :=
  Nat.ofDigits 256 ((List.range n).map fun i => bytes i % 256)

/-- `RandSeed` (rand.h L86). -/
def randSeed (bytes : Nat → Nat) : Nat := randU 8 bytes

/-- `FastRandSeed`, `SecureRandSeed` (rand.h L87-88). -/
def fastRandSeed (bytes : Nat → Nat) : Nat := randU 16 bytes

/-- The inner loop of both `RandBits` (rand.cc L99-101, L135-137): `size` bits of `w` from
    position `i` on. -/
def putBits (w i size : Nat) (out : List Bool) : List Bool :=
  (List.range size).foldl (fun out j => out.set (i + j) (decide (w &&& (1 <<< j) ≠ 0))) out

/-- The outer loop of `RandBits<vector<bool>>` (rand.cc L97-102); `fuel` bounds the number
    of rounds. -/
def vecLoop (len : Nat) (word : Nat → Nat) : Nat → Nat → List Bool → List Bool
  | 0, _, out => out
  | fuel + 1, i, out =>
    if i < len then
      vecLoop len word fuel (i + 32) (putBits (word i) i (min 32 ((len - i) % 2 ^ 32)) out)
    else out

/-- `RandBits<vector<bool>>` (rand.cc L88-104): `len` 32-bit words are drawn, which the
    generator refuses from 2^31 bytes on (L46). -/
def randBitsVec (len : Nat) (word : Nat → Nat) : Option (List Bool) :=
  if len * 4 % 2 ^ 64 ≤ 2 ^ 31 - 1 then some (vecLoop len word len 0 (List.replicate len false))
  else none

/-- The outer loop of `RandBits<dynamic_bitset>` (rand.cc L131-138). -/
def setLoop (len : Nat) (byte : Nat → Nat) : Nat → Nat → List Bool → List Bool
  | 0, _, out => out
  | fuel + 1, i, out =>
    if i < len then
      setLoop len byte fuel (i + 8) (putBits (byte (i >>> 3)) i (min 8 (len - i)) out)
    else out

/-- `RandBits<dynamic_bitset>` (rand.cc L120-140). -/
def randBitsSet (len : Nat) (byte : Nat → Nat) : Option (List Bool) :=
  if (len + 7) / 8 ≤ 2 ^ 31 - 1 then some (setLoop len byte len 0 (List.replicate len false))
  else none

/-- `RandInRange` (rand.h L148-151): the low 32 bits of a 64-bit number; `none` is a
    division by zero. -/
def randInRange (r64 n : Nat) : Option Nat :=
  if n = 0 then none else some (r64 % 2 ^ 32 % n)

/-- `RandLtN` for a positive `n` of `size` bytes (rand.h L153-165); `S` is the statistical
    security parameter of the module, 64 (L36). -/
def randLtN (size : Nat) (bytes : Nat → Nat) (n : Nat) : Nat :=
  randU (size + (64 + 7) / 8) bytes % n

/-- `std::swap(first[i], first[j])`; `none` is an access out of bounds (rand.h L265). -/
def swapAt {α : Type} (l : List α) (i j : Nat) : Option (List α) :=
  match l[i]?, l[j]? with
  | some a, some b => some ((l.set i b).set j a)
  | _, _ => none

/-- The Knuth-Durstenfeld loop (rand.h L264-266), from `i` down. -/
def shuffleLoop {α : Type} (ind : Nat → Nat) : Nat → List α → Option (List α)
  | 0, l => some l
  | i + 1, l => (swapAt l (i + 1) (ind i)).bind (shuffleLoop ind i)

/-- `ReplayShuffle` once the words are drawn (rand.h L243-266); an empty range asks for a
    vector of length `-1`, which throws (`none`). -/
def replayShuffle {α : Type} (l : List α) (word : Nat → Nat) : Option (List α) :=
  if l.length = 0 then none
  else shuffleLoop (fun i => word i % (i + 2)) (l.length - 1) l

/-- Word `i` of the bytes drawn for the shuffle (rand.h L250-252). -/
def prgWord (E : Prg.Cipher) (seed : Prg.B) (ctr : BitVec 64) (n i : Nat) : Nat :=
  Nat.ofDigits 256 ((((Prg.fillPRand .ctr E seed 0 ctr ((n - 1) * 16)).1.drop (16 * i)).take 16).map BitVec.toNat)

/-- `ReplayShuffle` (rand.h L238-267): the range afterwards and the counter handed back. -/
def replay {α : Type} (E : Prg.Cipher) (l : List α) (seed : Prg.B) (ctr : BitVec 64) :
    Option (List α × BitVec 64) :=
  (replayShuffle l (prgWord E seed ctr l.length)).map fun m =>
    (m, (Prg.fillPRand .ctr E seed 0 ctr ((l.length - 1) * 16)).2)

/-- `YaclReplayUrbg` (rand.h L207-236): one call, for numbers of `size` bytes. -/
def urbg (m : Prg.Mode) (E : Prg.Cipher) (seed iv : Prg.B) (size : Nat) (ctr : BitVec 64) :
    List Prg.Byte × BitVec 64 := Prg.fillPRand m E seed iv ctr size

/-- `n` calls. -/
def urbgRun (m : Prg.Mode) (E : Prg.Cipher) (seed iv : Prg.B) (size : Nat) :
    Nat → BitVec 64 → List (List Prg.Byte) × BitVec 64
  | 0, ctr => ([], ctr)
  | n + 1, ctr =>
    let r := urbg m E seed iv size ctr
    let q := urbgRun m E seed iv size n r.2
    (r.1 :: q.1, q.2)

/-- `GetSeed` (rand.h L226) returns a `uint64_t`. -/
def urbgGetSeed (seed : Prg.B) : BitVec 64 := seed.setWidth 64

/-! ### Bits -/

theorem and_bit (w j : Nat) : (decide (w &&& (1 <<< j) ≠ 0)) = w.testBit j := by
  rw [Nat.one_shiftLeft]
  by_cases h : w.testBit j
  · rw [h]
    simp only [ne_eq, decide_eq_true_eq]
    intro h0
    have : (w &&& 2 ^ j).testBit j = true := by
      rw [Nat.testBit_and, h, Nat.testBit_two_pow_self]; rfl
    rw [h0] at this
    simp at this
  · have hf : w.testBit j = false := by simpa using h
    rw [hf]
    simp only [ne_eq, decide_eq_false_iff_not, not_not]
    apply Nat.eq_of_testBit_eq
    intro i
    rw [Nat.testBit_and, Nat.testBit_two_pow, Nat.zero_testBit]
    by_cases hi : j = i
    · subst hi; rw [hf]; rfl
    · simp [hi]

theorem putBits_spec (w i size : Nat) (out : List Bool) :
    (putBits w i size out).length = out.length ∧
    ∀ k, (putBits w i size out)[k]? =
      if i ≤ k ∧ k < i + size ∧ k < out.length then some (w.testBit (k - i)) else out[k]? := by
  induction size with
  | zero =>
    refine ⟨rfl, fun k => ?_⟩
    rw [if_neg (by omega)]; rfl
  | succ n ih =>
    obtain ⟨h1, h2⟩ := ih
    have e : putBits w i (n + 1) out = (putBits w i n out).set (i + n) (w.testBit n) := by
      unfold putBits
      rw [List.range_succ, List.foldl_append, List.foldl_cons, List.foldl_nil, and_bit]
    rw [e]
    refine ⟨by simp [h1], fun k => ?_⟩
    rw [List.getElem?_set, h1, h2]
    by_cases hk : i + n = k
    · subst hk
      by_cases hl : i + n < out.length
      · rw [if_pos rfl, if_pos hl, if_pos (by omega), show i + n - i = n by omega]
      · rw [if_pos rfl, if_neg hl, if_neg (by omega)]
        rw [List.getElem?_eq_none (by omega)]
    · rw [if_neg hk]
      by_cases hc : i ≤ k ∧ k < i + n ∧ k < out.length
      · rw [if_pos hc, if_pos (by omega)]
      · rw [if_neg hc, if_neg (by omega)]

theorem vecLoop_spec (len : Nat) (word : Nat → Nat) (hl : len < 2 ^ 32) (fuel : Nat) :
    ∀ i out, out.length = len → i % 32 = 0 → len ≤ i + fuel * 32 →
      (vecLoop len word fuel i out).length = len ∧
      ∀ k, k < len → (vecLoop len word fuel i out)[k]? =
        if i ≤ k then some ((word (k - k % 32)).testBit (k % 32)) else out[k]? := by
  induction fuel with
  | zero =>
    intro i out h1 h2 h3
    refine ⟨h1, fun k hk => ?_⟩
    rw [if_neg (by omega)]; rfl
  | succ n ih =>
    intro i out h1 h2 h3
    unfold vecLoop
    by_cases hi : i < len
    · rw [if_pos hi]
      have hm : (len - i) % 2 ^ 32 = len - i := Nat.mod_eq_of_lt (by omega)
      rw [hm]
      obtain ⟨p1, p2⟩ := putBits_spec (word i) i (min 32 (len - i)) out
      obtain ⟨q1, q2⟩ := ih (i + 32) (putBits (word i) i (min 32 (len - i)) out) (by rw [p1, h1])
        (by omega) (by omega)
      refine ⟨q1, fun k hk => ?_⟩
      rw [q2 k hk, p2 k]
      by_cases a : i + 32 ≤ k
      · rw [if_pos a, if_pos (by omega)]
      · rw [if_neg a]
        by_cases b : i ≤ k
        · rw [if_pos (by omega), if_pos b, show k - k % 32 = i by omega, show k % 32 = k - i by omega]
        · rw [if_neg (by omega), if_neg b]
    · rw [if_neg hi]
      refine ⟨h1, fun k hk => ?_⟩
      rw [if_neg (by omega)]

theorem setLoop_spec (len : Nat) (byte : Nat → Nat) (fuel : Nat) :
    ∀ i out, out.length = len → i % 8 = 0 → len ≤ i + fuel * 8 →
      (setLoop len byte fuel i out).length = len ∧
      ∀ k, k < len → (setLoop len byte fuel i out)[k]? =
        if i ≤ k then some ((byte (k / 8)).testBit (k % 8)) else out[k]? := by
  induction fuel with
  | zero =>
    intro i out h1 h2 h3
    refine ⟨h1, fun k hk => ?_⟩
    rw [if_neg (by omega)]; rfl
  | succ n ih =>
    intro i out h1 h2 h3
    unfold setLoop
    by_cases hi : i < len
    · rw [if_pos hi]
      obtain ⟨p1, p2⟩ := putBits_spec (byte (i >>> 3)) i (min 8 (len - i)) out
      obtain ⟨q1, q2⟩ := ih (i + 8) (putBits (byte (i >>> 3)) i (min 8 (len - i)) out) (by rw [p1, h1])
        (by omega) (by omega)
      refine ⟨q1, fun k hk => ?_⟩
      rw [q2 k hk, p2 k]
      by_cases a : i + 8 ≤ k
      · rw [if_pos a, if_pos (by omega)]
      · rw [if_neg a]
        by_cases b : i ≤ k
        · have : i >>> 3 = k / 8 := by rw [Nat.shiftRight_eq_div_pow]; omega
          rw [if_pos (by omega), if_pos b, this, show k % 8 = k - i by omega]
        · rw [if_neg (by omega), if_neg b]
    · rw [if_neg hi]
      refine ⟨h1, fun k hk => ?_⟩
      rw [if_neg (by omega)]

/-- C112 (a): a random bit vector has the length asked for, and its bits are bits of the
    generator's output, no two of them the same one: bit `k` is bit `k mod 32` of word
    `k - k mod 32` for `vector<bool>`, and bit `k mod 8` of byte `k / 8` for a
    `dynamic_bitset`. -/
theorem C112_bits (len : Nat) (src : Nat → Nat) :
    (len < 2 ^ 29 → ∃ out, randBitsVec len src = some out ∧ out.length = len ∧
      ∀ k, k < len → out[k]? = some ((src (k - k % 32)).testBit (k % 32))) ∧
    (len < 2 ^ 34 - 8 → ∃ out, randBitsSet len src = some out ∧ out.length = len ∧
      ∀ k, k < len → out[k]? = some ((src (k / 8)).testBit (k % 8))) := by
  constructor
  · intro h
    obtain ⟨h1, h2⟩ := vecLoop_spec len src (by omega) len 0 (List.replicate len false) (by simp) rfl (by omega)
    refine ⟨_, if_pos (by omega), h1, fun k hk => ?_⟩
    rw [h2 k hk, if_pos (by omega)]
  · intro h
    obtain ⟨h1, h2⟩ := setLoop_spec len src len 0 (List.replicate len false) (by simp) rfl (by omega)
    refine ⟨_, if_pos (by omega), h1, fun k hk => ?_⟩
    rw [h2 k hk, if_pos (by omega)]

/-- C112 (a), too long: a request for more than `2^31 - 1` bytes of randomness throws, for every length a container
    can have. -/
theorem C112_bits_too_long (len : Nat) (src : Nat → Nat) :
    (2 ^ 29 ≤ len → len < 2 ^ 62 → randBitsVec len src = none) ∧
    (2 ^ 34 - 8 < len → len < 2 ^ 62 → randBitsSet len src = none) := by
  constructor
  · intro h h'
    unfold randBitsVec
    exact if_neg (by omega)
  · intro h _
    unfold randBitsSet
    exact if_neg (by omega)

example : (2 : Nat) ^ 29 ≤ 2 ^ 40 ∧ (2 : Nat) ^ 40 < 2 ^ 62 := by decide

/-- The bits used are different ones, and every pattern comes out for some output of the
    generator. -/
theorem C112_bits_all (pattern : List Bool) (h : pattern.length < 2 ^ 29) :
    (∃ src : Nat → Nat, (∀ i, src i < 2 ^ 32) ∧ randBitsVec pattern.length src = some pattern) ∧
    (∃ src : Nat → Nat, (∀ i, src i < 2 ^ 8) ∧ randBitsSet pattern.length src = some pattern) := by
  have key : ∀ w off : Nat, ∃ x, x < 2 ^ w ∧ ∀ j, j < w → x.testBit j = pattern.getD (off + j) false := by
    intro w off
    induction w with
    | zero => exact ⟨0, by decide, fun j hj => by omega⟩
    | succ w ih =>
      obtain ⟨x, hx, hb⟩ := ih
      refine ⟨x ||| (pattern.getD (off + w) false).toNat <<< w, ?_, fun j hj => ?_⟩
      · refine Nat.or_lt_two_pow (lt_trans hx (by rw [pow_succ]; omega)) ?_
        rw [Nat.shiftLeft_eq, pow_succ, Nat.mul_comm]
        have h1 : (pattern.getD (off + w) false).toNat < 2 := Bool.toNat_lt _
        have h2 : 0 < 2 ^ w := Nat.two_pow_pos w
        exact Nat.mul_lt_mul_of_pos_left h1 h2
      · rw [Nat.testBit_or, Nat.testBit_shiftLeft]
        by_cases h : j = w
        · subst h
          rw [Nat.testBit_lt_two_pow hx]
          cases pattern.getD (off + j) false <;> simp
        · rw [hb j (by omega)]
          simp [show ¬ w ≤ j by omega]
  refine ⟨?_, ?_⟩
  · choose f hf1 hf2 using fun i => key 32 i
    refine ⟨f, hf1, ?_⟩
    obtain ⟨out, h1, h2, h3⟩ := (C112_bits pattern.length f).1 h
    rw [h1]
    congr 1
    apply List.ext_getElem?
    intro k
    by_cases hk : k < pattern.length
    · rw [h3 k hk, hf2 _ _ (Nat.mod_lt _ (by decide)), List.getElem?_eq_getElem hk,
        show k - k % 32 + k % 32 = k by omega, List.getD_eq_getElem _ _ hk]
    · rw [List.getElem?_eq_none (by omega), List.getElem?_eq_none (by omega)]
  · choose f hf1 hf2 using fun i => key 8 (8 * i)
    refine ⟨f, hf1, ?_⟩
    obtain ⟨out, h1, h2, h3⟩ := (C112_bits pattern.length f).2 (by omega)
    rw [h1]
    congr 1
    apply List.ext_getElem?
    intro k
    by_cases hk : k < pattern.length
    · rw [h3 k hk, hf2 _ _ (Nat.mod_lt _ (by decide)), List.getElem?_eq_getElem hk,
        show 8 * (k / 8) + k % 8 = k by omega, List.getD_eq_getElem _ _ hk]
    · rw [List.getElem?_eq_none (by omega), List.getElem?_eq_none (by omega)]

example : (randBitsVec 40 (fun i => if i = 0 then 5 else 2)).map (fun l => (l.take 4, l.drop 32))
      = some ([true, false, true, false], [false, true, false, false, false, false, false, false]) ∧
    (randBitsSet 10 (fun i => if i = 0 then 5 else 2)).map (fun l => l.drop 2)
      = some [true, false, false, false, false, false, false, true] := by decide +kernel

/-! ### Numbers -/

theorem randU_lt (n : Nat) (bytes : Nat → Nat) : randU n bytes < 2 ^ (8 * n) := by
  unfold randU
  have := Nat.ofDigits_lt_base_pow_length (b := 256) (by decide)
    (l := (List.range n).map fun i => bytes i % 256) (by
      intro x hx
      obtain ⟨i, -, rfl⟩ := List.mem_map.1 hx
      exact Nat.mod_lt _ (by decide))
  rw [List.length_map, List.length_range] at this
  calc _ < 256 ^ n := this
    _ = 2 ^ (8 * n) := by rw [pow_mul]; rfl

/-- C112 (b): `FastRandSeed` and `SecureRandSeed` take every 128-bit value. -/
theorem C112_seed (x : Nat) (hx : x < 2 ^ 128) : ∃ bytes, fastRandSeed bytes = x := by
  refine ⟨fun i => (Nat.digits 256 x).getD i 0, ?_⟩
  have hlen : (Nat.digits 256 x).length ≤ 16 := by
    rw [Nat.digits_length_le_iff (by decide)]
    calc x < 2 ^ 128 := hx
      _ = 256 ^ 16 := by norm_num
  unfold fastRandSeed randU
  have e : (List.range 16).map (fun i => (Nat.digits 256 x).getD i 0 % 256)
      = Nat.digits 256 x ++ List.replicate (16 - (Nat.digits 256 x).length) 0 := by
    apply List.ext_getElem?
    intro i
    by_cases hi : i < 16
    · rw [List.getElem?_map, List.getElem?_range hi]
      simp only [Option.map_some]
      by_cases hd : i < (Nat.digits 256 x).length
      · rw [List.getElem?_append_left hd, List.getElem?_eq_getElem hd, List.getD_eq_getElem _ _ hd,
          Nat.mod_eq_of_lt (Nat.digits_lt_base (by decide) (List.getElem_mem hd))]
      · rw [List.getElem?_append_right (by omega), List.getElem?_replicate,
          if_pos (by omega), List.getD_eq_default _ _ (by omega)]
    · rw [List.getElem?_eq_none (by simp; omega), List.getElem?_eq_none (by simp; omega)]
  rw [e, Nat.ofDigits_append_replicate_zero, Nat.ofDigits_digits]

/-- ... while `RandSeed` never sets one of the upper 64 bits. -/
theorem C112_seed_violated (bytes : Nat → Nat) : randSeed bytes < 2 ^ 64 := randU_lt 8 bytes

/-- How many of the numbers below `R` have the remainder `v`. -/
def hits (R n v : Nat) : Nat := ((Finset.range R).filter fun r => r % n = v).card

theorem hits_eq (R n v : Nat) (hn : 0 < n) (hv : v < n) :
    hits R n v = R / n + if v < R % n then 1 else 0 := by
  have := Nat.count_modEq_card R hn v
  rw [Nat.mod_eq_of_lt hv] at this
  rw [← this, Nat.count_eq_card_filter_range]
  unfold hits
  congr 1
  ext r
  simp only [Finset.mem_filter, Nat.ModEq, Nat.mod_eq_of_lt hv]

/-- C112 (c): `RandLtN n` is below `n`, and any two values are hit by numbers of random
    strings that differ by at most one (out of at least 2^64 for each). -/
theorem C112_below (size n : Nat) (hn : 0 < n) (hs : n < 2 ^ (8 * size)) (bytes : Nat → Nat) :
    randLtN size bytes n < n ∧
    ∀ u v, u < n → v < n →
      hits (2 ^ (8 * (size + 8))) n u ≤ hits (2 ^ (8 * (size + 8))) n v + 1 ∧
      2 ^ 64 ≤ hits (2 ^ (8 * (size + 8))) n u := by
  refine ⟨Nat.mod_lt _ hn, fun u v hu hv => ?_⟩
  rw [hits_eq _ n u hn hu, hits_eq _ n v hn hv]
  have hb : 2 ^ 64 ≤ 2 ^ (8 * (size + 8)) / n := by
    rw [Nat.le_div_iff_mul_le hn]
    calc 2 ^ 64 * n ≤ 2 ^ 64 * 2 ^ (8 * size) := Nat.mul_le_mul_left _ hs.le
      _ = 2 ^ (8 * (size + 8)) := by rw [← pow_add]; congr 1; omega
  constructor
  · split_ifs <;> omega
  · exact Nat.le_add_right_of_le hb

/-- C112 (d): `RandInRange n` is below `n`, with the same evenness over the 2^32 values of
    the word it keeps; `n = 0` divides by zero. -/
theorem C112_in_range (r n : Nat) :
    (0 < n → ∃ x, randInRange r n = some x ∧ x < n) ∧ randInRange r 0 = none ∧
    (0 < n → ∀ u v, u < n → v < n → hits (2 ^ 32) n u ≤ hits (2 ^ 32) n v + 1) := by
  refine ⟨fun hn => ⟨_, by unfold randInRange; rw [if_neg (by omega)], Nat.mod_lt _ hn⟩, rfl,
    fun hn u v hu hv => ?_⟩
  rw [hits_eq _ n u hn hu, hits_eq _ n v hn hv]
  split_ifs <;> omega

example : randLtN 2 (fun i => i + 1) 1000 < 1000 ∧ hits 10 3 0 = 4 ∧ hits 10 3 1 = 3 := by
  decide +kernel

/-! ### The shuffle -/

section shuffle
variable {α : Type}

theorem swapAt_spec (l : List α) (i j : Nat) (hi : i < l.length) (hj : j < l.length) :
    ∃ m, swapAt l i j = some m ∧ m.Perm l ∧ m.length = l.length ∧
      ∀ k, m[k]? = if k = i then l[j]? else if k = j then l[i]? else l[k]? := by
  refine ⟨(l.set i l[j]).set j l[i], ?_, List.set_set_perm hi hj, by simp, fun k => ?_⟩
  · simp [swapAt, List.getElem?_eq_getElem hi, List.getElem?_eq_getElem hj]
  · rw [List.getElem?_set, List.getElem?_set, List.length_set]
    by_cases h1 : j = k
    · subst h1
      rw [if_pos rfl, if_pos hj]
      by_cases h2 : j = i
      · subst h2; rw [if_pos rfl, List.getElem?_eq_getElem hj]
      · rw [if_neg h2, if_pos rfl, List.getElem?_eq_getElem hi]
    · rw [if_neg h1]
      by_cases h2 : i = k
      · subst h2
        rw [if_pos rfl, if_pos rfl, if_pos hi, List.getElem?_eq_getElem hj]
      · rw [if_neg h2, if_neg (by omega), if_neg (by omega)]

theorem loop_spec (ind : Nat → Nat) (hind : ∀ i, ind i < i + 2) (i : Nat) :
    ∀ l : List α, i < l.length → ∃ m, shuffleLoop ind i l = some m ∧ m.Perm l ∧
      ∀ k, i < k → m[k]? = l[k]? := by
  induction i with
  | zero => intro l _; exact ⟨l, rfl, List.Perm.refl _, fun _ _ => rfl⟩
  | succ i ih =>
    intro l hl
    have hj := hind i
    obtain ⟨m, h1, h2, h3, h4⟩ := swapAt_spec l (i + 1) (ind i) hl (by omega)
    obtain ⟨q, g1, g2, g3⟩ := ih m (by omega)
    refine ⟨q, by simp only [shuffleLoop, h1, Option.bind_some, g1], g2.trans h2, fun k hk => ?_⟩
    rw [g3 k (by omega), h4, if_neg (by omega), if_neg (by omega)]

/-- For a list without repetitions and a rearrangement of it that agrees above `i`, there is
    exactly one choice of the numbers that leads to it. -/
theorem loop_code (i : Nat) : ∀ l t : List α, l.Nodup → i < l.length → t.Perm l →
    (∀ k, i < k → t[k]? = l[k]?) →
    ∃ code : Nat → Nat, (∀ k, code k < k + 2) ∧
      ∀ ind : Nat → Nat, (∀ k, ind k < k + 2) →
        (shuffleLoop ind i l = some t ↔ ∀ k, k < i → ind k = code k) := by
  induction i with
  | zero =>
    intro l t hn hl hp ht
    refine ⟨fun _ => 0, fun k => Nat.succ_pos _, fun ind hind => ?_⟩
    have : l = t := by
      have h1 : (l.take 1).Perm (t.take 1) :=
        List.Perm.take_of_getElem? hp.symm (fun j hj => (ht j (by omega)).symm)
      apply List.ext_getElem?
      intro k
      by_cases hk : 0 < k
      · rw [ht k hk]
      · have hk0 : k = 0 := by omega
        subst hk0
        have h2 : l.take 1 = t.take 1 := by
          cases l with
          | nil => simp at hl
          | cons a as =>
            cases t with
            | nil => simp at h1
            | cons b bs =>
              simp only [List.take_succ_cons, List.take_zero] at h1 ⊢
              exact (List.perm_singleton.1 h1)
        have h3 := congrArg (fun x => x[0]?) h2
        simpa [List.getElem?_take] using h3
    simp [shuffleLoop, this]
  | succ i ih =>
    intro l t hn hl hp ht
    have htl : t.length = l.length := hp.length_eq
    have hti : i + 1 < t.length := by omega
    -- the place of the element that must come to `i + 1`
    have hmem : t[i + 1] ∈ l := hp.subset (List.getElem_mem hti)
    obtain ⟨j, hj, hje⟩ := List.getElem_of_mem hmem
    have hji : j ≤ i + 1 := by
      by_contra hc
      have h1 := ht j (by omega)
      rw [List.getElem?_eq_getElem hj, List.getElem?_eq_getElem (by omega)] at h1
      have h2 : t[j]'(by omega) = t[i + 1] := by
        rw [← hje]; exact Option.some_inj.1 h1
      have h3 := (List.Nodup.getElem_inj_iff (hp.nodup_iff.2 hn)).1 h2
      omega
    obtain ⟨m, h1, h2, h3, h4⟩ := swapAt_spec l (i + 1) j hl hj
    obtain ⟨code, hc1, hc2⟩ := ih m t (h2.nodup_iff.2 hn) (by omega) (hp.trans h2.symm) (by
      intro k hk
      rw [h4]
      by_cases hk1 : k = i + 1
      · subst hk1
        rw [if_pos rfl, List.getElem?_eq_getElem hti, List.getElem?_eq_getElem hj, hje]
      · rw [if_neg hk1, if_neg (by omega)]
        exact ht k (by omega))
    refine ⟨fun k => if k = i then j else code k, fun k => ?_, fun ind hind => ?_⟩
    · dsimp only
      split_ifs with h
      · omega
      · exact hc1 k
    · have hii := hind i
      obtain ⟨m', g1, g2, g3, g4⟩ := swapAt_spec l (i + 1) (ind i) hl (by omega)
      have e : shuffleLoop ind (i + 1) l = shuffleLoop ind i m' := by
        simp only [shuffleLoop, g1, Option.bind_some]
      rw [e]
      constructor
      · intro hs
        obtain ⟨q, q1, q2, q3⟩ := loop_spec ind hind i m' (by omega)
        rw [q1] at hs
        cases hs
        have hq := q3 (i + 1) (by omega)
        rw [g4, if_pos rfl, List.getElem?_eq_getElem hti, List.getElem?_eq_getElem (by omega), ← hje] at hq
        have hij : ind i = j := ((List.Nodup.getElem_inj_iff hn).1 (Option.some_inj.1 hq)).symm
        subst hij
        have hmm : m' = m := by rw [h1] at g1; cases g1; rfl
        subst hmm
        have := (hc2 ind hind).1 q1
        intro k hk
        dsimp only
        split_ifs with h
        · subst h; rfl
        · exact this k (by omega)
      · intro hs
        have hij : ind i = j := by simpa using hs i (by omega)
        subst hij
        have hmm : m' = m := by rw [h1] at g1; cases g1; rfl
        subst hmm
        refine (hc2 ind hind).2 fun k hk => ?_
        have := hs k (by omega)
        dsimp only at this
        rwa [if_neg (by omega)] at this

/-- C112 (e): shuffling a non-empty range rearranges it, whatever the random words, and
    never touches memory outside. -/
theorem C112_shuffle_perm (l : List α) (hl : l ≠ []) (word : Nat → Nat) :
    ∃ m, replayShuffle l word = some m ∧ m.Perm l := by
  have : 0 < l.length := List.length_pos_iff.2 hl
  obtain ⟨m, h1, h2, -⟩ := loop_spec (fun i => word i % (i + 2)) (fun i => Nat.mod_lt _ (by omega))
    (l.length - 1) l (by omega)
  exact ⟨m, by unfold replayShuffle; rw [if_neg (by omega)]; exact h1, h2⟩

/-- C112 (f): every rearrangement of distinct elements comes from exactly one choice of
    remainders, so it is as likely as every other one, up to the unevenness of `2^128` words
    over `i + 2` remainders (at most one word). -/
theorem C112_shuffle_uniform (l t : List α) (hn : l.Nodup) (hl : l ≠ []) (ht : t.Perm l) :
    ∃ code : Nat → Nat, (∀ i, code i < i + 2) ∧
      (∀ word : Nat → Nat, replayShuffle l word = some t ↔
        ∀ i, i < l.length - 1 → word i % (i + 2) = code i) ∧
      ∀ i v, v < i + 2 → hits (2 ^ 128) (i + 2) (code i) ≤ hits (2 ^ 128) (i + 2) v + 1 := by
  have h0 : 0 < l.length := List.length_pos_iff.2 hl
  obtain ⟨code, h1, h2⟩ := loop_code (l.length - 1) l t hn (by omega) ht (by
    intro k hk
    rw [List.getElem?_eq_none (by rw [ht.length_eq]; omega), List.getElem?_eq_none (by omega)])
  refine ⟨code, h1, fun word => ?_, fun i v hv => ?_⟩
  · unfold replayShuffle
    rw [if_neg (by omega)]
    exact h2 _ (fun k => Nat.mod_lt _ (by omega))
  · rw [hits_eq _ _ _ (by omega) (h1 i), hits_eq _ _ _ (by omega) hv]
    split_ifs <;> omega

theorem ofDigits_bytes (x m : Nat) :
    Nat.ofDigits 256 ((List.range m).map fun i => x / 256 ^ i % 256) = x % 256 ^ m := by
  induction m with
  | zero => simp [Nat.mod_one]
  | succ m ih =>
    rw [List.range_succ, List.map_append, Nat.ofDigits_append, ih]
    simp only [List.map_cons, List.map_nil, Nat.ofDigits_singleton, List.length_map, List.length_range]
    rw [pow_succ, Nat.mod_mul]

/-- C112 (h): the words of a shuffle are blocks of the cipher, one for each step, and the
    counter handed back stands behind them, so that a second shuffle under the same seed uses
    other cipher inputs (as long as the counter has not gone round). -/
theorem C112_shuffle_words (E : Prg.Cipher) (l : List α) (hl : l ≠ []) (seed : Prg.B) (ctr : BitVec 64) :
    (∃ m, replay E l seed ctr = some (m, ctr + BitVec.ofNat 64 (l.length - 1)) ∧ m.Perm l) ∧
    ∀ i, i < l.length - 1 →
      prgWord E seed ctr l.length i
        = (E seed (Prg.bswap (Prg.bswap (ctr.setWidth 128) + BitVec.ofNat 128 i))).toNat := by
  constructor
  · obtain ⟨m, h1, h2⟩ := C112_shuffle_perm l hl (prgWord E seed ctr l.length)
    refine ⟨m, ?_, h2⟩
    unfold replay
    rw [h1, Option.map_some]
    congr 2
    show ctr + BitVec.ofNat 64 (((l.length - 1) * 16 + 16 - 1) / 16) = _
    congr 2
    omega
  · intro i hi
    unfold prgWord
    generalize hn : l.length - 1 = n at *
    have e : (Prg.fillPRand .ctr E seed 0 ctr (n * 16)).1 = Prg.bytesOf
        (fun i => E seed (Prg.bswap (Prg.bswap (ctr.setWidth 128) + BitVec.ofNat 128 i))) (n * 16) :=
      Prg.fillCtr_eq E seed ctr (n * 16)
    rw [e, show n * 16 = 16 * i + (n * 16 - 16 * i) by omega, Prg.bytesOf_append,
      List.drop_left' (by rw [Prg.bytesOf_length]), Prg.bytesOf_take,
      show min 16 (n * 16 - 16 * i) = 16 by omega]
    unfold Prg.bytesOf
    rw [List.map_map]
    have hx := ofDigits_bytes
      (E seed (Prg.bswap (Prg.bswap (ctr.setWidth 128) + BitVec.ofNat 128 i))).toNat 16
    rw [Nat.mod_eq_of_lt (lt_of_lt_of_le (BitVec.isLt _) (by norm_num))] at hx
    rw [← hx]
    refine congrArg (Nat.ofDigits 256) (List.map_congr_left fun q hq => ?_)
    have hq16 : q < 16 := List.mem_range.1 hq
    simp only [Function.comp]
    rw [show q / 16 = 0 by omega, show q % 16 = q by omega, Nat.add_zero, BitVec.extractLsb'_toNat,
      Nat.shiftRight_eq_div_pow, pow_mul, show (2 : Nat) ^ 8 = 256 from rfl]

/-- Two shuffles one after the other share no cipher input. -/
theorem C112_shuffle_fresh (n n' i i' : Nat) (ctr : BitVec 64) (hn : 0 < n - 1)
    (h : (n - 1) < 2 ^ 64) (hi : i < n - 1) (hi' : i' < n' - 1) (hn' : n' - 1 < 2 ^ 64) :
    Prg.bswap (Prg.bswap (ctr.setWidth 128) + BitVec.ofNat 128 i) ≠
      Prg.bswap (Prg.bswap ((ctr + BitVec.ofNat 64 (n - 1)).setWidth 128) + BitVec.ofNat 128 i') := by
  intro he
  have := (Prg.C56_ctr_disjoint ctr (ctr + BitVec.ofNat 64 (n - 1)) i i' (by omega) (by omega) he).1
  have h2 := congrArg BitVec.toNat this
  rw [BitVec.toNat_add, BitVec.toNat_ofNat] at h2
  have := ctr.isLt
  omega

/-- An empty range is refused. -/
theorem C112_shuffle_empty (word : Nat → Nat) : replayShuffle ([] : List α) word = none := rfl

end shuffle

/-- C112 (g): the generator for `std::shuffle` can be stopped and taken up again: a fresh
    object with the same seed and the counter read from the first one goes on with the same
    numbers. -/
theorem C112_replay (m : Prg.Mode) (E : Prg.Cipher) (seed iv : Prg.B) (size a b : Nat) (ctr : BitVec 64) :
    (urbgRun m E seed iv size (a + b) ctr).1 =
      (urbgRun m E seed iv size a ctr).1 ++
        (urbgRun m E seed iv size b (urbgRun m E seed iv size a ctr).2).1 := by
  induction a generalizing ctr with
  | zero => simp [urbgRun]
  | succ a ih =>
    rw [show a + 1 + b = (a + b) + 1 by omega]
    simp only [urbgRun, List.cons_append]
    rw [ih]

/-- ... but not from the seed it reports: that one has lost its upper half, and two objects
    with different seeds report the same. -/
theorem C112_get_seed_violated : ∃ s s' : Prg.B, s ≠ s' ∧ urbgGetSeed s = urbgGetSeed s' :=
  ⟨0, 1 <<< 64, by decide, by decide⟩

example : replayShuffle [10, 20, 30, 40] (fun i => i + 5) = some [30, 20, 10, 40] ∧
    replayShuffle [10, 20, 30, 40] (fun i => 0) = some [20, 30, 40, 10] := by decide +kernel

end Yacl.Rand
