import Verif.Crypto.Prg

namespace Yacl.Prg

/-! ### Specification -/

/-- The first `len` bytes of a sequence of blocks. -/
def bytesOf (f : Nat → B) (len : Nat) : List Byte := (List.range len).map fun q => (f (q / 16)).extractLsb' (8 * (q % 16)) 8

/-- The key stream of a seed: byte `q` of the encryptions of the counters 0, 1, 2, … -/
def streamByte (E : Cipher) (seed : B) (q : Nat) : Byte := (E seed (BitVec.ofNat 128 (q / 16))).extractLsb' (8 * (q % 16)) 8

/-- `l` bytes of the key stream from position `a`. -/
def window (E : Cipher) (seed : B) (a l : Nat) : List Byte := (List.range l).map fun j => streamByte E seed (a + j)

/-! ### Lemmas -/

theorem leBytes_length (b : B) : (leBytes b).length = 16 := by simp [leBytes]

theorem blocks_bytesOf (f : Nat → B) (n : Nat) : (List.range n).flatMap (fun i => leBytes (f i)) = bytesOf f (16 * n) := by
  induction n with
  | zero => rfl
  | succ n ih =>
    rw [List.range_succ, List.flatMap_append, ih]
    unfold bytesOf
    rw [show 16 * (n + 1) = 16 * n + 16 by omega, List.range_add, List.map_append]
    congr 1
    simp only [List.flatMap_cons, List.flatMap_nil, List.append_nil, leBytes, List.map_map]
    apply List.map_congr_left
    intro q hq
    have hq' : q < 16 := List.mem_range.mp hq
    simp only [Function.comp_apply]
    rw [show (16 * n + q) / 16 = n by omega, show (16 * n + q) % 16 = q by omega]

theorem bytesOf_length (f : Nat → B) (len : Nat) : (bytesOf f len).length = len := by simp [bytesOf]

theorem bytesOf_take (f : Nat → B) (l len : Nat) : (bytesOf f len).take l = bytesOf f (min l len) := by
  simp [bytesOf, ← List.map_take, List.take_range]

theorem bytesOf_append (f : Nat → B) (n len : Nat) : bytesOf f (16 * n + len) = bytesOf f (16 * n) ++ bytesOf (fun i => f (n + i)) len := by
  unfold bytesOf
  rw [List.range_add, List.map_append, List.map_map]
  congr 1
  apply List.map_congr_left
  intro q _
  simp only [Function.comp_apply]
  rw [show (16 * n + q) / 16 = n + q / 16 by omega, show (16 * n + q) % 16 = q % 16 by omega]

theorem bytesOf_congr (f g : Nat → B) (len : Nat) (h : ∀ i < (len + 15) / 16, f i = g i) : bytesOf f len = bytesOf g len := by
  apply List.map_congr_left
  intro q hq
  have := List.mem_range.mp hq
  rw [h (q / 16) (by omega)]

theorem leBytes_take (b : B) (l : Nat) (h : l ≤ 16) : (leBytes b).take l = bytesOf (fun _ => b) l := by
  unfold leBytes bytesOf
  rw [← List.map_take, List.take_range, min_eq_left h]
  apply List.map_congr_left
  intro q hq
  have := List.mem_range.mp hq
  rw [show q % 16 = q by omega]

theorem fillEcb_eq (E : Cipher) (seed : B) (count : BitVec 64) (len : Nat) (h : count.toNat + (len + 15) / 16 ≤ 2 ^ 64) :
    (fillEcb E seed count len).1 = bytesOf (fun i => E seed (BitVec.ofNat 128 (count.toNat + i))) len := by
  have hcnt : ∀ i : Nat, count.setWidth 128 + BitVec.ofNat 128 i = BitVec.ofNat 128 (count.toNat + i) := by
    intro i
    apply BitVec.eq_of_toNat_eq
    simp [Nat.add_mod]
  simp only [fillEcb]
  by_cases hp : len % 16 = 0
  · rw [if_pos hp, ecbBlocks, blocks_bytesOf]
    simp only [hcnt]
    rw [show 16 * ((len + 16 - 1) / 16) = len by omega]
  · rw [if_neg hp]
    have hfirst : (if (len + 16 - 1) / 16 > 1 then ecbBlocks E seed (count.setWidth 128) ((len + 16 - 1) / 16 - 1) else []) =
        bytesOf (fun i => E seed (BitVec.ofNat 128 (count.toNat + i))) (16 * (len / 16)) := by
      by_cases h1 : (len + 16 - 1) / 16 > 1
      · rw [if_pos h1, ecbBlocks, blocks_bytesOf]
        simp only [hcnt]
        rw [show (len + 16 - 1) / 16 - 1 = len / 16 by omega]
      · rw [if_neg h1, show len / 16 = 0 by omega]
        rfl
    have hlast : (count + BitVec.ofNat 64 ((len + 16 - 1) / 16) - 1).setWidth 128 = BitVec.ofNat 128 (count.toNat + len / 16) := by
      have hn : (len + 16 - 1) / 16 = len / 16 + 1 := by omega
      have e : count + BitVec.ofNat 64 ((len + 16 - 1) / 16) - 1 = BitVec.ofNat 64 (count.toNat + len / 16) := by
        rw [hn, BitVec.ofNat_add, BitVec.ofNat_add]
        rw [BitVec.ofNat_toNat, BitVec.setWidth_eq, ← BitVec.add_assoc]
        exact BitVec.add_sub_cancel _ _
      rw [e]
      apply BitVec.eq_of_toNat_eq
      have hb : count.toNat + len / 16 < 2 ^ 64 := by omega
      simp only [BitVec.toNat_setWidth, BitVec.toNat_ofNat]
      rw [Nat.mod_eq_of_lt hb]
    rw [hfirst, hlast, leBytes_take _ _ (by omega)]
    conv_rhs => rw [show len = 16 * (len / 16) + len % 16 by omega, bytesOf_append]
    congr 1
    apply bytesOf_congr
    intro i hi
    rw [show i = 0 by omega, Nat.add_zero]

theorem fillEcb_ret (E : Cipher) (seed : B) (count : BitVec 64) (len : Nat) :
    (fillEcb E seed count len).2 = count + BitVec.ofNat 64 ((len + 15) / 16) := rfl

theorem fillCtr_eq (E : Cipher) (seed : B) (count : BitVec 64) (len : Nat) :
    (fillCtr E seed count len).1 = bytesOf (fun i => E seed (bswap (bswap (count.setWidth 128) + BitVec.ofNat 128 i))) len := by
  simp only [fillCtr]
  rw [blocks_bytesOf (fun i => E seed (bswap (bswap (count.setWidth 128) + BitVec.ofNat 128 i))), bytesOf_take,
    show min len (16 * ((len + 16 - 1) / 16)) = len by omega]

theorem fillCbc_eq (E : Cipher) (seed iv : B) (count : BitVec 64) (len : Nat) :
    (fillCbc E seed iv count len).1 = bytesOf (fun i => cbcBlock E seed iv (count.setWidth 128) i) len := by
  simp only [fillCbc]
  rw [blocks_bytesOf (fun i => cbcBlock E seed iv (count.setWidth 128) i), bytesOf_take,
    show min len (16 * ((len + 16 - 1) / 16)) = len by omega]

/-! ### C56 -/

inductive Mode
  | ecb | ctr | cbc
deriving DecidableEq

/-- prg.cc L22-69 `FillPRand`, by mode. -/
def fillPRand (m : Mode) (E : Cipher) (seed iv : B) (count : BitVec 64) (len : Nat) : List Byte × BitVec 64 :=
  match m with
  | .ecb => fillEcb E seed count len
  | .ctr => fillCtr E seed count len
  | .cbc => fillCbc E seed iv count len

/-- C56. In every mode the output has the requested length and a shorter request gives a prefix of a longer one, as long as the block counter
does not leave 64 bits. -/
theorem C56_prefix (m : Mode) (E : Cipher) (seed iv : B) (count : BitVec 64) (len len' : Nat) (hl : len ≤ len')
    (h : count.toNat + (len' + 15) / 16 ≤ 2 ^ 64) :
    (fillPRand m E seed iv count len).1.length = len ∧
    (fillPRand m E seed iv count len).1 = (fillPRand m E seed iv count len').1.take len := by
  have h' : count.toNat + (len + 15) / 16 ≤ 2 ^ 64 := by omega
  cases m with
  | ecb =>
    simp only [fillPRand, fillEcb_eq E seed count len h', fillEcb_eq E seed count len' h, bytesOf_take, bytesOf_length, min_eq_left hl, and_self]
  | ctr => simp only [fillPRand, fillCtr_eq, bytesOf_take, bytesOf_length, min_eq_left hl, and_self]
  | cbc => simp only [fillPRand, fillCbc_eq, bytesOf_take, bytesOf_length, min_eq_left hl, and_self]

/-- C56. In ECB mode the returned counter continues the stream: after a whole number of blocks, a second fill from the returned counter
produces exactly what one longer fill would have. After a partial block it resumes at the next block. -/
theorem C56_continue_partial (E : Cipher) (seed iv : B) (count : BitVec 64) (len len' : Nat) (hd : 16 ∣ len)
    (h : count.toNat + len / 16 + (len' + 15) / 16 ≤ 2 ^ 64) (hlt : count.toNat + len / 16 < 2 ^ 64) :
    (fillPRand .ecb E seed iv count len).1 ++ (fillPRand .ecb E seed iv (fillPRand .ecb E seed iv count len).2 len').1 =
      (fillPRand .ecb E seed iv count (len + len')).1 := by
  obtain ⟨n, rfl⟩ := hd
  have hn : (16 * n + 15) / 16 = n := by omega
  have hn' : 16 * n / 16 = n := by omega
  rw [hn'] at h hlt
  simp only [fillPRand, fillEcb_ret, hn]
  have hc : (count + BitVec.ofNat 64 n).toNat = count.toNat + n := by
    simp only [BitVec.toNat_add, BitVec.toNat_ofNat]
    omega
  rw [fillEcb_eq _ _ _ _ (by omega), fillEcb_eq _ _ _ _ (by omega), fillEcb_eq _ _ _ _ (by omega), bytesOf_append]
  congr 1
  simp only [hc, Nat.add_assoc]

/-- C56 fails in CTR mode, which `PrgAesCtr` uses: the counter is placed in the initial vector in little-endian order but incremented in
big-endian order, so resuming from the returned counter does not continue the stream. -/
theorem C56_ctr_violated :
    ∃ (E : Cipher) (seed : B), (fillPRand .ctr E seed 0 0 16).1 ++ (fillPRand .ctr E seed 0 (fillPRand .ctr E seed 0 0 16).2 16).1 ≠
      (fillPRand .ctr E seed 0 0 32).1 := by
  refine ⟨fun _ x => x, 0, ?_⟩
  decide +kernel

theorem bswap_bit (x : B) (j : Nat) (hj : j < 128) : (bswap x).getLsbD j = x.getLsbD (8 * (15 - j / 8) + j % 8) :=
  OtExt.word_bit _ j hj

theorem bswap_bswap (x : B) : bswap (bswap x) = x := by
  apply BitVec.eq_of_getLsbD_eq
  intro j hj
  rw [bswap_bit _ j hj, bswap_bit _ _ (by omega)]
  congr 1
  omega

/-- C56. In CTR mode different counters still never share a cipher input (within 2^64 blocks), so no key stream is reused. -/
theorem C56_ctr_disjoint (c c' : BitVec 64) (i i' : Nat) (hi : i < 2 ^ 64) (hi' : i' < 2 ^ 64)
    (h : bswap (bswap (c.setWidth 128) + BitVec.ofNat 128 i) = bswap (bswap (c'.setWidth 128) + BitVec.ofNat 128 i')) :
    c = c' ∧ i = i' := by
  have h1 : bswap (c.setWidth 128) + BitVec.ofNat 128 i = bswap (c'.setWidth 128) + BitVec.ofNat 128 i' := by
    have := congrArg bswap h
    rwa [bswap_bswap, bswap_bswap] at this
  have low : ∀ c : BitVec 64, (bswap (c.setWidth 128)).toNat % 2 ^ 64 = 0 := by
    intro c
    have : (bswap (c.setWidth 128)).setWidth 64 = (0 : BitVec 64) := by
      apply BitVec.eq_of_getLsbD_eq
      intro j hj
      rw [BitVec.getLsbD_setWidth, bswap_bit _ _ (by omega), BitVec.getLsbD_setWidth]
      have : c.getLsbD (8 * (15 - j / 8) + j % 8) = false := BitVec.getLsbD_of_ge _ _ (by omega)
      simp [this]
    have := congrArg BitVec.toNat this
    simpa using this
  have e := congrArg BitVec.toNat h1
  have l1 := low c
  have l2 := low c'
  have b1 := (bswap (c.setWidth 128)).isLt
  have b2 := (bswap (c'.setWidth 128)).isLt
  simp only [BitVec.toNat_add, BitVec.toNat_ofNat] at e
  have e1 : i % 2 ^ 128 = i := Nat.mod_eq_of_lt (by omega)
  have e2 : i' % 2 ^ 128 = i' := Nat.mod_eq_of_lt (by omega)
  rw [e1, e2] at e
  have hii : i = i' := by omega
  refine ⟨?_, hii⟩
  have hb : bswap (c.setWidth 128) = bswap (c'.setWidth 128) := by
    apply BitVec.eq_of_toNat_eq
    omega
  have hc : c.setWidth 128 = c'.setWidth 128 := by
    rw [← bswap_bswap (c.setWidth 128), hb, bswap_bswap]
  apply BitVec.eq_of_toNat_eq
  have := congrArg BitVec.toNat hc
  simp only [BitVec.toNat_setWidth] at this
  have c1 := c.isLt
  have c2 := c'.isLt
  omega

/-- The corner excluded above: when the counter crosses 2^64 the padded last block uses a wrapped counter, so a shorter fill is not a prefix. -/
theorem C56_wrap_violated :
    ∃ (E : Cipher) (seed : B) (count : BitVec 64),
      (fillPRand .ecb E seed 0 count 17).1 ≠ (fillPRand .ecb E seed 0 count 32).1.take 17 := by
  refine ⟨fun _ x => x >>> 64, 0, BitVec.ofNat 64 (2 ^ 64 - 1), ?_⟩
  decide +kernel

example : (5 : BitVec 64).toNat + (40 + 15) / 16 ≤ 2 ^ 64 ∧ 16 ∣ 32 := by decide

/-! ### C54 -/

theorem window_length (E : Cipher) (seed : B) (a l : Nat) : (window E seed a l).length = l := by simp [window]

theorem window_sub (E : Cipher) (seed : B) (a l p k : Nat) (h : p + k ≤ l) : ((window E seed a l).drop p).take k = window E seed (a + p) k := by
  apply List.ext_getElem?
  intro i
  by_cases hi : i < k
  · rw [List.getElem?_take_of_lt hi, List.getElem?_drop]
    simp only [window, List.getElem?_map]
    rw [List.getElem?_range (by omega), List.getElem?_range hi]
    simp [Nat.add_assoc]
  · rw [List.getElem?_eq_none (by simp only [List.length_take, List.length_drop, window_length]; omega),
      List.getElem?_eq_none (by simp only [window_length]; omega)]

/-- A fill is a window of the key stream. -/
theorem fillEcb_window (E : Cipher) (seed : B) (c len : Nat) (hc : c < 2 ^ 64) (h : c + (len + 15) / 16 ≤ 2 ^ 64) :
    (fillEcb E seed (BitVec.ofNat 64 c) len).1 = window E seed (16 * c) len := by
  have hcn : (BitVec.ofNat 64 c).toNat = c := by
    rw [BitVec.toNat_ofNat]
    exact Nat.mod_eq_of_lt hc
  rw [fillEcb_eq _ _ _ _ (by omega), hcn]
  unfold bytesOf window streamByte
  apply List.map_congr_left
  intro q _
  rw [show (16 * c + q) / 16 = c + q / 16 by omega, show (16 * c + q) % 16 = q % 16 by omega]

/-- What holds between calls, for any interleaving: the counter is `c` blocks, the unread part of the cache is the part of the window at `w` from
element `consumed` on, and it lies below the counter. -/
structure Inv (E : Cipher) (sz batch : Nat) (seed : B) (c w : Nat) (st : St) : Prop where
  seed_eq : st.seed = seed
  counter_eq : st.counter = BitVec.ofNat 128 c
  consumed_le : st.consumed ≤ batch
  cache_eq : st.consumed < batch → st.cache = window E seed w (batch * sz)
  below : st.consumed < batch → w + batch * sz ≤ 16 * c

theorem counter64 (c : Nat) : (BitVec.ofNat 128 c).setWidth 64 = BitVec.ofNat 64 c := by
  apply BitVec.eq_of_toNat_eq
  simp

theorem counterBack (c n : Nat) (h : c + n < 2 ^ 64) : (BitVec.ofNat 64 c + BitVec.ofNat 64 n).setWidth 128 = BitVec.ofNat 128 (c + n) := by
  apply BitVec.eq_of_toNat_eq
  simp only [BitVec.toNat_setWidth, BitVec.toNat_add, BitVec.toNat_ofNat]
  omega

theorem fresh_inv (E : Cipher) (sz batch : Nat) (seed : B) : Inv E sz batch seed 0 0 (fresh sz batch seed) :=
  ⟨rfl, rfl, le_refl _, fun h => absurd h (lt_irrefl _), fun h => absurd h (lt_irrefl _)⟩

/-- One `operator()`: which window is returned. -/
theorem next_inv {E : Cipher} {sz batch : Nat} {seed : B} {c w : Nat} {st : St} (hb : 0 < batch) (hd : 16 ∣ batch * sz)
    (hi : Inv E sz batch seed c w st) (hc : c + batch * sz / 16 < 2 ^ 64) :
    if st.consumed = batch then
      (next E sz batch st).1 = window E seed (16 * c) sz ∧
      Inv E sz batch seed (c + batch * sz / 16) (16 * c) (next E sz batch st).2 ∧ (next E sz batch st).2.consumed = 1
    else
      (next E sz batch st).1 = window E seed (w + st.consumed * sz) sz ∧ Inv E sz batch seed c w (next E sz batch st).2 ∧
      (next E sz batch st).2.consumed = st.consumed + 1 := by
  obtain ⟨n, hn⟩ := hd
  have hn16 : batch * sz / 16 = n := by omega
  rw [hn16] at hc
  split
  · next heq =>
    have hr : refill E sz batch st = { st with cache := window E seed (16 * c) (batch * sz), counter := BitVec.ofNat 128 (c + n) } := by
      unfold refill
      simp only [hi.seed_eq, hi.counter_eq, counter64]
      rw [fillEcb_window E seed c _ (by omega) (by omega), fillEcb_ret, show (batch * sz + 15) / 16 = n by omega, counterBack _ _ hc]
    have hnx : next E sz batch st = (((window E seed (16 * c) (batch * sz)).drop (0 * sz)).take sz,
        ⟨st.seed, BitVec.ofNat 128 (c + n), window E seed (16 * c) (batch * sz), 0 + 1⟩) := by
      simp only [next, if_pos heq, hr]
    rw [hnx, hn16]
    refine ⟨?_, ⟨hi.seed_eq, rfl, by simp only; omega, fun _ => rfl, fun _ => by omega⟩, rfl⟩
    have : sz ≤ batch * sz := Nat.le_mul_of_pos_left sz hb
    rw [window_sub E seed _ _ _ _ (by omega)]
    simp
  · next hne =>
    have hlt : st.consumed < batch := by have := hi.consumed_le; omega
    have hnx : next E sz batch st = ((st.cache.drop (st.consumed * sz)).take sz, { st with consumed := st.consumed + 1 }) := by
      simp only [next, if_neg hne]
    rw [hnx]
    refine ⟨?_, ⟨hi.seed_eq, hi.counter_eq, by simp only; omega, fun _ => hi.cache_eq hlt, fun _ => hi.below hlt⟩, rfl⟩
    rw [hi.cache_eq hlt]
    apply window_sub
    calc st.consumed * sz + sz = (st.consumed + 1) * sz := by ring
      _ ≤ batch * sz := Nat.mul_le_mul_right _ (by omega)

theorem next_cached {E : Cipher} {sz batch : Nat} {st : St} (h : ¬ st.consumed = batch) :
    next E sz batch st = ((st.cache.drop (st.consumed * sz)).take sz, { st with consumed := st.consumed + 1 }) := by
  simp only [next, if_neg h]

theorem fill_inv {E : Cipher} {sz batch : Nat} {seed : B} {c w : Nat} {st : St} (hi : Inv E sz batch seed c w st) (len : Nat)
    (hc : c + (len + 15) / 16 < 2 ^ 64) :
    (fill E st len).1 = window E seed (16 * c) len ∧ Inv E sz batch seed (c + (len + 15) / 16) w (fill E st len).2 := by
  unfold fill
  simp only [hi.seed_eq, hi.counter_eq, counter64]
  rw [fillEcb_window E seed c _ (by omega) (by omega), fillEcb_ret, counterBack _ _ hc]
  exact ⟨rfl, ⟨rfl, rfl, hi.consumed_le, hi.cache_eq, fun h => by have := hi.below h; omega⟩⟩

theorem nexts_inv (E : Cipher) (sz batch : Nat) (seed : B) (hb : 0 < batch) (hd : 16 ∣ batch * sz) (k : Nat)
    (hk : (k / batch + 1) * (batch * sz / 16) < 2 ^ 64) :
    ∃ m p, k = m * batch + p ∧ p < batch ∧
      ((p = 0 ∧ ∃ w, Inv E sz batch seed (m * (batch * sz / 16)) w (nexts E sz batch (fresh sz batch seed) k) ∧
          (nexts E sz batch (fresh sz batch seed) k).consumed = batch) ∨
       (0 < p ∧ Inv E sz batch seed ((m + 1) * (batch * sz / 16)) (m * (batch * sz)) (nexts E sz batch (fresh sz batch seed) k) ∧
          (nexts E sz batch (fresh sz batch seed) k).consumed = p)) := by
  induction k with
  | zero =>
    refine ⟨0, 0, by simp, hb, .inl ⟨rfl, 0, ?_, rfl⟩⟩
    rw [Nat.zero_mul]
    exact fresh_inv E sz batch seed
  | succ k ih =>
    have hmono : (k / batch + 1) * (batch * sz / 16) ≤ ((k + 1) / batch + 1) * (batch * sz / 16) :=
      Nat.mul_le_mul_right _ (Nat.succ_le_succ (Nat.div_le_div_right (by omega)))
    obtain ⟨m, p, hkm, hp, hcase⟩ := ih (by omega)
    have hm : k / batch = m := by
      rw [hkm, Nat.mul_comm, Nat.mul_add_div hb, Nat.div_eq_of_lt hp, Nat.add_zero]
    rw [hm] at hmono
    generalize hn : batch * sz / 16 = n at *
    have hn' : batch * sz = 16 * n := by omega
    have e1 : (m + 1) * n = m * n + n := by ring
    have e2 : 16 * (m * n) = m * (batch * sz) := by rw [hn']; ring
    rcases hcase with ⟨rfl, w, hinv, hcons⟩ | ⟨hp0, hinv, hcons⟩
    · have h := next_inv hb hd hinv (by omega)
      rw [if_pos hcons, hn, ← e1, e2] at h
      by_cases hb1 : batch = 1
      · refine ⟨m + 1, 0, by rw [hkm, hb1]; ring, hb, .inl ⟨rfl, _, h.2.1, ?_⟩⟩
        show (next E sz batch _).2.consumed = batch
        rw [h.2.2, hb1]
      · exact ⟨m, 1, by omega, by omega, .inr ⟨by omega, h.2.1, h.2.2⟩⟩
    · have hlt : ¬ (nexts E sz batch (fresh sz batch seed) k).consumed = batch := by omega
      have hbound : (m + 1) * n + n < 2 ^ 64 ∨ p + 1 < batch ∨ p + 1 = batch := by omega
      have hstep : (next E sz batch (nexts E sz batch (fresh sz batch seed) k)).2 =
          { nexts E sz batch (fresh sz batch seed) k with consumed := p + 1 } := by
        rw [next_cached hlt, hcons]
      by_cases hpb : p + 1 = batch
      · refine ⟨m + 1, 0, by rw [hkm, ← hpb]; ring, hb, .inl ⟨rfl, m * (batch * sz), ?_, ?_⟩⟩
        · show Inv E sz batch seed _ _ (next E sz batch _).2
          rw [hstep]
          exact ⟨hinv.seed_eq, hinv.counter_eq, by simp only; omega, fun _ => hinv.cache_eq (by omega), fun _ => hinv.below (by omega)⟩
        · show (next E sz batch _).2.consumed = batch
          rw [hstep]
          exact hpb
      · refine ⟨m, p + 1, by omega, by omega, .inr ⟨by omega, ?_, ?_⟩⟩
        · show Inv E sz batch seed _ _ (next E sz batch _).2
          rw [hstep]
          exact ⟨hinv.seed_eq, hinv.counter_eq, by simp only; omega, fun _ => hinv.cache_eq (by omega), fun _ => hinv.below (by omega)⟩
        · show (next E sz batch _).2.consumed = p + 1
          rw [hstep]

/-- C54. For every seed, element size and batch size accepted by the class, call number `k` returns element `k` of the key stream of the seed,
which does not mention the batch size. -/
theorem C54_stream (E : Cipher) (sz batch : Nat) (seed : B) (hb : 0 < batch) (hd : 16 ∣ batch * sz) (k : Nat)
    (hk : (k / batch + 1) * (batch * sz / 16) < 2 ^ 64) :
    (next E sz batch (nexts E sz batch (fresh sz batch seed) k)).1 = window E seed (k * sz) sz := by
  obtain ⟨m, p, hkm, hp, hcase⟩ := nexts_inv E sz batch seed hb hd k hk
  have hm : k / batch = m := by
    rw [hkm, Nat.mul_comm, Nat.mul_add_div hb, Nat.div_eq_of_lt hp, Nat.add_zero]
  rw [hm] at hk
  have e1 : (m + 1) * (batch * sz / 16) = m * (batch * sz / 16) + batch * sz / 16 := by ring
  have hd' := hd
  obtain ⟨n, hn⟩ := hd
  have hn16 : batch * sz / 16 = n := by omega
  simp only [hn16] at hk hcase e1
  have e2 : 16 * (m * n) = m * batch * sz := by rw [Nat.mul_assoc m, hn]; ring
  rcases hcase with ⟨rfl, w, hinv, hcons⟩ | ⟨hp0, hinv, hcons⟩
  · have h := next_inv hb hd' hinv (by omega)
    rw [if_pos hcons] at h
    rw [h.1, hkm, e2, Nat.add_zero]
  · have hlt : ¬ (nexts E sz batch (fresh sz batch seed) k).consumed = batch := by omega
    have hnx : (next E sz batch (nexts E sz batch (fresh sz batch seed) k)).1 =
        ((nexts E sz batch (fresh sz batch seed) k).cache.drop (p * sz)).take sz := by
      rw [next_cached hlt, hcons]
    rw [hnx, hinv.cache_eq (by omega), window_sub]
    · rw [hkm]
      congr 1
      ring
    · calc p * sz + sz = (p + 1) * sz := by ring
        _ ≤ batch * sz := Nat.mul_le_mul_right _ (by omega)

/-! #### `Prg<bool>` -/

/-- Bit `q` of the key stream. -/
def streamBit (E : Cipher) (seed : B) (q : Nat) : Bool := (streamByte E seed (q / 8)).getLsbD (q % 8)

theorem nextsBool_start (E : Cipher) (batch : Nat) (seed : B) (hb : 0 < batch) (k : Nat) (hk : k ≤ 7 * batch) :
    nextsBool E batch (freshBool batch seed) k = { freshBool batch seed with consumed := batch + k } := by
  induction k with
  | zero => rfl
  | succ k ih =>
    show (nextBool E batch (nextsBool E batch (freshBool batch seed) k)).2 = _
    rw [ih (by omega)]
    simp only [nextBool, freshBool]
    rw [if_neg (by omega)]
    rfl

/-- C54 fails for `Prg<bool>`: whatever the seed and the cipher, the first `7 * BATCH_SIZE` values (112 with the default batch size) are `false`. -/
theorem C54_bool_violated (E : Cipher) (batch : Nat) (seed : B) (hb : 0 < batch) (k : Nat) (hk : k < 7 * batch) :
    (nextBool E batch (nextsBool E batch (freshBool batch seed) k)).1 = false := by
  rw [nextsBool_start E batch seed hb k (by omega)]
  simp only [nextBool, freshBool]
  rw [if_neg (by omega)]
  simp only
  rw [List.getD_eq_getElem?_getD, List.getElem?_replicate]
  split <;> simp

/-- `Prg<bool>` between calls: as `Inv`, counting bits. -/
structure InvB (E : Cipher) (batch : Nat) (seed : B) (c w p : Nat) (st : St) : Prop where
  seed_eq : st.seed = seed
  counter_eq : st.counter = BitVec.ofNat 128 c
  consumed_eq : st.consumed = p
  cache_eq : p < 8 * batch → st.cache = window E seed w batch

theorem nextBool_refill {E : Cipher} {batch : Nat} {seed : B} {c w : Nat} {st : St} (hb : 0 < batch) (hd : 16 ∣ batch)
    (hi : InvB E batch seed c w (8 * batch) st) (hc : c + batch / 16 < 2 ^ 64) :
    (nextBool E batch st).1 = streamBit E seed (8 * (16 * c)) ∧
      InvB E batch seed (c + batch / 16) (16 * c) 1 (nextBool E batch st).2 := by
  obtain ⟨n, rfl⟩ := hd
  have hr : refill E 1 (16 * n) st = { st with cache := window E seed (16 * c) (16 * n), counter := BitVec.ofNat 128 (c + n) } := by
    unfold refill
    simp only [hi.seed_eq, hi.counter_eq, counter64, Nat.mul_one]
    rw [fillEcb_window E seed c _ (by omega) (by omega), fillEcb_ret, show (16 * n + 15) / 16 = n by omega, counterBack _ _ (by omega)]
  have hnx : nextBool E (16 * n) st = (((window E seed (16 * c) (16 * n)).getD (0 / 8) 0).getLsbD (0 % 8),
      ⟨st.seed, BitVec.ofNat 128 (c + n), window E seed (16 * c) (16 * n), 0 + 1⟩) := by
    simp only [nextBool, if_pos hi.consumed_eq, hr]
  rw [hnx]
  refine ⟨?_, ⟨hi.seed_eq, by simp only; rw [show 16 * n / 16 = n by omega], rfl, fun _ => rfl⟩⟩
  simp only [streamBit, window]
  rw [List.getD_eq_getElem _ _ (by simp; omega)]
  simp

theorem nextBool_cached {E : Cipher} {batch : Nat} {seed : B} {c w p : Nat} {st : St}
    (hi : InvB E batch seed c w p st) (hp : p < 8 * batch) :
    (nextBool E batch st).1 = streamBit E seed (8 * w + p) ∧ InvB E batch seed c w (p + 1) (nextBool E batch st).2 := by
  have hne : ¬ st.consumed = 8 * batch := by rw [hi.consumed_eq]; omega
  have hnx : nextBool E batch st = ((st.cache.getD (st.consumed / 8) 0).getLsbD (st.consumed % 8), { st with consumed := st.consumed + 1 }) := by
    simp only [nextBool, if_neg hne]
  rw [hnx]
  refine ⟨?_, ⟨hi.seed_eq, hi.counter_eq, by simp only; rw [hi.consumed_eq], fun _ => hi.cache_eq hp⟩⟩
  rw [hi.cache_eq hp, hi.consumed_eq]
  simp only [streamBit, window]
  rw [List.getD_eq_getElem _ _ (by simp; omega)]
  simp only [List.getElem_map, List.getElem_range]
  rw [show (8 * w + p) / 8 = w + p / 8 by omega, show (8 * w + p) % 8 = p % 8 by omega]

/-- After the initial zeros `Prg<bool>` is the key stream, bit by bit. -/
theorem bool_inv (E : Cipher) (batch : Nat) (seed : B) (hb : 0 < batch) (hd : 16 ∣ batch) (j : Nat)
    (hj : (j / (8 * batch) + 1) * (batch / 16) < 2 ^ 64) :
    ∃ m p, j = m * (8 * batch) + p ∧ p < 8 * batch ∧
      ((p = 0 ∧ ∃ w, InvB E batch seed (m * (batch / 16)) w (8 * batch) (nextsBool E batch (freshBool batch seed) (7 * batch + j))) ∨
       (0 < p ∧ InvB E batch seed ((m + 1) * (batch / 16)) (m * batch) p (nextsBool E batch (freshBool batch seed) (7 * batch + j)))) := by
  induction j with
  | zero =>
    refine ⟨0, 0, by simp, by omega, .inl ⟨rfl, 0, ?_⟩⟩
    rw [Nat.add_zero, nextsBool_start E batch seed hb _ (le_refl _), Nat.zero_mul]
    exact ⟨rfl, rfl, by simp only; omega, fun h => absurd h (lt_irrefl _)⟩
  | succ j ih =>
    have hmono : (j / (8 * batch) + 1) * (batch / 16) ≤ ((j + 1) / (8 * batch) + 1) * (batch / 16) :=
      Nat.mul_le_mul_right _ (Nat.succ_le_succ (Nat.div_le_div_right (by omega)))
    obtain ⟨m, p, hjm, hp, hcase⟩ := ih (by omega)
    have hm : j / (8 * batch) = m := by
      rw [hjm, Nat.mul_comm, Nat.mul_add_div (by omega), Nat.div_eq_of_lt hp, Nat.add_zero]
    rw [hm] at hmono
    have hd' := hd
    obtain ⟨n, hn⟩ := hd
    have hn16 : batch / 16 = n := by omega
    have e1 : (m + 1) * (batch / 16) = m * (batch / 16) + batch / 16 := by ring
    have e2 : 16 * (m * (batch / 16)) = m * batch := by rw [hn16, hn]; ring
    have est : nextsBool E batch (freshBool batch seed) (7 * batch + (j + 1)) =
        (nextBool E batch (nextsBool E batch (freshBool batch seed) (7 * batch + j))).2 := rfl
    rw [est]
    rcases hcase with ⟨rfl, w, hinv⟩ | ⟨hp0, hinv⟩
    · have h := (nextBool_refill hb hd' hinv (by omega)).2
      rw [← e1, e2] at h
      exact ⟨m, 1, by omega, by omega, .inr ⟨by omega, h⟩⟩
    · have h := (nextBool_cached hinv hp).2
      by_cases hpb : p + 1 = 8 * batch
      · refine ⟨m + 1, 0, by rw [hjm, Nat.add_assoc, hpb]; ring, by omega, .inl ⟨rfl, m * batch, ?_⟩⟩
        rw [← hpb]
        exact h
      · exact ⟨m, p + 1, by omega, by omega, .inr ⟨by omega, h⟩⟩

/-- C54 for `Prg<bool>`, the part that holds: value `7 * BATCH_SIZE + j` is bit `j` of the key stream. -/
theorem C54_bool_partial (E : Cipher) (batch : Nat) (seed : B) (hb : 0 < batch) (hd : 16 ∣ batch) (j : Nat)
    (hj : (j / (8 * batch) + 1) * (batch / 16) < 2 ^ 64) :
    (nextBool E batch (nextsBool E batch (freshBool batch seed) (7 * batch + j))).1 = streamBit E seed j := by
  obtain ⟨m, p, hjm, hp, hcase⟩ := bool_inv E batch seed hb hd j hj
  have hm : j / (8 * batch) = m := by
    rw [hjm, Nat.mul_comm, Nat.mul_add_div (by omega), Nat.div_eq_of_lt hp, Nat.add_zero]
  rw [hm] at hj
  have e1 : (m + 1) * (batch / 16) = m * (batch / 16) + batch / 16 := by ring
  have hd' := hd
  obtain ⟨n, hn⟩ := hd
  have hn16 : batch / 16 = n := by omega
  have e2 : 8 * (16 * (m * (batch / 16))) = m * (8 * batch) := by rw [hn16, hn]; ring
  have e3 : 8 * (m * batch) = m * (8 * batch) := by ring
  rcases hcase with ⟨rfl, w, hinv⟩ | ⟨hp0, hinv⟩
  · rw [(nextBool_refill hb hd' hinv (by omega)).1, hjm, e2, Nat.add_zero]
  · rw [(nextBool_cached hinv hp).1, hjm, e3]

/-! ### C76: mixing `operator()` and `Fill` never repeats key stream -/

inductive Op
  | next
  | fill (len : Nat)

def step (E : Cipher) (sz batch : Nat) (st : St) : Op → List Byte × St
  | .next => next E sz batch st
  | .fill len => fill E st len

/-- The outputs of a sequence of calls. -/
def run (E : Cipher) (sz batch : Nat) (st : St) : List Op → List (List Byte)
  | [] => []
  | op :: ops => (step E sz batch st op).1 :: run E sz batch (step E sz batch st op).2 ops

/-- Upper bound on the blocks a sequence of calls draws. -/
def cost (sz batch : Nat) : List Op → Nat
  | [] => 0
  | .next :: ops => batch * sz / 16 + cost sz batch ops
  | .fill len :: ops => (len + 15) / 16 + cost sz batch ops

/-- No stream position belongs to both windows. -/
def Apart (x y : Nat × Nat) : Prop := ∀ q, ¬ (x.1 ≤ q ∧ q < x.1 + x.2 ∧ y.1 ≤ q ∧ q < y.1 + y.2)

theorem run_windows (E : Cipher) (sz batch : Nat) (seed : B) (hb : 0 < batch) (hd : 16 ∣ batch * sz) (ops : List Op) (c w : Nat) (st : St)
    (hi : Inv E sz batch seed c w st) (hc : c + cost sz batch ops < 2 ^ 64) :
    ∃ ws : List (Nat × Nat), run E sz batch st ops = ws.map (fun x => window E seed x.1 x.2) ∧ ws.Pairwise Apart ∧
      ∀ x ∈ ws, ∀ q, x.1 ≤ q → q < x.1 + x.2 →
        16 * c ≤ q ∨ (st.consumed < batch ∧ w + st.consumed * sz ≤ q ∧ q < w + batch * sz) := by
  induction ops generalizing c w st with
  | nil => exact ⟨[], rfl, .nil, fun _ h => absurd h (by simp)⟩
  | cons op ops ih =>
    cases op with
    | next =>
      simp only [cost] at hc
      have hn := next_inv hb hd hi (by omega)
      split at hn
      · next heq =>
        obtain ⟨h1, h2, h3⟩ := hn
        obtain ⟨ws, e, hp, hq⟩ := ih _ _ _ h2 (by omega)
        refine ⟨(16 * c, sz) :: ws, ?_, .cons ?_ hp, ?_⟩
        · simp only [run, step, List.map_cons, e, h1]
        · rintro y hy q ⟨a1, a2, a3, a4⟩
          simp only at a1 a2
          have := hq y hy q a3 a4
          rw [h3, Nat.one_mul] at this
          rcases this with h | h
          · obtain ⟨n, hn⟩ := hd
            have hsz : sz ≤ batch * sz := Nat.le_mul_of_pos_left sz hb
            omega
          · omega
        · intro x hx q a b
          rcases List.mem_cons.mp hx with rfl | hx
          · exact .inl a
          · rcases hq x hx q a b with h | h
            · left; omega
            · left; rw [h3] at h; omega
      · next hne =>
        obtain ⟨h1, h2, h3⟩ := hn
        have hlt : st.consumed < batch := by have := hi.consumed_le; omega
        obtain ⟨ws, e, hp, hq⟩ := ih _ _ _ h2 (by omega)
        have hstep : (st.consumed + 1) * sz = st.consumed * sz + sz := by ring
        have hle : (st.consumed + 1) * sz ≤ batch * sz := Nat.mul_le_mul_right _ (by omega)
        have hbel := hi.below hlt
        refine ⟨(w + st.consumed * sz, sz) :: ws, ?_, .cons ?_ hp, ?_⟩
        · simp only [run, step, List.map_cons, e, h1]
        · rintro y hy q ⟨a1, a2, a3, a4⟩
          simp only at a1 a2
          rcases hq y hy q a3 a4 with h | h
          · omega
          · rw [h3, hstep] at h
            omega
        · intro x hx q a b
          rcases List.mem_cons.mp hx with rfl | hx
          · simp only at a b
            right
            exact ⟨hlt, a, by omega⟩
          · rcases hq x hx q a b with h | h
            · exact .inl h
            · rw [h3, hstep] at h
              exact .inr ⟨hlt, by omega, h.2.2⟩
    | fill len =>
      simp only [cost] at hc
      obtain ⟨h1, h2⟩ := fill_inv hi len (by omega)
      obtain ⟨ws, e, hp, hq⟩ := ih _ _ _ h2 (by omega)
      have h3 : (fill E st len).2.consumed = st.consumed := rfl
      refine ⟨(16 * c, len) :: ws, ?_, .cons ?_ hp, ?_⟩
      · simp only [run, step, List.map_cons, e, h1]
      · rintro y hy q ⟨a1, a2, a3, a4⟩
        simp only at a1 a2
        rcases hq y hy q a3 a4 with h | h
        · omega
        · rw [h3] at h
          have := hi.below h.1
          omega
      · intro x hx q a b
        rcases List.mem_cons.mp hx with rfl | hx
        · exact .inl a
        · rcases hq x hx q a b with h | h
          · left; omega
          · rw [h3] at h
            exact .inr h

/-- C76. Any mixture of `operator()` and `Fill` calls on one generator returns pairwise disjoint pieces of its key stream. -/
theorem C76_disjoint (E : Cipher) (sz batch : Nat) (seed : B) (hb : 0 < batch) (hd : 16 ∣ batch * sz) (ops : List Op)
    (hc : cost sz batch ops < 2 ^ 64) :
    ∃ ws : List (Nat × Nat), run E sz batch (fresh sz batch seed) ops = ws.map (fun x => window E seed x.1 x.2) ∧ ws.Pairwise Apart := by
  obtain ⟨ws, h1, h2, -⟩ := run_windows E sz batch seed hb hd ops 0 0 _ (fresh_inv E sz batch seed) (by omega)
  exact ⟨ws, h1, h2⟩

/-! ### C55 -/

/-- C55 fails: after one value has been drawn, `SetSeed` with the very same seed does not restart the stream (the cached values of the old
stream are returned first). -/
theorem C55_violated :
    ∃ (E : Cipher) (seed : B), (next E 8 16 (setSeed (nexts E 8 16 (fresh 8 16 seed) 1) seed)).1 ≠ (next E 8 16 (fresh 8 16 seed)).1 := by
  refine ⟨fun _ x => x + 1, 0, ?_⟩
  decide +kernel

theorem reseed_next (E : Cipher) (sz batch : Nat) (st : St) (seed : B) (h : st.consumed = batch) :
    next E sz batch (setSeed st seed) = next E sz batch (fresh sz batch seed) := by
  simp only [next, setSeed, fresh, refill, h, if_true]

/-- C55, the part that holds: if the cached values are used up (a multiple of the batch size has been drawn), then after `SetSeed` every later
value is that of a fresh generator. -/
theorem C55_partial (E : Cipher) (sz batch : Nat) (st : St) (seed : B) (h : st.consumed = batch) (k : Nat) :
    (next E sz batch (nexts E sz batch (setSeed st seed) k)).1 = (next E sz batch (nexts E sz batch (fresh sz batch seed) k)).1 := by
  cases k with
  | zero => exact congrArg Prod.fst (reseed_next E sz batch st seed h)
  | succ k =>
    have : ∀ k, nexts E sz batch (setSeed st seed) (k + 1) = nexts E sz batch (fresh sz batch seed) (k + 1) := by
      intro k
      induction k with
      | zero => exact congrArg Prod.snd (reseed_next E sz batch st seed h)
      | succ k ih =>
        show (next E sz batch (nexts E sz batch (setSeed st seed) (k + 1))).2 = (next E sz batch (nexts E sz batch (fresh sz batch seed) (k + 1))).2
        rw [ih]
    rw [this]

/-- `Fill` after `SetSeed` is always that of a fresh generator. -/
theorem C55_fill (E : Cipher) (sz batch : Nat) (st : St) (seed : B) (len : Nat) :
    (fill E (setSeed st seed) len).1 = (fill E (fresh sz batch seed) len).1 := rfl

example : (nexts (fun _ x => x) 8 16 (fresh 8 16 5) 16).consumed = 16 := by decide +kernel
example : 0 < 16 ∧ 16 ∣ 16 * 8 ∧ (100 / 16 + 1) * (16 * 8 / 16) < 2 ^ 64 := by decide
example : cost 8 16 [.next, .fill 20, .next, .fill 3] < 2 ^ 64 := by decide

/-! ### C57 -/

theorem leNat_lt (l : List Byte) : leNat l < 256 ^ l.length := by
  induction l with
  | nil => simp [leNat]
  | cons b l ih =>
    have := b.isLt
    simp only [leNat, List.length_cons]
    rw [Nat.pow_succ]
    omega

theorem round_toNat (e : Nat) (he : 2 ≤ e) (he' : e ≤ 64) (a : B) :
    (mersenneRound e a).toNat =
      if a.toNat % 2 ^ e + a.toNat / 2 ^ e ≥ 2 ^ e - 1 then a.toNat % 2 ^ e + a.toNat / 2 ^ e - (2 ^ e - 1)
      else a.toNat % 2 ^ e + a.toNat / 2 ^ e := by
  have hp : 2 ^ e ≤ 2 ^ 64 := Nat.pow_le_pow_right (by omega) he'
  have hp0 : 0 < 2 ^ e := Nat.two_pow_pos e
  have ha := a.isLt
  have hmask : (BitVec.ofNat 128 (2 ^ e - 1)).toNat = 2 ^ e - 1 := by
    rw [BitVec.toNat_ofNat]
    exact Nat.mod_eq_of_lt (by omega)
  have hm := Nat.mod_lt a.toNat hp0
  have hdm := Nat.div_add_mod a.toNat (2 ^ e)
  have hq : a.toNat / 2 ^ e ≤ 2 ^ e * (a.toNat / 2 ^ e) := Nat.le_mul_of_pos_left _ hp0
  have hsum : ((a &&& BitVec.ofNat 128 (2 ^ e - 1)) + (a >>> e)).toNat = a.toNat % 2 ^ e + a.toNat / 2 ^ e := by
    rw [BitVec.toNat_add, BitVec.toNat_and, hmask, Nat.and_two_pow_sub_one_eq_mod, BitVec.toNat_ushiftRight, Nat.shiftRight_eq_div_pow]
    exact Nat.mod_eq_of_lt (by omega)
  unfold mersenneRound
  simp only [ge_iff_le, BitVec.le_def, hsum, hmask]
  split
  · rw [BitVec.toNat_sub_of_le (by rw [BitVec.le_def, hsum, hmask]; assumption), hsum, hmask]
  · exact hsum

theorem round_spec (e : Nat) (he : 2 ≤ e) (he' : e ≤ 64) (a : B) :
    (mersenneRound e a).toNat % (2 ^ e - 1) = a.toNat % (2 ^ e - 1) ∧ (2 ^ e - 1 ≤ a.toNat → (mersenneRound e a).toNat < a.toNat) ∧
    (a.toNat < 2 ^ e - 1 → (mersenneRound e a).toNat = a.toNat) := by
  rw [round_toNat e he he']
  have hp0 : 4 ≤ 2 ^ e := by
    calc 4 = 2 ^ 2 := rfl
      _ ≤ 2 ^ e := Nat.pow_le_pow_right (by omega) he
  generalize 2 ^ e = P at *
  generalize a.toNat = x
  have hdm := Nat.div_add_mod x P
  have hm := Nat.mod_lt x (show 0 < P by omega)
  generalize hq : x / P = q at *
  generalize hr : x % P = r at *
  have hx : x = r + q + (P - 1) * q := by
    rw [← hdm]
    have : P * q = (P - 1) * q + q := by
      conv_lhs => rw [show P = (P - 1) + 1 by omega, Nat.add_mul, Nat.one_mul]
    omega
  have hmod : (r + q) % (P - 1) = x % (P - 1) := by
    rw [hx, Nat.add_mul_mod_self_left]
  refine ⟨?_, ?_, ?_⟩
  · split
    · rw [← hmod]
      exact (Nat.mod_eq_sub_mod (by omega)).symm
    · exact hmod
  · intro h
    split
    · omega
    · have : 0 < q ∨ q = 0 := by omega
      rcases this with h' | h'
      · have : P - 1 ≤ (P - 1) * q := Nat.le_mul_of_pos_right _ h'
        omega
      · subst h'
        omega
  · intro h
    have : q = 0 := by rw [← hq]; exact Nat.div_eq_of_lt (by omega)
    subst this
    rw [if_neg (by omega)]
    omega

theorem loop_spec (e : Nat) (he : 2 ≤ e) (he' : e ≤ 64) (fuel : Nat) (a : B) (hf : a.toNat < fuel) :
    (mersenneLoop e fuel a).toNat = a.toNat % (2 ^ e - 1) := by
  have hp0 : 4 ≤ 2 ^ e := by
    calc 4 = 2 ^ 2 := rfl
      _ ≤ 2 ^ e := Nat.pow_le_pow_right (by omega) he
  have hp : 2 ^ e ≤ 2 ^ 64 := Nat.pow_le_pow_right (by omega) he'
  have hmask : (BitVec.ofNat 128 (2 ^ e - 1)).toNat = 2 ^ e - 1 := by
    rw [BitVec.toNat_ofNat]
    exact Nat.mod_eq_of_lt (by omega)
  induction fuel generalizing a with
  | zero => omega
  | succ fuel ih =>
    obtain ⟨h1, h2, h3⟩ := round_spec e he he' a
    simp only [mersenneLoop, ge_iff_le, BitVec.le_def, hmask]
    split
    · next h =>
      have : 2 ^ e - 1 ≤ a.toNat := by
        by_contra hcon
        rw [h3 (by omega)] at h
        omega
      rw [ih _ (by have := h2 this; omega), h1]
    · next h => rw [← h1, Nat.mod_eq_of_lt (by omega)]

/-- C57. The 8- and 32-bit reductions return the canonical residue of the whole byte string, for every byte string of the required size. -/
theorem C57_narrow (buf : List Byte) :
    (buf.length = 9 → ∃ v, mersenneNarrow 32 31 buf = some v ∧ v.toNat = leNat buf % (2 ^ 31 - 1)) ∧
    (buf.length = 6 → ∃ v, mersenneNarrow 8 7 buf = some v ∧ v.toNat = leNat buf % (2 ^ 7 - 1)) := by
  constructor
  · intro h
    have hl : leNat buf < 2 ^ 128 := lt_of_lt_of_le (leNat_lt buf) (by rw [h]; decide)
    refine ⟨_, by rw [mersenneNarrow, if_pos (by omega)], ?_⟩
    have ht : (BitVec.ofNat 128 (leNat buf)).toNat = leNat buf := by
      rw [BitVec.toNat_ofNat]
      exact Nat.mod_eq_of_lt hl
    rw [BitVec.toNat_setWidth, loop_spec 31 (by omega) (by omega) _ _ (by omega), ht]
    exact Nat.mod_eq_of_lt (lt_trans (Nat.mod_lt _ (by decide)) (by decide))
  · intro h
    have hl : leNat buf < 2 ^ 128 := lt_of_lt_of_le (leNat_lt buf) (by rw [h]; decide)
    refine ⟨_, by rw [mersenneNarrow, if_pos (by omega)], ?_⟩
    have ht : (BitVec.ofNat 128 (leNat buf)).toNat = leNat buf := by
      rw [BitVec.toNat_ofNat]
      exact Nat.mod_eq_of_lt hl
    rw [BitVec.toNat_setWidth, loop_spec 7 (by omega) (by omega) _ _ (by omega), ht]
    exact Nat.mod_eq_of_lt (lt_trans (Nat.mod_lt _ (by decide)) (by decide))

theorem wide_toNat (w e : Nat) (h1 : 40 < e) (h2 : e < w) (h3 : 8 ∣ w) (buf : List Byte) (h : buf.length = w / 8 + 5) :
    ∃ v, mersenneWide w e buf = some v ∧
      v.toNat = (let i := leNat (buf.take (w / 8)) % 2 ^ e + leNat ((buf.drop (w / 8)).take 5)
        if i > 2 ^ e - 1 then i - (2 ^ e - 1) else i) := by
  have hpw : 2 ^ e * 2 ≤ 2 ^ w := by
    rw [← Nat.pow_succ]
    exact Nat.pow_le_pow_right (by omega) h2
  have hpe : 2 ^ 41 ≤ 2 ^ e := Nat.pow_le_pow_right (by omega) h1
  have hrand : leNat (buf.take (w / 8)) < 2 ^ w := by
    have := leNat_lt (buf.take (w / 8))
    rw [List.length_take, min_eq_left (by omega), show (256 : Nat) = 2 ^ 8 from rfl, ← Nat.pow_mul, Nat.mul_div_cancel' h3] at this
    exact this
  have haux : leNat ((buf.drop (w / 8)).take 5) < 2 ^ 40 := by
    have := leNat_lt ((buf.drop (w / 8)).take 5)
    rw [List.length_take, List.length_drop, h, show min 5 (w / 8 + 5 - w / 8) = 5 by omega] at this
    exact this
  refine ⟨_, by rw [mersenneWide, if_pos h], ?_⟩
  generalize leNat (buf.take (w / 8)) = r at *
  generalize leNat ((buf.drop (w / 8)).take 5) = s at *
  have hmask : (BitVec.ofNat w (2 ^ e - 1)).toNat = 2 ^ e - 1 := by
    rw [BitVec.toNat_ofNat]
    exact Nat.mod_eq_of_lt (by omega)
  have hm := Nat.mod_lt r (Nat.two_pow_pos e)
  have hsum : ((BitVec.ofNat w r &&& BitVec.ofNat w (2 ^ e - 1)) + BitVec.ofNat w s).toNat = r % 2 ^ e + s := by
    rw [BitVec.toNat_add, BitVec.toNat_and, hmask, Nat.and_two_pow_sub_one_eq_mod, BitVec.toNat_ofNat, BitVec.toNat_ofNat,
      Nat.mod_eq_of_lt hrand, Nat.mod_eq_of_lt (show s < 2 ^ w by omega)]
    exact Nat.mod_eq_of_lt (by omega)
  simp only [gt_iff_lt, BitVec.lt_def, hsum, hmask]
  split
  · rw [BitVec.toNat_sub_of_le (by rw [BitVec.le_def, hsum, hmask]; omega), hsum, hmask]
  · exact hsum

/-- C57 for the 64- and 128-bit reductions, the part that holds: the result is at most `p` and congruent to the low bits of the first word plus
the extra bytes. -/
theorem C57_wide_partial (w e : Nat) (hwe : (w = 64 ∧ e = 61) ∨ (w = 128 ∧ e = 127)) (buf : List Byte) (h : buf.length = w / 8 + 5) :
    ∃ v, mersenneWide w e buf = some v ∧ v.toNat ≤ 2 ^ e - 1 ∧
      v.toNat % (2 ^ e - 1) = (leNat (buf.take (w / 8)) % 2 ^ e + leNat ((buf.drop (w / 8)).take 5)) % (2 ^ e - 1) := by
  have hb : 40 < e ∧ e < w ∧ 8 ∣ w := by
    rcases hwe with ⟨rfl, rfl⟩ | ⟨rfl, rfl⟩ <;> decide
  obtain ⟨v, hv, ht⟩ := wide_toNat w e hb.1 hb.2.1 hb.2.2 buf h
  refine ⟨v, hv, ?_⟩
  have haux : leNat ((buf.drop (w / 8)).take 5) < 2 ^ 40 := by
    have := leNat_lt ((buf.drop (w / 8)).take 5)
    rw [List.length_take, List.length_drop, h, show min 5 (w / 8 + 5 - w / 8) = 5 by omega] at this
    exact this
  have hpe : 2 ^ 41 ≤ 2 ^ e := Nat.pow_le_pow_right (by omega) hb.1
  simp only at ht
  generalize leNat (buf.take (w / 8)) = r at *
  generalize leNat ((buf.drop (w / 8)).take 5) = s at *
  have hm := Nat.mod_lt r (Nat.two_pow_pos e)
  generalize 2 ^ e = P at *
  rw [ht]
  split
  · refine ⟨by omega, (Nat.mod_eq_sub_mod (by omega)).symm⟩
  · exact ⟨by omega, rfl⟩

/-- C57 fails for `uint64_t` and `uint128_t`: the result can be `p` itself, which is not a canonical residue; and it is not the residue of the byte
string (the top bits of the first word are dropped). -/
theorem C57_wide_violated :
    (∃ buf, mersenneWide 64 61 buf = some (BitVec.ofNat 64 (2 ^ 61 - 1))) ∧
    (∃ buf, mersenneWide 128 127 buf = some (BitVec.ofNat 128 (2 ^ 127 - 1))) ∧
    (∃ buf v, mersenneWide 64 61 buf = some v ∧ v.toNat % (2 ^ 61 - 1) ≠ leNat buf % (2 ^ 61 - 1)) := by
  refine ⟨⟨List.replicate 7 255 ++ [31, 0, 0, 0, 0, 0], by decide +kernel⟩, ⟨List.replicate 15 255 ++ [127, 0, 0, 0, 0, 0], by decide +kernel⟩,
    ⟨[0, 0, 0, 0, 0, 0, 0, 32, 0, 0, 0, 0, 0], 0, by decide +kernel, by decide +kernel⟩⟩

/-- C57. `FillPRandWithMersennePrime` returns canonical residues for all four types. -/
theorem C57_fill (v : BitVec 64) (u : BitVec 128) :
    (mersenneFillWide 64 61 v).toNat < 2 ^ 61 - 1 ∧ (mersenneFillWide 128 127 u).toNat < 2 ^ 127 - 1 := by
  have gen : ∀ (w e : Nat), 2 ≤ e → e < w → ∀ x : BitVec w, (mersenneFillWide w e x).toNat < 2 ^ e - 1 := by
    intro w e h1 h2 x
    have hp : 2 ^ e < 2 ^ w := Nat.pow_lt_pow_right (by omega) h2
    have hp0 : 4 ≤ 2 ^ e := by
      calc 4 = 2 ^ 2 := rfl
        _ ≤ 2 ^ e := Nat.pow_le_pow_right (by omega) h1
    have hmask : (BitVec.ofNat w (2 ^ e - 1)).toNat = 2 ^ e - 1 := by
      rw [BitVec.toNat_ofNat]
      exact Nat.mod_eq_of_lt (by omega)
    have hand : (x &&& BitVec.ofNat w (2 ^ e - 1)).toNat = x.toNat % 2 ^ e := by
      rw [BitVec.toNat_and, hmask, Nat.and_two_pow_sub_one_eq_mod]
    unfold mersenneFillWide
    simp only
    split
    · simp only [BitVec.ofNat_eq_ofNat, BitVec.toNat_ofNat, Nat.zero_mod]
      omega
    · next h =>
      have hne : x.toNat % 2 ^ e ≠ 2 ^ e - 1 := by
        intro heq
        apply h
        apply BitVec.eq_of_toNat_eq
        rw [hand, hmask, heq]
      have := Nat.mod_lt x.toNat (show 0 < 2 ^ e by omega)
      rw [hand]
      omega
  exact ⟨gen 64 61 (by omega) (by omega) v, gen 128 127 (by omega) (by omega) u⟩

/-- C57. `FillPRandWithLtN` returns values below `n`, and draws enough bytes that the statistical distance is at most 2^-40. -/
theorem C57_ltN (n : Nat) (hn : 0 < n) (bytes : List Byte) : ltNElem n bytes < n ∧ n * 2 ^ 40 ≤ 256 ^ ltNSize n := by
  refine ⟨Nat.mod_lt _ hn, ?_⟩
  unfold ltNSize
  rw [if_neg (by omega), show (256 : Nat) = 2 ^ 8 from rfl, ← Nat.pow_mul]
  have h1 : n ≤ 2 ^ (Nat.log2 n + 1) := Nat.le_of_lt Nat.lt_log2_self
  calc n * 2 ^ 40 ≤ 2 ^ (Nat.log2 n + 1) * 2 ^ 40 := Nat.mul_le_mul_right _ h1
    _ = 2 ^ (Nat.log2 n + 1 + 40) := (Nat.pow_add _ _ _).symm
    _ ≤ _ := Nat.pow_le_pow_right (by omega) (by omega)

example : leNat [0xff, 0xff, 0xff, 0x7f, 1, 0, 0, 0, 0] = 2 ^ 31 - 1 + 2 ^ 32 ∧
    mersenneNarrow 32 31 [0xff, 0xff, 0xff, 0x7f, 1, 0, 0, 0, 0] = some 2 := by decide +kernel

/-! ### C75: the KOS check bits -/

/-- kos_ote.cc L100-105: the 64 bits appended by `ExtendChoice` are the first values of a default `Prg<bool>` (seed 0, batch size 16). -/
def kosMask (E : Cipher) : List Bool := (List.range 64).map fun k => (nextBool E 16 (nextsBool E 16 (freshBool 16 0) k)).1

/-- The check bits are not random: they are all zero, for every cipher. -/
theorem C75_mask_zero (E : Cipher) : kosMask E = List.replicate 64 false := by
  apply List.ext_getElem (by simp [kosMask])
  intro i h1 h2
  simp only [kosMask, List.getElem_map, List.getElem_range, List.getElem_replicate]
  exact C54_bool_violated E 16 0 (by omega) i (by simp [kosMask] at h1; omega)

/-- C75 fails: the check message of an honest KOS receiver depends only on its choices and the challenge, so it is not masked: a sender picking the
challenge reads a 64-bit word of the receiver's choices from it. -/
theorem C75_violated (prg : OtExt.Prg) (b : OtExt.Base) (E : Cipher) :
    ∃ chi : List (BitVec 64), ∀ choices : List Bool, choices.length = 64 →
      (OtExt.kosCheckMsg prg b 1 (OtExt.extendChoice choices (kosMask E)) chi).1 =
        some (Gf.lo (OtExt.choiceWord choices 0)) := by
  refine ⟨[1, 0], fun choices h => ?_⟩
  have hw : OtExt.choiceWord (OtExt.extendChoice choices (kosMask E)) 0 = OtExt.choiceWord choices 0 := by
    unfold OtExt.choiceWord
    congr 1
    funext j
    rw [C75_mask_zero]
    unfold OtExt.extendChoice
    rw [List.getD_eq_getElem?_getD, List.getD_eq_getElem?_getD]
    by_cases hj : 128 * 0 + j < choices.length
    · rw [List.getElem?_append_left hj]
    · rw [List.getElem?_append_right (by omega), List.getElem?_eq_none (l := choices) (by omega), List.take_of_length_le (by simp),
        List.getElem?_replicate]
      split <;> rfl
  show Gf.gf64MulSpan [1, 0] (OtExt.words64 _ 1) = _
  have e : OtExt.words64 (OtExt.choiceWord (OtExt.extendChoice choices (kosMask E))) 1 =
      [Gf.lo (OtExt.choiceWord choices 0), Gf.hi (OtExt.choiceWord choices 0)] := by
    simp [OtExt.words64, hw]
  rw [e]
  obtain ⟨z, hz, hv⟩ := OtExt.span_val [1, 0] [Gf.lo (OtExt.choiceWord choices 0), Gf.hi (OtExt.choiceWord choices 0)] rfl
  rw [hz]
  congr 1
  apply Gf.val64_inj
  rw [hv]
  simp only [List.zip_cons_cons, List.zip_nil_right, List.map_cons, List.map_nil, List.sum_cons, List.sum_nil]
  rw [Gf.val64_one, Gf.val64_zero, one_mul, zero_mul, add_zero, add_zero]

end Yacl.Prg
