import Verif.Aes.Lemmas

/-!
# C120: the AES of `yacl/crypto/aes` is AES-128
-/

namespace Verif.Aes

open Fips

attribute [local irreducible] gmul sbox

/-! ## Key schedules -/

/-- The next round key from the current one. -/
def nextKey (k : State) (c : BitVec 8) : State := fun i =>
  let b := i.val % 4
  let t := sbox (k (pos (b + 1) 3)) ^^^ (if b = 0 then c else 0#8)
  if i.val / 4 = 0 then k (pos b 0) ^^^ t
  else if i.val / 4 = 1 then k (pos b 1) ^^^ (k (pos b 0) ^^^ t)
  else if i.val / 4 = 2 then k (pos b 2) ^^^ (k (pos b 1) ^^^ (k (pos b 0) ^^^ t))
  else k (pos b 3) ^^^ (k (pos b 2) ^^^ (k (pos b 1) ^^^ (k (pos b 0) ^^^ t)))

theorem keyWord_step (key : State) (r : Nat) :
    keyWord key (4 * (r + 1)) = (fun b => keyWord key (4 * r) b ^^^
      (subWord (rotWord (keyWord key (4 * r + 3))) b ^^^ rcon (r + 1) b)) ∧
    keyWord key (4 * (r + 1) + 1) = (fun b => keyWord key (4 * r + 1) b ^^^ keyWord key (4 * (r + 1)) b) ∧
    keyWord key (4 * (r + 1) + 2) = (fun b => keyWord key (4 * r + 2) b ^^^ keyWord key (4 * (r + 1) + 1) b) ∧
    keyWord key (4 * (r + 1) + 3) = (fun b => keyWord key (4 * r + 3) b ^^^ keyWord key (4 * (r + 1) + 2) b) := by
  refine ⟨?_, ?_, ?_, ?_⟩
  · rw [show 4 * (r + 1) = 4 * r + 4 by omega, keyWord]
    rw [if_pos (by omega), show (4 * r + 4) / 4 = r + 1 by omega]
  · rw [show 4 * (r + 1) + 1 = (4 * r + 1) + 4 by omega, keyWord, if_neg (by omega),
      show 4 * r + 1 + 3 = 4 * (r + 1) by omega]
  · rw [show 4 * (r + 1) + 2 = (4 * r + 2) + 4 by omega, keyWord, if_neg (by omega),
      show 4 * r + 2 + 3 = 4 * (r + 1) + 1 by omega]
  · rw [show 4 * (r + 1) + 3 = (4 * r + 3) + 4 by omega, keyWord, if_neg (by omega),
      show 4 * r + 3 + 3 = 4 * (r + 1) + 2 by omega]

theorem roundKey_succ (key : State) (r : Nat) :
    roundKey key (r + 1) = nextKey (roundKey key r) (xtime^[r] 1#8) := by
  obtain ⟨h0, h1, h2, h3⟩ := keyWord_step key r
  funext i
  fin_cases i <;>
    simp [roundKey, nextKey, pos] <;>
    simp only [h0, h1, h2, h3, subWord, rotWord, rcon] <;> simp <;> rfl

theorem roundKey_zero (key : State) : roundKey key 0 = key := by
  funext i
  fin_cases i <;> rfl

/-- Lane 0 is zero. -/
def Low0 (a : M128) : Prop := a 0 = 0#8 ∧ a 1 = 0#8 ∧ a 2 = 0#8 ∧ a 3 = 0#8

theorem expandAssist_spec (x0 x2 : M128) (c : BitVec 8) (h : Low0 x2) :
    (expandAssist x0 x2 255 c).1 = nextKey x0 c ∧ Low0 (expandAssist x0 x2 255 c).2 := by
  obtain ⟨h0, h1, h2, h3⟩ := h
  constructor
  · funext i
    fin_cases i <;>
      simp [expandAssist, nextKey, xor128, shufflePs, shuffleEpi32, aeskeygenassist, pos, h0, h1, h2, h3,
        Fin.ofNat] <;> ac_rfl
  · simp [Low0, expandAssist, shufflePs, xor128, h0, h1, h2, h3, Fin.ofNat]

theorem expandLoop_spec (k : State) (cs : List (BitVec 8)) : ∀ (r : Nat) (x0 x2 : M128) (key : AesKey),
    Low0 x2 → (∀ i, i < cs.length → cs[i]? = some (xtime^[r + i] 1#8)) → x0 = roundKey k r →
    (∀ j, j ≤ r → key.rdKey j = roundKey k j) →
    ∀ j, j ≤ r + cs.length → (expandLoop cs (r + 1) x0 x2 key).rdKey j = roundKey k j := by
  induction cs with
  | nil => intro r x0 x2 key _ _ _ h j hj; exact h j (by simpa using hj)
  | cons c cs ih =>
    intro r x0 x2 key h0 hc hx hk j hj
    have hc0 : c = xtime^[r] 1#8 := by
      have := hc 0 (by simp)
      simpa using this
    obtain ⟨e1, e2⟩ := expandAssist_spec x0 x2 c h0
    have hx' : (expandAssist x0 x2 255 c).1 = roundKey k (r + 1) := by
      rw [e1, hx, hc0, roundKey_succ]
    refine ih (r + 1) _ _ _ e2 ?_ hx' ?_ j ?_
    · intro i hi
      have := hc (i + 1) (by simpa using hi)
      rw [show r + 1 + i = r + (i + 1) by omega]
      simpa using this
    · intro j hj
      simp only [AesKey.put]
      split
      · next h => rw [h, hx']
      · exact hk j (by omega)
    · simp only [List.length_cons] at hj; omega

/-- The round constants are the powers of `x`. -/
theorem expandConsts_spec : ∀ i, i < expandConsts.length →
    expandConsts[i]? = some (xtime^[0 + i] 1#8) := by
  decide

/-- **C120**: `AES_set_encrypt_key` computes the key schedule of FIPS 197, for
every key and whatever the key structure held before. -/
theorem C120_set_encrypt_key (userkey : State) (key : AesKey) :
    (setEncryptKey userkey key).rounds = 10 ∧
    ∀ r, r ≤ 10 → (setEncryptKey userkey key).rdKey r = roundKey userkey r := by
  refine ⟨rfl, fun r hr => ?_⟩
  refine expandLoop_spec userkey expandConsts 0 userkey zero128 (key.put 0 userkey)
    ⟨rfl, rfl, rfl, rfl⟩ expandConsts_spec (roundKey_zero _).symm ?_ r (by simpa [expandConsts] using hr)
  intro j hj
  have : j = 0 := by omega
  subst this
  rw [roundKey_zero]; rfl

/-- The round constant of the batched schedule: `c` in the low byte of every lane. -/
def conOf (c : BitVec 8) : M128 := fun i => if i.val % 4 = 0 then c else 0#8

theorem mask_eq : mask = fun i => (![13, 14, 15, 12, 13, 14, 15, 12, 13, 14, 15, 12, 13, 14, 15, 12] : Fin 16 → BitVec 8) i := by
  funext i; revert i; decide

theorem con3_eq : con3 = fun i => (![255, 255, 255, 255, 255, 255, 255, 255, 4, 5, 6, 7, 4, 5, 6, 7] : Fin 16 → BitVec 8) i := by
  funext i; revert i; decide

theorem ksRound_spec (k : M128) (c : BitVec 8) : ksRound k (conOf c) con3 mask = nextKey k c := by
  rw [mask_eq, con3_eq]
  have m4 : (4#8).msb = false := by decide
  have m5 : (5#8).msb = false := by decide
  have m6 : (6#8).msb = false := by decide
  have m7 : (7#8).msb = false := by decide
  have m12 : (12#8).msb = false := by decide
  have m13 : (13#8).msb = false := by decide
  have m14 : (14#8).msb = false := by decide
  have m15 : (15#8).msb = false := by decide
  funext i
  fin_cases i <;>
    simp [m4, m5, m6, m7, m12, m13, m14, m15, ksRound, nextKey, xor128, shuffleEpi8, slliEpi64By32, aesenclast, subBytes, shiftRows, pos,
      conOf, Fin.ofNat] <;> ac_rfl

theorem slli_con (c : BitVec 8) (h : c.msb = false) : slliEpi32 (conOf c) 1 = conOf (xtime c) := by
  revert h
  refine forall_byte (P := fun c => c.msb = false → slliEpi32 (conOf c) 1 = conOf (xtime c)) ?_ c
  have : ∀ n : Fin 256, (BitVec.ofFin n : BitVec 8).msb = false →
      ∀ i, slliEpi32 (conOf (BitVec.ofFin n)) 1 i = conOf (xtime (BitVec.ofFin n)) i := by decide +kernel
  intro n h
  funext i
  exact this n h i

/-- `ksChain` for one key. -/
def ks1 : Nat → Nat → M128 → AesKey → AesKey
  | 0, _, _, k => k
  | n + 1, r, con, k =>
    ks1 n (r + 1) (slliEpi32 con 1) (k.put r (ksRound (k.rdKey (r - 1)) con con3 mask))

theorem ksChain_eq (n : Nat) : ∀ (r : Nat) (con : M128) (keys : List AesKey),
    ksChain n r con keys = keys.map (ks1 n r con) := by
  induction n with
  | zero => intro r con keys; simp [ksChain, ks1]
  | succ n ih =>
    intro r con keys
    rw [ksChain, ih, ksRounds, List.map_map]
    rfl

theorem ks1_spec (u : State) (n : Nat) : ∀ (r : Nat) (c : BitVec 8) (k : AesKey),
    c = xtime^[r] 1#8 → (∀ i, i + 1 < n → (xtime^[r + i] 1#8).msb = false) →
    (∀ j, j ≤ r → k.rdKey j = roundKey u j) →
    (ks1 n (r + 1) (conOf c) k).rounds = k.rounds ∧
      ∀ j, j ≤ r + n → (ks1 n (r + 1) (conOf c) k).rdKey j = roundKey u j := by
  induction n with
  | zero => intro r c k _ _ h; exact ⟨rfl, fun j hj => h j (by omega)⟩
  | succ n ih =>
    intro r c k hc hm hk
    have hput : ∀ j, j ≤ r + 1 →
        (k.put (r + 1) (ksRound (k.rdKey r) (conOf c) con3 mask)).rdKey j = roundKey u j := by
      intro j hj
      simp only [AesKey.put]
      split
      · next h => rw [h, ksRound_spec, roundKey_succ, hk r (by omega), hc]
      · exact hk j (by omega)
    rw [ks1, Nat.add_sub_cancel]
    cases n with
    | zero => exact ⟨rfl, fun j hj => hput j hj⟩
    | succ n =>
      have h0 : c.msb = false := by rw [hc]; exact hm 0 (by omega)
      rw [slli_con c h0]
      have := ih (r + 1) (xtime c) (k.put (r + 1) (ksRound (k.rdKey r) (conOf c) con3 mask))
        (by rw [hc, Function.iterate_succ_apply'])
        (fun i hi => by rw [show r + 1 + i = r + (i + 1) by omega]; exact hm (i + 1) (by omega)) hput
      exact ⟨this.1, fun j hj => this.2 j (by omega)⟩

theorem con_one : setEpi32 1 1 1 1 = conOf (xtime^[0] 1#8) := by
  funext i; revert i; decide

theorem con_1b : setEpi32 0x1b#32 0x1b#32 0x1b#32 0x1b#32 = conOf (xtime^[8] 1#8) := by
  funext i; revert i; decide

/-- **C120**: `AES_opt_key_schedule` computes, for every number of keys, the key
schedule of FIPS 197 of each key; it is the schedule `AES_set_encrypt_key`
computes. -/
theorem C120_opt_key_schedule (userKeys : List State) (keys : List AesKey)
    (h : keys.length = userKeys.length) :
    (optKeySchedule userKeys keys).length = userKeys.length ∧
    ∀ (i : Nat) (u : State), userKeys[i]? = some u → ∃ k : AesKey, (optKeySchedule userKeys keys)[i]? = some k ∧
      k.rounds = 10 ∧ ∀ r, r ≤ 10 → k.rdKey r = roundKey u r := by
  unfold optKeySchedule
  simp only [ksChain_eq, List.map_map]
  refine ⟨by simp [h], fun i u hu => ?_⟩
  have hi : i < userKeys.length := (List.getElem?_eq_some_iff.mp hu).1
  have hk : keys[i]? = some keys[i] := List.getElem?_eq_getElem (by omega)
  generalize keys[i] = k0 at hk
  rw [List.getElem?_map, List.getElem?_zipWith, hu, hk]
  refine ⟨_, rfl, ?_⟩
  simp only [Function.comp]
  have e1 := ks1_spec u 8 0 (xtime^[0] 1#8) (({ k0 with rounds := 10 } : AesKey).put 0 u) rfl
    (fun i hi => (by decide : ∀ i < 7, (xtime^[0 + i] 1#8).msb = false) i (by omega))
    (by
      intro j hj
      have : j = 0 := by omega
      subst this
      rw [roundKey_zero]; rfl)
  have e2 := ks1_spec u 2 8 (xtime^[8] 1#8) _ rfl
    (fun i hi => (by decide : ∀ i < 1, (xtime^[8 + i] 1#8).msb = false) i (by omega)) e1.2
  rw [con_one, con_1b]
  exact ⟨e2.1.trans e1.1, e2.2⟩

/-! ## Ciphers -/

theorem encryptBlk_spec (u : State) (k : AesKey) (hr : k.rounds = 10)
    (hk : ∀ r, r ≤ 10 → k.rdKey r = roundKey u r) (b : M128) : encryptBlk k b = cipher u b := by
  have hl : ∀ n, n ≤ 9 → (List.range' 1 n).foldl (fun b j => aesenc b (k.rdKey j))
      (xor128 b (k.rdKey 0)) = rounds u b n := by
    intro n hn
    induction n with
    | zero => rw [hk 0 (by omega)]; rfl
    | succ n ih =>
      rw [List.range'_concat, List.foldl_append, ih (by omega), List.foldl_cons, List.foldl_nil,
        hk _ (by omega), Nat.one_mul, Nat.add_comm 1 n]
      rfl
  unfold encryptBlk roundLoop
  rw [hr, hl 9 (by omega), hk 10 (by omega)]
  rfl

theorem imcLoop_spec (ekey : AesKey) (i : Nat) : ∀ (j : Nat) (dkey : AesKey),
    (imcLoop ekey i j dkey).2 = j + i ∧ (imcLoop ekey i j dkey).1.rounds = dkey.rounds ∧
    ∀ m, (imcLoop ekey i j dkey).1.rdKey m =
      if 1 ≤ m ∧ m ≤ i then aesimc (ekey.rdKey (j + (i - m))) else dkey.rdKey m := by
  induction i with
  | zero => intro j dkey; exact ⟨rfl, rfl, fun m => by rw [if_neg (by omega)]; rfl⟩
  | succ i ih =>
    intro j dkey
    obtain ⟨h1, h2, h3⟩ := ih (j + 1) (dkey.put (i + 1) (aesimc (ekey.rdKey j)))
    rw [imcLoop]
    refine ⟨by rw [h1]; omega, by rw [h2]; rfl, fun m => ?_⟩
    rw [h3]
    by_cases hm : 1 ≤ m ∧ m ≤ i
    · rw [if_pos hm, if_pos (by omega), show j + 1 + (i - m) = j + (i + 1 - m) by omega]
    · rw [if_neg hm]
      by_cases hm' : m = i + 1
      · rw [if_pos (by omega), hm']
        simp [AesKey.put]
      · rw [if_neg (by omega)]
        simp [AesKey.put, hm']

theorem put_rdKey (k : AesKey) (i : Nat) (v : M128) (j : Nat) :
    (k.put i v).rdKey j = if j = i then v else k.rdKey j := rfl

theorem put_rounds (k : AesKey) (i : Nat) (v : M128) : (k.put i v).rounds = k.rounds := rfl

theorem setDecryptKeyFast_spec (dkey ekey : AesKey) (n : Nat) (hn : ekey.rounds = n + 1) :
    (setDecryptKeyFast dkey ekey).rounds = n + 1 ∧
    ∀ m, (setDecryptKeyFast dkey ekey).rdKey m =
      if m = 0 then ekey.rdKey (n + 1)
      else if m ≤ n then aesimc (ekey.rdKey (n + 1 - m))
      else if m = n + 1 then ekey.rdKey 0 else dkey.rdKey m := by
  unfold setDecryptKeyFast
  rw [hn]
  dsimp only
  rw [Nat.add_sub_cancel]
  have hs := imcLoop_spec ekey n 1 (({ dkey with rounds := n + 1 } : AesKey).put (n + 1) (ekey.rdKey 0))
  generalize imcLoop ekey n 1 (({ dkey with rounds := n + 1 } : AesKey).put (n + 1) (ekey.rdKey 0)) = p at hs
  obtain ⟨h1, h2, h3⟩ := hs
  rw [put_rounds] at h2
  refine ⟨by rw [put_rounds, h2], fun m => ?_⟩
  rw [put_rdKey, h1, h3, put_rdKey]
  by_cases hm : m = 0
  · rw [if_pos hm, if_pos hm, Nat.add_comm]
  · rw [if_neg hm, if_neg hm]
    by_cases hm2 : m ≤ n
    · rw [if_pos (by omega), if_pos hm2, show 1 + (n - m) = n + 1 - m by omega]
    · rw [if_neg (by omega), if_neg hm2]

/-- The keys of the equivalent inverse cipher. -/
theorem setDecryptKey_spec (u : State) (key : AesKey) (junk : Nat → M128) :
    (setDecryptKey u key junk).rounds = 10 ∧
    (setDecryptKey u key junk).rdKey 0 = roundKey u 10 ∧
    (setDecryptKey u key junk).rdKey 10 = roundKey u 0 ∧
    ∀ m, 1 ≤ m → m ≤ 9 → (setDecryptKey u key junk).rdKey m = invMixColumns (roundKey u (10 - m)) := by
  obtain ⟨hr, hk⟩ := C120_set_encrypt_key u (AesKey.fresh junk)
  unfold setDecryptKey
  generalize setEncryptKey u (AesKey.fresh junk) = ek at hr hk
  obtain ⟨h1, h2⟩ := setDecryptKeyFast_spec key ek 9 hr
  refine ⟨h1, ?_, ?_, fun m hm1 hm2 => ?_⟩
  · rw [h2, if_pos rfl, hk _ (by omega)]
  · rw [h2, if_neg (by omega), if_neg (by omega), if_pos rfl, hk _ (by omega)]
  · rw [h2, if_neg (by omega), if_pos hm2, hk _ (by omega)]
    rfl

theorem addRoundKey_eq (a b : State) : addRoundKey a b = xor128 a b := rfl

theorem decryptBlk_spec (u : State) (key : AesKey) (junk : Nat → M128) (b : M128) :
    decryptBlk (setDecryptKey u key junk) b = invCipher u b := by
  obtain ⟨hr, h0, h10, hm⟩ := setDecryptKey_spec u key junk
  generalize setDecryptKey u key junk = k at *
  have hl : ∀ n, n ≤ 9 → (List.range' 1 n).foldl (fun b j => aesdec b (k.rdKey j))
      (xor128 b (k.rdKey 0)) = invRounds u b n := by
    intro n hn
    induction n with
    | zero => rw [h0]; rfl
    | succ n ih =>
      rw [List.range'_concat, List.foldl_append, ih (by omega), List.foldl_cons, List.foldl_nil,
        hm _ (by omega) (by omega), Nat.one_mul, Nat.add_comm 1 n]
      show xor128 (invMixColumns _) _ = _
      rw [← invMix_xor]
      rfl
  unfold decryptBlk roundLoop
  rw [hr, hl 9 (by omega), show max 1 10 = 10 by rfl, h10]
  rfl

theorem invCipher_cipher (u b : State) : invCipher u (cipher u b) = b := by
  have hl : ∀ n, n ≤ 9 → invSubBytes (invShiftRows (invRounds u (cipher u b) n)) = rounds u b (9 - n) := by
    intro n hn
    induction n with
    | zero =>
      rw [invRounds, cipher, addRoundKey_eq, addRoundKey_eq, xor128_cancel, invShiftRows_shiftRows,
        invSubBytes_subBytes]
    | succ n ih =>
      rw [invRounds, ih (by omega), show 9 - n = (9 - (n + 1)) + 1 by omega, rounds,
        show 9 - (n + 1) + 1 = 10 - (n + 1) by omega, addRoundKey_eq, addRoundKey_eq, xor128_cancel,
        invMix_mix, invShiftRows_shiftRows, invSubBytes_subBytes]
  rw [invCipher, hl 9 (by omega), Nat.sub_self, rounds, addRoundKey_eq, addRoundKey_eq, xor128_cancel]

theorem blkLoop_spec (f : M128 → M128) (inp : List M128) (n : Nat) : ∀ out : List M128,
    n ≤ inp.length → n ≤ out.length →
    blkLoop f inp n out = (inp.take n).map f ++ out.drop n := by
  induction n with
  | zero => intro out _ _; simp [blkLoop]
  | succ n ih =>
    intro out h1 h2
    rw [blkLoop, ih out (by omega) (by omega)]
    have hn : inp[n]? = some inp[n] := List.getElem?_eq_getElem (by omega)
    simp only [hn]
    rw [List.set_append_right _ _ (by simp)]
    have hl : (List.map f (List.take n inp)).length = n := by simp; omega
    rw [hl, Nat.sub_self, List.drop_eq_getElem_cons (show n < out.length by omega), List.set_cons_zero,
      List.take_succ_eq_append_getElem (by omega), List.map_append]
    simp

/-- **C120**: encryption is AES-128 of FIPS 197, block by block, for every key,
every number of blocks and whatever the key structure and the output held. -/
theorem C120_encrypt (userkey : State) (key : AesKey) (inp out : List State) :
    ecbEncryptVec (setEncryptKey userkey key) inp = inp.map (cipher userkey) ∧
    ecbEncryptSpan (setEncryptKey userkey key) inp out =
      if inp.length = out.length then some (inp.map (cipher userkey)) else none := by
  obtain ⟨hr, hk⟩ := C120_set_encrypt_key userkey key
  have he : encryptBlk (setEncryptKey userkey key) = cipher userkey := by
    funext b; exact encryptBlk_spec userkey _ hr hk b
  unfold ecbEncryptVec ecbEncryptSpan ecbEncrypt
  rw [he]
  constructor
  · rw [blkLoop_spec _ _ _ _ (le_refl _) (by simp)]; simp
  · split
    · next h => rw [blkLoop_spec _ _ _ _ (le_refl _) (by omega), h]; simp [← h]
    · rfl

/-- **C120**, decryption, for fewer than 2^32 blocks: it is the inverse cipher of
FIPS 197 block by block, and it undoes encryption.  Missing: 2^32 blocks and
more, see `C120_decrypt_violated`. -/
theorem C120_decrypt_partial (userkey : State) (key ekey : AesKey) (junk : Nat → M128)
    (inp : List State) (hn : inp.length < 2 ^ 32) :
    ecbDecryptVec (setDecryptKey userkey key junk) inp = inp.map (invCipher userkey) ∧
    (∀ out : List State, ecbDecryptSpan (setDecryptKey userkey key junk) inp out =
      if inp.length = out.length then some (inp.map (invCipher userkey)) else none) ∧
    ecbDecryptVec (setDecryptKey userkey key junk) (ecbEncryptVec (setEncryptKey userkey ekey) inp) = inp := by
  have hd : decryptBlk (setDecryptKey userkey key junk) = invCipher userkey := by
    funext b; exact decryptBlk_spec userkey key junk b
  have hv : ∀ l : List State, l.length < 2 ^ 32 →
      ecbDecryptVec (setDecryptKey userkey key junk) l = l.map (invCipher userkey) := by
    intro l hl
    unfold ecbDecryptVec ecbDecrypt
    rw [hd, Nat.mod_eq_of_lt hl, blkLoop_spec _ _ _ _ (le_refl _) (by simp)]
    simp
  refine ⟨hv inp hn, fun out => ?_, ?_⟩
  · unfold ecbDecryptSpan ecbDecrypt
    split
    · next h =>
      rw [hd, Nat.mod_eq_of_lt hn, blkLoop_spec _ _ _ _ (le_refl _) (by omega), h]
      simp [← h]
    · rfl
  rw [(C120_encrypt userkey ekey inp []).1, hv _ (by simpa using hn), List.map_map]
  rw [show invCipher userkey ∘ cipher userkey = id by funext b; exact invCipher_cipher _ _]
  simp

/-- **C120** fails for decryption of 2^32 blocks: the count does not fit the
`unsigned` parameter, no block is decrypted and the result is all zeros, for
every key and every input. -/
theorem C120_decrypt_violated (key : AesKey) (inp : List State) (h : inp.length = 2 ^ 32) :
    ecbDecryptVec key inp = List.replicate (2 ^ 32) (fun _ => 0#8) := by
  unfold ecbDecryptVec ecbDecrypt
  rw [h, Nat.mod_self]
  rfl

/-! ## Batched encryption -/

theorem paraInner_spec (f : M128 → M128 → M128) (K : M128) (n : Nat) : ∀ (ptr : Nat) (blks : List M128),
    (paraInner f K n ptr blks).1 = ptr + n ∧
    ∀ p, (paraInner f K n ptr blks).2[p]? =
      if ptr ≤ p ∧ p < ptr + n then blks[p]?.map (fun b => f b K) else blks[p]? := by
  induction n with
  | zero => intro ptr blks; exact ⟨rfl, fun p => by rw [if_neg (by omega)]; rfl⟩
  | succ n ih =>
    intro ptr blks
    obtain ⟨h1, h2⟩ := ih (ptr + 1) (blks.modify ptr (fun b => f b K))
    rw [paraInner]
    refine ⟨by rw [h1]; omega, fun p => ?_⟩
    rw [h2, List.getElem?_modify]
    by_cases hp : ptr = p
    · rw [if_neg (by omega), if_pos (by omega)]
      simp [hp]
    · by_cases hp2 : ptr + 1 ≤ p ∧ p < ptr + 1 + n
      · rw [if_pos hp2, if_pos (by omega)]
        simp [hp]
      · rw [if_neg hp2, if_neg (by omega)]
        simp [hp]

theorem paraPass_spec (f : M128 → M128 → M128) (r n : Nat) (hn : 0 < n) (keys : List AesKey) :
    ∀ (ptr : Nat) (blks : List M128) (p : Nat), (paraPass f r n keys ptr blks)[p]? =
      if ptr ≤ p then
        match keys[(p - ptr) / n]? with
        | some k => blks[p]?.map (fun b => f b (k.rdKey r))
        | none => blks[p]?
      else blks[p]? := by
  induction keys with
  | nil => intro ptr blks p; simp [paraPass]
  | cons k ks ih =>
    intro ptr blks p
    obtain ⟨h1, h2⟩ := paraInner_spec f (k.rdKey r) n ptr blks
    rw [paraPass]
    rw [ih, h1, h2]
    by_cases hp : ptr + n ≤ p
    · rw [if_pos hp, if_neg (show ¬ (ptr ≤ p ∧ p < ptr + n) by omega), if_pos (show ptr ≤ p by omega)]
      have : (p - ptr) / n = (p - (ptr + n)) / n + 1 := by
        rw [← Nat.add_div_right _ hn]
        congr 1; omega
      rw [this, List.getElem?_cons_succ]
    · rw [if_neg hp]
      by_cases hp2 : ptr ≤ p
      · rw [if_pos (show ptr ≤ p ∧ p < ptr + n by omega), if_pos hp2, Nat.div_eq_of_lt (by omega)]
        rfl
      · rw [if_neg (show ¬ (ptr ≤ p ∧ p < ptr + n) by omega), if_neg hp2]

theorem paraEnc_spec (keys : List AesKey) (n : Nat) (hn : 0 < n) (blks : List M128) (p : Nat) :
    (paraEnc keys n blks)[p]? =
      match keys[p / n]? with
      | some k => blks[p]?.map (fun b => aesenclast ((List.range' 1 9).foldl
          (fun b j => aesenc b (k.rdKey j)) (xor128 b (k.rdKey 0))) (k.rdKey 10))
      | none => blks[p]? := by
  have hf : ∀ (l : List Nat) (bs : List M128), (l.foldl (fun bs r => paraPass aesenc r n keys 0 bs) bs)[p]? =
      match keys[p / n]? with
      | some k => bs[p]?.map (fun b => l.foldl (fun b j => aesenc b (k.rdKey j)) b)
      | none => bs[p]? := by
    intro l
    induction l with
    | nil => intro bs; cases keys[p / n]? <;> simp
    | cons r l ih =>
      intro bs
      rw [List.foldl_cons, ih, paraPass_spec _ _ _ hn, if_pos (Nat.zero_le _), Nat.sub_zero]
      cases keys[p / n]? with
      | none => rfl
      | some k => simp [Option.map_map, Function.comp_def]
  unfold paraEnc
  dsimp only
  rw [paraPass_spec _ _ _ hn, if_pos (Nat.zero_le _), Nat.sub_zero, hf,
    paraPass_spec _ _ _ hn, if_pos (Nat.zero_le _), Nat.sub_zero]
  cases keys[p / n]? with
  | none => rfl
  | some k => simp only [Option.map_map, Function.comp_def]

/-- **C120**: with keys from `AES_opt_key_schedule`, `ParaEnc` replaces block
`i * numEncs + j` by its AES-128 encryption under user key `i`, for every number
of keys and blocks per key, and leaves the blocks after the last one alone. -/
theorem C120_para_enc (userKeys : List State) (old : List AesKey) (h : old.length = userKeys.length)
    (numEncs : Nat) (blks : List State) :
    (∀ (i j : Nat) (u b : State), j < numEncs → userKeys[i]? = some u → blks[i * numEncs + j]? = some b →
      (paraEnc (optKeySchedule userKeys old) numEncs blks)[i * numEncs + j]? = some (cipher u b)) ∧
    (∀ p, userKeys.length * numEncs ≤ p →
      (paraEnc (optKeySchedule userKeys old) numEncs blks)[p]? = blks[p]?) := by
  obtain ⟨hl, hk⟩ := C120_opt_key_schedule userKeys old h
  constructor
  · intro i j u b hj hu hb
    obtain ⟨k, hk1, hr, hk2⟩ := hk i u hu
    have hd : (i * numEncs + j) / numEncs = i := by
      rw [Nat.mul_comm, Nat.mul_add_div (by omega), Nat.div_eq_of_lt hj, Nat.add_zero]
    rw [paraEnc_spec _ _ (by omega), hd, hk1]
    simp only [hb, Option.map_some]
    rw [← encryptBlk_spec u k hr hk2, encryptBlk, hr]
    rfl
  · intro p hp
    by_cases hn : numEncs = 0
    · subst hn
      have h0 : ∀ (f : M128 → M128 → M128) (r : Nat) (ks : List AesKey) (ptr : Nat) (bs : List M128),
          paraPass f r 0 ks ptr bs = bs := by
        intro f r ks
        induction ks with
        | nil => intros; rfl
        | cons k ks ih => intro ptr bs; rw [paraPass]; exact ih _ _
      unfold paraEnc
      simp [h0]
    · rw [paraEnc_spec _ _ (by omega), List.getElem?_eq_none]
      rw [hl]
      exact (Nat.le_div_iff_mul_le (by omega)).mpr hp

/-! ## 128-bit integers -/

theorem byte_sum (v : Nat) (g : Nat → Nat) (n : Nat) (h : ∀ i, i < n → g i = v / 256 ^ i % 256) :
    (List.range n).foldl (fun acc i => acc + g i * 256 ^ i) 0 = v % 256 ^ n := by
  induction n with
  | zero => simp [Nat.mod_one]
  | succ n ih =>
    rw [List.range_succ, List.foldl_append, ih (fun i hi => h i (by omega)), List.foldl_cons,
      List.foldl_nil, h n (by omega), Nat.pow_succ, Nat.mod_mul, Nat.mul_comm (256 ^ n)]

/-- **C120**: the cast of a 128-bit integer to a register agrees with its bytes in
memory, so keys given as integers and blocks read through a reinterpreted pointer
use the same byte order; and casting back returns the integer. -/
theorem C120_cast (x : BitVec 128) : castM128 x = ofU128 x ∧ castU128 (castM128 x) = x := by
  have h1 : castM128 x = ofU128 x := by
    funext i
    simp only [castM128, setEpi64x, decomposeU128, ofU128]
    split
    · apply BitVec.eq_of_getLsbD_eq
      intro j hj
      rw [BitVec.getLsbD_extractLsb', BitVec.getLsbD_extractLsb', BitVec.getLsbD_setWidth,
        decide_eq_true (show 8 * i.val + j < 64 by omega), Bool.true_and]
    · apply BitVec.eq_of_getLsbD_eq
      intro j hj
      rw [BitVec.getLsbD_extractLsb', BitVec.getLsbD_extractLsb', BitVec.getLsbD_setWidth,
        BitVec.getLsbD_ushiftRight, decide_eq_true (show 8 * (i.val - 8) + j < 64 by omega),
        Bool.true_and, show 64 + (8 * (i.val - 8) + j) = 8 * i.val + j by omega]
  refine ⟨h1, ?_⟩
  rw [h1]
  apply BitVec.eq_of_toNat_eq
  unfold castU128
  rw [byte_sum x.toNat (fun i => (ofU128 x (Fin.ofNat 16 i)).toNat) 16]
  · rw [BitVec.toNat_ofNat, show 256 ^ 16 = 2 ^ 128 by decide, Nat.mod_mod]
    exact Nat.mod_eq_of_lt x.isLt
  · intro i hi
    simp only [ofU128, BitVec.extractLsb'_toNat, Fin.ofNat, Nat.mod_eq_of_lt hi,
      Nat.shiftRight_eq_div_pow]
    rw [Nat.pow_mul]

/-! ## Concrete cases -/

/-- Two user keys, two blocks each: the hypotheses of `C120_para_enc` are met. -/
example (k1 k2 b1 b2 b3 b4 : State) :
    (paraEnc (optKeySchedule [k1, k2] [AesKey.fresh fun _ => zero128, AesKey.fresh fun _ => zero128]) 2
      [b1, b2, b3, b4])[3]? = some (cipher k2 b4) :=
  (C120_para_enc [k1, k2] _ rfl 2 [b1, b2, b3, b4]).1 1 1 k2 b4 (by decide) rfl rfl

/-- The first round key of the example of FIPS 197, appendix A.1, is
`a0fafe17 88542cb1 23a33939 2a6c7605`. -/
theorem fips_a1 : (List.finRange 16).map (fun i => ((setEncryptKey
      ![0x2b, 0x7e, 0x15, 0x16, 0x28, 0xae, 0xd2, 0xa6, 0xab, 0xf7, 0x15, 0x88, 0x09, 0xcf, 0x4f, 0x3c]
      (AesKey.fresh fun _ => zero128)).rdKey 1 i)) =
    [0xa0, 0xfa, 0xfe, 0x17, 0x88, 0x54, 0x2c, 0xb1, 0x23, 0xa3, 0x39, 0x39, 0x2a, 0x6c, 0x76, 0x05] := by
  rw [(C120_set_encrypt_key _ _).2 1 (by omega)]
  decide +kernel

/-- The substitution table is the inverse in GF(2^8) followed by the affine map
of FIPS 197, equation 5.3, at every byte: undoing the affine map gives a `y` with
`b y = 1`, or 0 for `b = 0`. -/
theorem sbox_is_inverse (b : BitVec 8) :
    let y := (sbox b).rotateLeft 1 ^^^ (sbox b).rotateLeft 3 ^^^ (sbox b).rotateLeft 6 ^^^ 0x05#8
    if b = 0#8 then y = 0#8 else gmul b y = 1#8 :=
  forall_byte (P := fun b =>
    let y := (sbox b).rotateLeft 1 ^^^ (sbox b).rotateLeft 3 ^^^ (sbox b).rotateLeft 6 ^^^ 0x05#8
    if b = 0#8 then y = 0#8 else gmul b y = 1#8) (by decide +kernel) b

/-- Lists of 2^32 blocks exist: `C120_decrypt_violated` is about some input. -/
example (b : State) (key : AesKey) (hb : b ≠ fun _ => 0#8) :
    ecbDecryptVec key (List.replicate (2 ^ 32) b) = List.replicate (2 ^ 32) (fun _ => 0#8) :=
  C120_decrypt_violated key _ List.length_replicate

end Verif.Aes
