import Verif.Crypto.BlockCipherProps

namespace Yacl.BlockCipher

/-! ### SM4-MTE -/

theorem mteEncrypt_eq (p : Prim) (key iv plain : Bytes) :
    mteEncrypt p key iv plain = some (ctrRun (p.sm4 key) iv 0 (mteMac p key iv plain ++ plain)) := by
  unfold mteEncrypt
  simp only
  rw [encrypt_eq _ _ (Or.inl rfl)]
  rfl

theorem mteDecrypt_eq (p : Prim) (key iv cipher : Bytes) :
    mteDecrypt p key iv cipher =
      if (ctrRun (p.sm4 key) iv 0 cipher).length > 32 then
        if mteMac p key iv ((ctrRun (p.sm4 key) iv 0 cipher).drop 32) = (ctrRun (p.sm4 key) iv 0 cipher).take 32 then
          some ((ctrRun (p.sm4 key) iv 0 cipher).drop 32) else none
      else none := by
  unfold mteDecrypt
  rw [decrypt_eq _ _ (Or.inl rfl)]
  rfl

/-- C103. SM4-MTE accepts exactly the ciphertexts encryption makes: decryption returns `m` if and only if `m` is not empty and the ciphertext is the encryption of
`m` under this key and vector. Any other ciphertext (changed, cut, extended) is refused. -/
theorem C103_mte (p : Prim) (key iv cipher m : Bytes) : mteDecrypt p key iv cipher = some m ↔ m ≠ [] ∧ mteEncrypt p key iv m = some cipher := by
  have hmac : ∀ m, (mteMac p key iv m).length = 32 := fun m => p.hmac_len _ _
  rw [mteDecrypt_eq, mteEncrypt_eq, Option.some.injEq]
  constructor
  · intro h
    by_cases h1 : (ctrRun (p.sm4 key) iv 0 cipher).length > 32
    · rw [if_pos h1] at h
      by_cases h2 : mteMac p key iv ((ctrRun (p.sm4 key) iv 0 cipher).drop 32) = (ctrRun (p.sm4 key) iv 0 cipher).take 32
      · rw [if_pos h2] at h
        have h := Option.some.inj h
        rw [h] at h2
        refine ⟨?_, ?_⟩
        · rintro rfl
          have := congrArg List.length h
          rw [List.length_drop, List.length_nil] at this
          omega
        · rw [h2, ← h, List.take_append_drop, ctr_inv]
      · rw [if_neg h2] at h
        cases h
    · rw [if_neg h1] at h
      cases h
  · rintro ⟨h1, rfl⟩
    have hm : 0 < m.length := List.length_pos_iff.mpr h1
    rw [ctr_inv, List.length_append, hmac, if_pos (by omega), List.drop_left' (hmac m), List.take_left' (hmac m), if_pos rfl]

/-- The empty message is encrypted, but its ciphertext is refused. -/
theorem C103_empty_violated (p : Prim) (key iv : Bytes) : ∃ c, mteEncrypt p key iv [] = some c ∧ mteDecrypt p key iv c = none := by
  refine ⟨_, mteEncrypt_eq p key iv [], ?_⟩
  cases h : mteDecrypt p key iv (ctrRun (p.sm4 key) iv 0 (mteMac p key iv [] ++ [])) with
  | none => rfl
  | some m =>
    have h1 := (C103_mte p key iv _ m).mp h
    obtain ⟨h2, h3⟩ := h1
    rw [mteEncrypt_eq] at h3
    have := congrArg List.length (Option.some.inj h3)
    rw [ctr_length, ctr_length, List.length_append, List.length_append] at this
    simp only [mteMac, p.hmac_len, List.length_nil] at this
    exact absurd (List.length_eq_zero_iff.mp (by omega)) h2

/-- SM4-MTE through the AEAD interface does not authenticate the additional data or look at the MAC it is given: any other values are accepted. -/
theorem C103_aad_violated (p : Prim) (key iv m aad aad' mac' : Bytes) (hm : m ≠ []) :
    ∃ c, aeadMteEncrypt p key iv m aad (32 + m.length) = some c ∧ aeadMteDecrypt p key iv c mac' aad' m.length = some m := by
  have hl : (ctrRun (p.sm4 key) iv 0 (mteMac p key iv m ++ m)).length = 32 + m.length := by
    rw [ctr_length, List.length_append]
    simp only [mteMac, p.hmac_len]
  refine ⟨ctrRun (p.sm4 key) iv 0 (mteMac p key iv m ++ m), ?_, ?_⟩
  · unfold aeadMteEncrypt
    rw [mteEncrypt_eq, Option.bind_some, if_pos hl]
  · unfold aeadMteDecrypt
    rw [(C103_mte p key iv _ m).mpr ⟨hm, mteEncrypt_eq p key iv m⟩, Option.bind_some, if_pos rfl]

/-- `GetMacSize` reports 32 bytes for AES-256-GCM, whose tag has 16; the other sizes are right. -/
theorem C103_macsize_violated : macSize .aes256 = 32 ∧ tagSize .aes256 = 16 ∧
    ∀ a, a ≠ .aes256 → macSize a = tagSize a := by
  refine ⟨rfl, rfl, fun a h => ?_⟩
  cases a with
  | aes256 => exact absurd rfl h
  | aes128 => rfl
  | mte => rfl

/-! ### GCM -/

theorem gcmXor_length (ks : Nat → Byte) (n : Nat) (l : Bytes) : (gcmXor ks n l).length = l.length := by
  induction l generalizing n with
  | nil => rfl
  | cons x l ih => simp [gcmXor, ih]

theorem gcmXor_inv (ks : Nat → Byte) (n : Nat) (l : Bytes) : gcmXor ks n (gcmXor ks n l) = l := by
  induction l generalizing n with
  | nil => rfl
  | cons x l ih =>
    simp only [gcmXor, ih, BitVec.xor_assoc, BitVec.xor_self]
    rw [show x ^^^ 0#8 = x from BitVec.xor_zero]

/-- C103. GCM with a key of the right size, a 12-byte vector and a MAC span of at least 16 bytes: decryption returns `m` if and only if encryption of `m` under the same key, vector
and additional data gives this ciphertext and the tag in the first 16 bytes of `mac`. So the honest round trip works, and a ciphertext is accepted only with its own tag. -/
theorem C103_gcm (g : Gcm) (kl : Nat) (k iv aad c mac m : Bytes) (hk : k.length = kl) (hiv : iv.length = 12) (hmac : 16 ≤ mac.length) :
    gcmDecrypt g kl k iv c aad mac c.length = some m ↔ gcmEncrypt g kl k iv m aad m.length mac.length = some (c, mac.take 16) := by
  have e1 : gcmEncrypt g kl k iv m aad m.length mac.length = some (gcmXor (g.ks k iv) 0 m, g.tag k iv aad (gcmXor (g.ks k iv) 0 m)) :=
    if_pos ⟨rfl, hk, hiv, hmac⟩
  have e2 : gcmDecrypt g kl k iv c aad mac c.length = if g.tag k iv aad c = mac.take 16 then some (gcmXor (g.ks k iv) 0 c) else none :=
    if_pos ⟨rfl, hk, hiv, hmac⟩
  rw [e1, e2, Option.some.injEq, Prod.mk.injEq]
  constructor
  · intro h
    by_cases h1 : g.tag k iv aad c = mac.take 16
    · rw [if_pos h1] at h
      have h := Option.some.inj h
      rw [← h, gcmXor_inv]
      exact ⟨rfl, h1⟩
    · rw [if_neg h1] at h
      cases h
  · rintro ⟨rfl, h1⟩
    rw [if_pos h1, gcmXor_inv]

/-- C103. An output span of the wrong size, a key of the wrong size or a vector not of 12 bytes is refused by both directions. -/
theorem C103_gcm_sizes (g : Gcm) (kl : Nat) (k iv aad c mac : Bytes) (size span : Nat) (h : c.length ≠ size ∨ k.length ≠ kl ∨ iv.length ≠ 12) :
    gcmDecrypt g kl k iv c aad mac size = none ∧ gcmEncrypt g kl k iv c aad size span = none := by
  unfold gcmDecrypt gcmEncrypt
  refine ⟨if_neg ?_, if_neg ?_⟩
  · rintro ⟨h1, h2, h3, -⟩
    rcases h with h | h | h <;> contradiction
  · rintro ⟨h1, h2, h3, -⟩
    rcases h with h | h | h
    · exact h h1.symm
    · exact h h2
    · exact h h3

/-! ### Envelopes -/

/-- C103. What `SmEnvSeal` closes for a public key, `SmEnvOpen` opens with the private key, for every non-empty message and every random key. -/
theorem C103_sm_env {Pub Pri Rnd : Type} (e : Pke Pub Pri Rnd) (p : Prim) (pub : Pub) (pri : Pri) (h : e.pair pub pri) (r : Rnd) (k iv m : Bytes) (hm : m ≠ []) :
    ∃ ek c, smSeal e p pub r k iv m = some (ek, c) ∧ smOpen e p pri iv ek c = some m := by
  refine ⟨e.enc pub r k, ctrRun (p.sm4 k) iv 0 (mteMac p k iv m ++ m), ?_, ?_⟩
  · unfold smSeal
    rw [mteEncrypt_eq]
    rfl
  · unfold smOpen
    rw [e.dec_enc pub pri r k h, Option.bind_some]
    exact (C103_mte p k iv _ m).mpr ⟨hm, mteEncrypt_eq p k iv m⟩

/-- C103. The same for `RsaEnvSeal` and `RsaEnvOpen`, for every message (also empty), 16-byte random key and 12-byte vector. -/
theorem C103_rsa_env {Pub Pri Rnd : Type} (e : Pke Pub Pri Rnd) (g : Gcm) (pub : Pub) (pri : Pri) (h : e.pair pub pri) (r : Rnd) (k iv m : Bytes)
    (hk : k.length = 16) (hiv : iv.length = 12) :
    ∃ ek c mac, rsaSeal e g pub r k iv m = some (ek, c, mac) ∧ rsaOpen e g pri iv ek c mac = some m := by
  refine ⟨e.enc pub r k, gcmXor (g.ks k iv) 0 m, g.tag k iv [] (gcmXor (g.ks k iv) 0 m), ?_, ?_⟩
  · unfold rsaSeal gcmEncrypt
    rw [if_pos ⟨rfl, hk, hiv, Nat.le_refl _⟩]
    rfl
  · unfold rsaOpen
    rw [e.dec_enc pub pri r k h, Option.bind_some]
    have hl := g.tag_len k iv [] (gcmXor (g.ks k iv) 0 m)
    rw [C103_gcm g 16 k iv [] _ _ m hk hiv (by omega)]
    unfold gcmEncrypt
    rw [if_pos ⟨rfl, hk, hiv, by omega⟩, List.take_of_length_le (Nat.le_of_eq hl)]

/-- The structures have members: a MAC that adds up bytes, and a scheme whose two keys are equal. -/
def toyPrim : Prim where
  sm4 _ := addCipher (List.replicate 16 5) rfl
  sm3 x := beBytes 32 (beNat x)
  hmac k x := beBytes 32 (beNat k + beNat x)
  sm3_len _ := beBytes_length _ _
  hmac_len _ _ := beBytes_length _ _

def toyPke : Pke Nat Nat Nat where
  pair a b := a = b
  enc _ r m := BitVec.ofNat 8 r :: m
  dec _ c := some c.tail
  dec_enc _ _ _ _ _ := rfl

example : ∃ ek c, smSeal toyPke toyPrim 3 7 (List.replicate 16 1) (List.replicate 16 2) [1, 2, 3] = some (ek, c) ∧ smOpen toyPke toyPrim 3 (List.replicate 16 2) ek c = some [1, 2, 3] :=
  C103_sm_env toyPke toyPrim 3 3 rfl 7 _ _ _ (by decide)

/-- A changed ciphertext is refused. -/
example : mteDecrypt toyPrim (List.replicate 16 1) (List.replicate 16 2) (List.replicate 33 9) = none := by decide +kernel

end Yacl.BlockCipher
