import Verif.Vss.Tpre
import Verif.Crypto.AeadProps
/-! Threshold proxy re-encryption of messages: yacl/crypto/experimental/tpre/tpre.cc. Property C126.

The capsule part is the model of Tpre.lean, the symmetric part (`Sm4MteEncrypt`, `Sm4MteDecrypt`) that of Crypto/BlockCipher.lean. -/
namespace Yacl.Tpre
open BlockCipher (Bytes Prim mteEncrypt mteDecrypt)

variable {G : Type} [AddCommGroup G] [DecidableEq G]

/-- tpre.cc L24-36 `TPRE::Encrypt`, with the capsule's draws `r`, `u`. -/
def encrypt (P : Prims G) (S : Prim) (g : G) (n : Int) (pkA : G) (r u : Int) (iv plain : Bytes) : Option (Capsule G × Bytes) :=
  let cp := enCapsulate P g n pkA r u
  (mteEncrypt S cp.2 iv plain).map fun c => (cp.1, c)

/-- tpre.cc L38-50 `TPRE::Decrypt`. -/
def decrypt (P : Prims G) (S : Prim) (c : Capsule G) (iv data : Bytes) (skA : Int) : Option Bytes :=
  mteDecrypt S (deCapsulate P skA c) iv data

/-- tpre.cc L52-69 `TPRE::ReEncrypt`. -/
def reEncrypt (P : Prims G) (g : G) (k : KFrag G) (ct : Capsule G × Bytes) : Option (CFrag G × Bytes) :=
  (reEncapsulate P g k ct.1).map fun f => (f, ct.2)

/-- tpre.cc L71-91 `TPRE::DecryptFrags`. -/
def decryptFrags (P : Prims G) (S : Prim) (n : Int) (skB : Int) (pkA pkB : G) (iv : Bytes) (set : List (CFrag G) × Bytes) : Option Bytes :=
  (deCapsulateFrags P n skB pkA pkB set.1).bind fun dek => mteDecrypt S dek iv set.2

/-- **C126** The owner of the private key reads the message: encryption of a non-empty message succeeds and decryption with the same
initial vector returns it. -/
theorem C126_owner (P : Prims G) (S : Prim) (g : G) (n : ℕ) (hg : addOrderOf g = n) (skA r u : Int) (iv m : Bytes) (hm : m ≠ []) :
    ∃ c d, encrypt P S g n (publicKey g skA) r u iv m = some (c, d) ∧ decrypt P S c iv d skA = some m := by
  obtain ⟨d, hd⟩ : ∃ d, mteEncrypt S (enCapsulate P g n (publicKey g skA) r u).2 iv m = some d := ⟨_, BlockCipher.mteEncrypt_eq _ _ _ _⟩
  refine ⟨(enCapsulate P g n (publicKey g skA) r u).1, d, ?_, ?_⟩
  · unfold encrypt; simp only []; rw [hd]; rfl
  · unfold decrypt
    rw [C52_delegator P g n hg, BlockCipher.C103_mte]
    exact ⟨hm, hd⟩

/-- **C126** The requester reads the message with the help of any `t` (or more) of the proxies, in any order: if the re-keys were
generated with threshold `t`, every proxy can re-encrypt the ciphertext (leaving the data as they are), and from the fragments `DecryptFrags`
returns the message, unless two of the proxies' evaluation points coincide; then it throws. -/
theorem C126_requester (P : Prims G) (S : Prim) (g : G) (n : ℕ) (hn : n.Prime) (hg : addOrderOf g = n)
    (skA skB r u xA r0 : Int) (t : ℕ) (fs : List Int) (draws : List (Int × Int)) (kfrags used : List (KFrag G))
    (hfs : fs.length = t - 1)
    (hk : generateReKey P g n skA (publicKey g skA) (publicKey g skB) t xA fs r0 draws = some kfrags)
    (hused : ∀ k ∈ used, k ∈ kfrags) (ht : t ≤ used.length) (hpos : used ≠ []) (iv m : Bytes) (hm : m ≠ []) :
    ∃ c d frags, encrypt P S g n (publicKey g skA) r u iv m = some (c, d) ∧
      used.mapM (fun k => reEncrypt P g k (c, d)) = some (frags.map fun f => (f, d)) ∧
      ((used.map fun k => point P g skA skB k.id).Pairwise (fun a b => ¬ a ≡ b [ZMOD n]) →
        decryptFrags P S n skB (publicKey g skA) (publicKey g skB) iv (frags, d) = some m) ∧
      (¬ (used.map fun k => point P g skA skB k.id).Pairwise (fun a b => ¬ a ≡ b [ZMOD n]) →
        decryptFrags P S n skB (publicKey g skA) (publicKey g skB) iv (frags, d) = none) := by
  obtain ⟨d, hd⟩ : ∃ d, mteEncrypt S (enCapsulate P g n (publicKey g skA) r u).2 iv m = some d := ⟨_, BlockCipher.mteEncrypt_eq _ _ _ _⟩
  obtain ⟨frags, h1, h2, h3⟩ := C52_delegatee P g n hn hg skA skB r u xA r0 t fs draws kfrags used hfs hk hused ht hpos
  refine ⟨(enCapsulate P g n (publicKey g skA) r u).1, d, frags, ?_, ?_, fun hp => ?_, fun hp => ?_⟩
  · unfold encrypt; simp only []; rw [hd]; rfl
  · generalize (enCapsulate P g n (publicKey g skA) r u).1 = c at h1
    clear h2 h3 hused ht hpos
    induction used generalizing frags with
    | nil => cases h1; rfl
    | cons k l ih =>
      rw [List.mapM_cons] at h1
      cases e : reEncapsulate P g k c with
      | none => rw [e] at h1; cases h1
      | some f =>
        rw [e] at h1
        simp only [Option.bind_eq_bind, Option.bind_some] at h1
        cases e2 : l.mapM (fun k => reEncapsulate P g k c) with
        | none => rw [e2] at h1; cases h1
        | some fl =>
          rw [e2] at h1
          cases h1
          rw [List.mapM_cons, ih fl e2]
          unfold reEncrypt
          rw [e]
          rfl
  · unfold decryptFrags
    rw [h2 hp]
    simp only [Option.bind_some]
    rw [BlockCipher.C103_mte]
    exact ⟨hm, hd⟩
  · unfold decryptFrags; rw [h3 hp]; rfl

/-- **C126** Nothing else is accepted. Whatever capsule, fragments and data it is given, decryption returns `m` only if the data are
the encryption of `m` under the key of the capsule (of the fragments); a proxy refuses a capsule exactly if its check value is wrong. -/
theorem C126_authentic (P : Prims G) (S : Prim) (g : G) (n : ℕ) (hg : addOrderOf g = n) (iv d m : Bytes) (skA skB : Int) (pkA pkB : G)
    (c : Capsule G) (frags : List (CFrag G)) :
    (decrypt P S c iv d skA = some m ↔ m ≠ [] ∧ mteEncrypt S (P.kdf (skA • (c.E + c.V))) iv m = some d) ∧
    (decryptFrags P S n skB pkA pkB iv (frags, d) = some m ↔
      ∃ key, deCapsulateFrags P n skB pkA pkB frags = some key ∧ m ≠ [] ∧ mteEncrypt S key iv m = some d) ∧
    (∀ (k : KFrag G) (e v s : Int), (∃ f, reEncrypt P g k (⟨e • g, v • g, s⟩, d) = some f) ↔
      s ≡ v + e * P.hashPts [e • g, v • g] [ZMOD n]) := by
  refine ⟨BlockCipher.C103_mte _ _ _ _ _, ?_, fun k e v s => ?_⟩
  · unfold decryptFrags
    rw [Option.bind_eq_some_iff]
    exact exists_congr fun key => and_congr Iff.rfl (BlockCipher.C103_mte _ _ _ _ _)
  · rw [← C52_check_iff P g n hg e v s]
    unfold reEncrypt reEncapsulate
    by_cases h : checkCapsule P g ⟨e • g, v • g, s⟩ = true
    · rw [if_pos h]; simp [h]
    · rw [if_neg h]; simp [h]

/-- **C126 violated** The empty message is encrypted, but nobody can decrypt it. -/
theorem C126_empty_violated (P : Prims G) (S : Prim) (g : G) (n : ℕ) (hg : addOrderOf g = n) (skA r u : Int) (iv : Bytes) :
    ∃ c d, encrypt P S g n (publicKey g skA) r u iv [] = some (c, d) ∧ decrypt P S c iv d skA = none := by
  obtain ⟨d, h1, h2⟩ := BlockCipher.C103_empty_violated S (enCapsulate P g n (publicKey g skA) r u).2 iv
  refine ⟨(enCapsulate P g n (publicKey g skA) r u).1, d, ?_, ?_⟩
  · unfold encrypt; simp only []; rw [h1]; rfl
  · unfold decrypt; rw [C52_delegator P g n hg, h2]

/-- Non-vacuity: the 2-of-3 re-key of Tpre.lean meets the hypotheses of `C126_requester` (third and first fragment). -/
example : ∃ ks, generateReKey toyPrims 2 (13 : ℕ) 3 (publicKey 2 3) (publicKey 2 5) 2 4 [6] 7 [(1, 5), (2, 10), (3, 100)] = some ks ∧
    (∀ k ∈ ks.reverse.take 2, k ∈ ks) ∧ 2 ≤ (ks.reverse.take 2).length ∧ Nat.Prime 13 ∧
    ((ks.reverse.take 2).map fun k => point toyPrims 2 3 5 k.id).Pairwise (fun a b => ¬ a ≡ b [ZMOD (13 : ℕ)]) := by
  refine ⟨_, rfl, fun k hk => List.mem_reverse.mp (List.mem_of_mem_take hk), ?_, by decide, ?_⟩ <;> decide +kernel

end Yacl.Tpre
