/-
C131: keys, public-key encryption, signatures and certificates.
-/
import Verif.Crypto.Pkey
import Mathlib.Data.List.Basic

namespace Yacl.Pkey

variable {PK SK : Type}

/-! ### Specification: what is required of OpenSSL -/

/-- The documented behaviour of the library functions used. -/
structure Sound (L : Ossl PK SK) : Prop where
  pubPem : ∀ p, L.decode (L.pubPem p) = some (.pub p) ∧ L.pubPem p ≠ []
  secPem : ∀ s, L.decode (L.secPem s) = some (.full s) ∧ L.secPem s ≠ []
  pubDer : ∀ p, L.decode (L.pubDer p) = some (.pub p) ∧ L.pubDer p ≠ []
  secDer : ∀ s, L.decode (L.secDer s) = some (.full s) ∧ L.secDer s ≠ []
  encLen : ∀ p pad r m c, L.encrypt p pad r m = some c → c.length ≤ L.encMax p m.length
  decEnc : ∀ s pad r m c, L.encrypt (L.pubOf s) pad r m = some c → L.decrypt s pad c = some m
  decLen : ∀ s pad c m, L.decrypt s pad c = some m → m.length ≤ L.decMax s c.length
  /-- RSA signatures have exactly the size of the modulus. -/
  signLen : ∀ s pad h d σ, L.sign s pad h d = some σ → σ.length = L.signMax s
  verifySign : ∀ s pad h d σ, L.sign s pad h d = some σ → L.verify (L.pubOf s) pad h d σ = 1
  sm2Len : ∀ s i r m σ, L.sm2Sign s i r m = some σ → σ.length ≤ L.signMax s
  sm2Verify : ∀ s i r m σ, L.sm2Sign s i r m = some σ → L.sm2Verify (L.pubOf s) i m σ = 1
  certVerify : ∀ s h t, L.certSign s h t ≠ [] → L.certVerify (L.pubOf s) h t (L.certSign s h t) = true

/-- The two forms in which a party can hold the public key belonging to `s`. -/
def BelongsTo (L : Ossl PK SK) (k : Pkey PK SK) (s : SK) : Prop := k = .pub (L.pubOf s) ∨ k = .full s

/-! ### Helpers -/

theorem public_of (L : Ossl PK SK) {k : Pkey PK SK} {s : SK} (h : BelongsTo L k s) : L.public k = L.pubOf s := by
  rcases h with rfl | rfl <;> rfl

theorem twoCalls_take {max : ℕ} {r : Option Bytes} (h : ∀ b, r = some b → b.length ≤ max) :
    (do let x ← twoCalls max r; some (x.1.take x.2)) = r := by
  cases r with
  | none => rfl
  | some b => simp [twoCalls, h b rfl]

theorem twoCalls_exact {max : ℕ} {r : Option Bytes} (h : ∀ b, r = some b → b.length = max) :
    (do let x ← twoCalls max r; some x.1) = r := by
  cases r with
  | none => rfl
  | some b => simp [twoCalls, h b rfl]

theorem bio_some {b : Bytes} (h : b ≠ []) : bioToBuf b = some b := by
  simp [bioToBuf, List.length_pos_iff.2 h]

/-! ### C131 -/

/-- Encryption: what comes out is exactly the ciphertext of the library, with OAEP padding for RSA, and whoever holds
the secret key decrypts it to exactly the plaintext (also of length 0); a public key alone decrypts nothing. -/
theorem C131_encrypt (L : Ossl PK SK) (hL : Sound L) (s : SK) (k : Pkey PK SK) (hk : BelongsTo L k s) (r : ℕ)
    (m c : Bytes) :
    (rsaEncrypt L k r m = some c ↔ L.encrypt (L.pubOf s) .oaep r m = some c) ∧
    (rsaEncrypt L k r m = some c → rsaDecrypt L (.full s) c = some m) ∧
    (sm2Encrypt L k r m = some c ↔ L.encrypt (L.pubOf s) .none r m = some c) ∧
    (sm2Encrypt L k r m = some c → sm2Decrypt L (.full s) c = some m) ∧
    (∀ m', rsaDecrypt L (.full s) c = some m' ↔ L.decrypt s .oaep c = some m') ∧
    (∀ m', sm2Decrypt L (.full s) c = some m' ↔ L.decrypt s .none c = some m') ∧
    (∀ p, rsaDecrypt L (.pub p) c = none ∧ sm2Decrypt L (.pub p) c = none) := by
  have e1 : rsaEncrypt L k r m = L.encrypt (L.pubOf s) .oaep r m := by
    unfold rsaEncrypt; rw [public_of L hk]; exact twoCalls_take fun b h => hL.encLen _ _ _ _ _ h
  have e2 : sm2Encrypt L k r m = L.encrypt (L.pubOf s) .none r m := by
    unfold sm2Encrypt; rw [public_of L hk]; exact twoCalls_take fun b h => hL.encLen _ _ _ _ _ h
  have d1 : rsaDecrypt L (.full s) c = L.decrypt s .oaep c := by
    unfold rsaDecrypt; exact twoCalls_take fun b h => hL.decLen _ _ _ _ h
  have d2 : sm2Decrypt L (.full s) c = L.decrypt s .none c := by
    unfold sm2Decrypt; exact twoCalls_take fun b h => hL.decLen _ _ _ _ h
  rw [e1, e2, d1, d2]
  exact ⟨Iff.rfl, hL.decEnc _ _ _ _ _, Iff.rfl, hL.decEnc _ _ _ _ _, fun _ => Iff.rfl, fun _ => Iff.rfl,
    fun p => ⟨rfl, rfl⟩⟩

/-- Signatures: a signature made with a secret key is accepted with either form of its public key; `Verify` says yes
exactly when the library finds the signature valid for the SHA-256 digest of the message (for SM2: for the message and
the default identity), no when it finds it invalid, and throws on library errors; a public key alone signs nothing. -/
theorem C131_sign (L : Ossl PK SK) (hL : Sound L) (s : SK) (k : Pkey PK SK) (hk : BelongsTo L k s) (r : ℕ)
    (m σ : Bytes) :
    (rsaSign L (.full s) m = some σ ↔ L.sign s .pkcs1 .sha256 (L.hash .sha256 m) = some σ) ∧
    (rsaSign L (.full s) m = some σ → rsaVerify L k m σ = some true) ∧
    (rsaVerify L k m σ = some true ↔ L.verify (L.pubOf s) .pkcs1 .sha256 (L.hash .sha256 m) σ = 1) ∧
    (rsaVerify L k m σ = none ↔ L.verify (L.pubOf s) .pkcs1 .sha256 (L.hash .sha256 m) σ < 0) ∧
    (sm2Sign L (.full s) r m = some σ ↔ L.sm2Sign s sm2Id r m = some σ) ∧
    (sm2Sign L (.full s) r m = some σ → sm2Verify L k m σ = some true) ∧
    (sm2Verify L k m σ = some true ↔ L.sm2Verify (L.pubOf s) sm2Id m σ = 1) ∧
    (sm2Verify L k m σ = none ↔ L.sm2Verify (L.pubOf s) sm2Id m σ < 0) ∧
    (∀ p, rsaSign L (.pub p) m = none ∧ sm2Sign L (.pub p) r m = none) := by
  have e1 : rsaSign L (.full s) m = L.sign s .pkcs1 .sha256 (L.hash .sha256 m) := by
    unfold rsaSign; exact twoCalls_exact fun b h => hL.signLen _ _ _ _ _ h
  have e2 : sm2Sign L (.full s) r m = L.sm2Sign s sm2Id r m := by
    unfold sm2Sign; exact twoCalls_take fun b h => hL.sm2Len _ _ _ _ _ h
  have v1 : ∀ x : Int, (if x ≥ 0 then some (decide (x = 1)) else none) = some true ↔ x = 1 := by
    intro x; by_cases h : x ≥ 0
    · simp [h]
    · simp only [h, if_false, reduceCtorEq, false_iff]; omega
  have v2 : ∀ x : Int, (if x ≥ 0 then some (decide (x = 1)) else none) = none ↔ x < 0 := by
    intro x; by_cases h : x ≥ 0
    · simp only [h, if_true, reduceCtorEq, false_iff]; omega
    · simp only [h, if_false, true_iff]; omega
  have p := public_of L hk
  refine ⟨by rw [e1], ?_, ?_, ?_, by rw [e2], ?_, ?_, ?_, fun p => ⟨rfl, rfl⟩⟩
  · intro h
    rw [e1] at h
    simp only [rsaVerify, p]; exact (v1 _).2 (hL.verifySign _ _ _ _ _ h)
  · simp only [rsaVerify, p]; exact v1 _
  · simp only [rsaVerify, p]; exact v2 _
  · intro h
    rw [e2] at h
    simp only [sm2Verify, p]; exact (v1 _).2 (hL.sm2Verify _ _ _ _ _ h)
  · simp only [sm2Verify, p]; exact v1 _
  · simp only [sm2Verify, p]; exact v2 _

/-- Keys survive export and import, in PEM and DER and through PEM files; the export of a public key depends on the
public key alone; exporting the secret key of a public key fails; other files keep their contents. -/
theorem C131_keys (L : Ossl PK SK) (hL : Sound L) (k : Pkey PK SK) (fs : Fs) (path : String) :
    (∃ b, exportPubPem L k = some b ∧ loadKey L b = some (.pub (L.public k))) ∧
    (∃ b, exportPubDer L k = some b ∧ loadKey L b = some (.pub (L.public k))) ∧
    (∀ s, k = .full s →
      (∃ b, exportSecPem L k = some b ∧ loadKey L b = some k) ∧
      (∃ b, exportSecDer L k = some b ∧ loadKey L b = some k) ∧
      (∃ fs', exportSecPemFile L fs k path = some fs' ∧ loadKeyFile L fs' path = some k ∧
        ∀ q, q ≠ path → fs' q = fs q) ∧
      (∃ a b, genKeyPairToPem L s = some (a, b) ∧ loadKey L a = some (.pub (L.pubOf s)) ∧ loadKey L b = some k) ∧
      exportPubPem L k = exportPubPem L (.pub (L.pubOf s)) ∧ exportPubDer L k = exportPubDer L (.pub (L.pubOf s))) ∧
    (∀ p, k = .pub p → exportSecPem L k = none ∧ exportSecDer L k = none ∧ exportSecPemFile L fs k path = none) ∧
    (∃ fs', exportPubPemFile L fs k path = some fs' ∧ loadKeyFile L fs' path = some (.pub (L.public k)) ∧
      ∀ q, q ≠ path → fs' q = fs q) := by
  have e1 : exportPubPem L k = some (L.pubPem (L.public k)) := bio_some (hL.pubPem _).2
  refine ⟨⟨_, e1, (hL.pubPem _).1⟩, ⟨_, bio_some (hL.pubDer _).2, (hL.pubDer _).1⟩, ?_, ?_, ?_⟩
  · rintro s rfl
    have e2 : exportSecPem L (.full s) = some (L.secPem s) := bio_some (hL.secPem _).2
    refine ⟨⟨_, e2, (hL.secPem _).1⟩, ⟨_, bio_some (hL.secDer s).2, (hL.secDer _).1⟩, ?_, ?_, rfl, rfl⟩
    · refine ⟨exportBuf fs (L.secPem s) path, by simp [exportSecPemFile, e2], ?_, fun q hq => by simp [exportBuf, hq]⟩
      simp [loadKeyFile, loadBuf, exportBuf, loadKey, (hL.secPem s).1]
    · refine ⟨L.pubPem (L.pubOf s), L.secPem s, ?_, (hL.pubPem _).1, (hL.secPem _).1⟩
      have e3 : exportPubPem L (.full s) = some (L.pubPem (L.pubOf s)) := e1
      simp [genKeyPairToPem, e2, e3]
  · rintro p rfl
    exact ⟨rfl, rfl, rfl⟩
  · refine ⟨exportBuf fs (L.pubPem (L.public k)) path, by simp [exportPubPemFile, e1], ?_, fun q hq => by simp [exportBuf, hq]⟩
    simp [loadKeyFile, loadBuf, exportBuf, loadKey, (hL.pubPem _).1]

/-- The functions that are to write DER files write PEM files: with any library whose two encodings of the key differ,
the file does not hold the DER encoding. -/
theorem C131_der_file_violated (L : Ossl PK SK) (hL : Sound L) (s : SK) (fs : Fs) (path : String)
    (h1 : L.pubPem (L.pubOf s) ≠ L.pubDer (L.pubOf s)) (h2 : L.secPem s ≠ L.secDer s) :
    (∃ fs' b, exportPubDerFile L fs (.full s) path = some fs' ∧ exportPubDer L (.full s) = some b ∧ fs' path ≠ some b) ∧
    (∃ fs' b, exportSecDerFile L fs (.full s) path = some fs' ∧ exportSecDer L (.full s) = some b ∧ fs' path ≠ some b) := by
  have e1 : exportPubPem L (.full s) = some (L.pubPem (L.pubOf s)) := bio_some (hL.pubPem _).2
  have e2 : exportSecPem L (.full s) = some (L.secPem s) := bio_some (hL.secPem _).2
  have e3 : exportPubDer L (.full s) = some (L.pubDer (L.pubOf s)) := bio_some (hL.pubDer _).2
  have e4 : exportSecDer L (.full s) = some (L.secDer s) := bio_some (hL.secDer _).2
  exact ⟨⟨_, _, by simp [exportPubDerFile, e1]; rfl, e3, by simpa [exportBuf] using h1⟩,
    ⟨_, _, by simp [exportSecDerFile, e2]; rfl, e4, by simpa [exportBuf] using h2⟩⟩

theorem cStr_self {b : Bytes} (h : 0 ∉ b) : cStr b = b := by
  induction b with
  | nil => rfl
  | cons x t ih =>
    have hx : x ≠ 0 := by rintro rfl; exact h (by simp)
    have ht : 0 ∉ t := fun h' => h (List.mem_cons_of_mem _ h')
    simp only [cStr, List.takeWhile_cons, hx, ne_eq, not_false_eq_true, decide_true, if_true]
    rw [show List.takeWhile (fun x => decide ¬x = 0) t = t from ih ht]

theorem buildName_some (L : Ossl PK SK) (subjects : String → Option Bytes) (fields : List String)
    (name : List (String × Bytes)) :
    buildName L subjects fields = some name ↔
      name.map (·.1) = fields ∧
      ∀ e ∈ name, ∃ v, subjects e.1 = some v ∧ e.2 = cStr v ∧ L.nameOk e.1 e.2 = true := by
  induction fields generalizing name with
  | nil =>
    simp only [buildName, Option.some.injEq, List.map_eq_nil_iff]
    constructor
    · rintro rfl; simp
    · rintro ⟨rfl, _⟩; rfl
  | cons f fs ih =>
    simp only [buildName]
    constructor
    · intro h
      cases hv : subjects f with
      | none => rw [hv] at h; simp at h
      | some v =>
        rw [hv] at h
        simp only [Option.bind_eq_bind, Option.bind_some] at h
        split at h
        · rename_i ok
          cases hr : buildName L subjects fs with
          | none => rw [hr] at h; simp at h
          | some rest =>
            rw [hr] at h
            simp only [Option.bind_some, Option.some.injEq] at h
            subst h
            obtain ⟨h1, h2⟩ := (ih rest).1 hr
            refine ⟨by simp [h1], ?_⟩
            intro e he
            rcases List.mem_cons.1 he with rfl | he
            · exact ⟨v, hv, rfl, ok⟩
            · exact h2 e he
        · exact absurd h (by simp)
    · rintro ⟨h1, h2⟩
      cases name with
      | nil => simp at h1
      | cons e t =>
        simp only [List.map_cons, List.cons.injEq] at h1
        obtain ⟨rfl, h1⟩ := h1
        obtain ⟨v, hv, he, ok⟩ := h2 e (by simp)
        have hr : buildName L subjects fs = some t := (ih t).2 ⟨h1, fun e' he' => h2 e' (List.mem_cons_of_mem _ he')⟩
        obtain ⟨e1, e2⟩ := e
        simp only at hv he ok ⊢
        subst he
        rw [hv, hr]
        simp [ok]

/-- Certificates (for values without zero bytes and at most 49710 days): a certificate that is made names exactly the
six given subject values, as subject and issuer, holds the given public key and its identifier, is a CA certificate,
is valid from now for the given number of days, and its signature verifies with the signer's public key under the
given hash; making it fails for other hashes, missing fields and keys that cannot sign; it is read back as it was
written, from buffers and files, and its public key too. -/
theorem C131_cert_partial (L : Ossl PK SK) (hL : Sound L) (pk sk : Pkey PK SK) (subjects : String → Option Bytes)
    (hz : ∀ f v, subjects f = some v → 0 ∉ v) (now days : ℕ) (hd : days ≤ 49710) (hash : Hash) :
    (∀ c, makeCert L pk sk subjects now days hash = some c →
      (hash = .sha256 ∨ hash = .sm3) ∧ c.alg = hash ∧
      c.tbs.subject.map (fun e => (e.1, some e.2)) =
        ["C", "ST", "L", "O", "OU", "CN"].map (fun f => (f, subjects f)) ∧
      c.tbs.issuer = c.tbs.subject ∧
      c.tbs.pk = L.public pk ∧ c.tbs.keyId = L.keyId (L.public pk) ∧ c.tbs.isCa = true ∧
      c.tbs.notBefore = now ∧ c.tbs.notAfter = now + days * 86400 ∧
      (∃ s, sk = .full s ∧ L.certVerify (L.pubOf s) hash c.tbs c.sig = true)) ∧
    (hash ≠ .sha256 → hash ≠ .sm3 → makeCert L pk sk subjects now days hash = none) ∧
    (∀ f ∈ ["C", "ST", "L", "O", "OU", "CN"], subjects f = none → makeCert L pk sk subjects now days hash = none) ∧
    (∀ p, sk = .pub p → makeCert L pk sk subjects now days hash = none) ∧
    (∀ (c : Cert PK) (fs : Fs) (path : String), L.certRead (L.certPem c) = some c → L.certPem c ≠ [] →
      (∃ b, exportCert L c = some b ∧ loadCert L b = some c ∧ loadCertKey L b = some (.pub c.tbs.pk)) ∧
      ∃ fs', exportCertFile L fs c path = some fs' ∧ loadCertFile L fs' path = some c ∧ ∀ q, q ≠ path → fs' q = fs q) := by
  have hmod : days * 86400 % 2 ^ 32 = days * 86400 := Nat.mod_eq_of_lt (by omega)
  refine ⟨?_, ?_, ?_, ?_, ?_⟩
  · intro c h
    unfold makeCert at h
    split at h
    · rename_i hh
      cases hn : buildName L subjects subjectFields with
      | none => rw [hn] at h; simp at h
      | some name =>
        cases sk with
        | pub p => rw [hn] at h; simp [secret] at h
        | full s =>
          rw [hn] at h
          simp only [Option.bind_eq_bind, Option.bind_some, secret, hmod] at h
          split at h
          · rename_i hl
            simp only [Option.some.injEq] at h
            subst h
            obtain ⟨h1, h2⟩ := (buildName_some L subjects _ _).1 hn
            refine ⟨hh, rfl, ?_, rfl, rfl, rfl, rfl, rfl, rfl, s, rfl, ?_⟩
            · simp only []
              have h3 : name.map (fun e => (e.1, some e.2)) = name.map (fun e => (e.1, subjects e.1)) := by
                apply List.map_congr_left
                intro e he
                obtain ⟨v, hv, he', _⟩ := h2 e he
                rw [hv, he', cStr_self (hz _ _ hv)]
              rw [h3, show (["C", "ST", "L", "O", "OU", "CN"] : List String) = name.map (·.1) from h1.symm, List.map_map]
              rfl
            · exact hL.certVerify s hash _ (by intro h0; rw [h0] at hl; simp at hl)
          · exact absurd h (by simp)
    · exact absurd h (by simp)
  · intro h1 h2
    simp [makeCert, h1, h2]
  · intro f hf hs
    unfold makeCert
    split
    · cases hn : buildName L subjects subjectFields with
      | none => rfl
      | some name =>
        exfalso
        obtain ⟨h1, h2⟩ := (buildName_some L subjects _ _).1 hn
        have : f ∈ name.map (·.1) := by rw [h1]; exact hf
        obtain ⟨e, he, rfl⟩ := List.mem_map.1 this
        obtain ⟨v, hv, _⟩ := h2 e he
        rw [hv] at hs; simp at hs
    · rfl
  · rintro p rfl
    unfold makeCert
    split
    · cases buildName L subjects subjectFields <;> rfl
    · rfl
  · intro c fs path hr hne
    have e : exportCert L c = some (L.certPem c) := bio_some hne
    refine ⟨⟨_, e, hr, by simp [loadCertKey, loadCert, hr]⟩, ?_⟩
    refine ⟨exportBuf fs (L.certPem c) path, by simp [exportCertFile, e], ?_, fun q hq => by simp [exportBuf, hq]⟩
    simp [loadCertFile, loadBuf, exportBuf, loadCert, hr]

/-! ### A library, and the violations -/

/-- A library that meets the requirements: the ciphertext shows key, randomness and text; its buffers are larger than
its outputs. -/
def toy : Ossl ℕ ℕ where
  pubOf s := s
  pubPem p := [1, p]
  secPem s := [2, s]
  pubDer p := [3, p]
  secDer s := [4, s]
  decode b := match b with
    | [1, p] => some (.pub p)
    | [2, s] => some (.full s)
    | [3, p] => some (.pub p)
    | [4, s] => some (.full s)
    | _ => none
  encMax _ n := n + 5
  encrypt p pad r m := some (p :: r :: (if pad = .oaep then 1 else 0) :: m)
  decMax _ n := n
  decrypt s pad c := match c with
    | p :: _ :: x :: m => if p = s ∧ x = (if pad = .oaep then 1 else 0) then some m else none
    | _ => none
  signMax _ := 2
  sign s _ _ d := some [s, d.sum]
  verify p _ _ d σ := if σ = [p, d.sum] then 1 else 0
  hash _ m := [m.sum]
  sm2Sign s _ r m := some [s + m.sum]
  sm2Verify p _ m σ := if σ = [p + m.sum] then 1 else 0
  nameOk _ _ := true
  keyId p := [p]
  certSign s _ t := [s, t.notAfter, t.pk]
  certVerify p _ t σ := σ == [p, t.notAfter, t.pk]
  certPem _ := [7]
  certRead _ := none

theorem toy_sound : Sound toy where
  pubPem p := ⟨rfl, by simp [toy]⟩
  secPem p := ⟨rfl, by simp [toy]⟩
  pubDer p := ⟨rfl, by simp [toy]⟩
  secDer p := ⟨rfl, by simp [toy]⟩
  encLen := by intro p pad r m c h; simp only [toy, Option.some.injEq] at h; subst h; simp [toy]
  decEnc := by intro s pad r m c h; simp only [toy, Option.some.injEq] at h; subst h; simp [toy]
  decLen := by
    intro s pad c m h
    simp only [toy] at h ⊢
    generalize (if pad = .oaep then 1 else 0) = z at h
    split at h
    · split at h
      · simp only [Option.some.injEq] at h; subst h; simp; omega
      · exact absurd h (by simp)
    · exact absurd h (by simp)
  signLen := by intro s pad h d σ h; simp only [toy, Option.some.injEq] at h; subst h; rfl
  verifySign := by intro s pad h d σ h; simp only [toy, Option.some.injEq] at h; subst h; simp [toy]
  sm2Len := by intro s i r m σ h; simp only [toy, Option.some.injEq] at h; subst h; simp [toy]
  sm2Verify := by intro s i r m σ h; simp only [toy, Option.some.injEq] at h; subst h; simp [toy]
  certVerify := by intro s h t _; simp [toy]

/-- The same subject values for every field. -/
def sameName (v : Bytes) : String → Option Bytes := fun _ => some v

/-- Certificates for 49711 days or more: the number of seconds wraps around, the certificate expires after less than a
day. Every certificate carries the version number 3, which stands for v4; version 3 is the number 2. -/
theorem C131_cert_violated :
    (∃ c, makeCert toy (.pub 5) (.full 5) (sameName [65]) 1000 49711 .sha256 = some c ∧
      c.tbs.notAfter < c.tbs.notBefore + 86400) ∧
    (∀ (L : Ossl PK SK) pk sk subjects now days hash c, makeCert L pk sk subjects now days hash = some c →
      c.tbs.version ≠ 2) := by
  refine ⟨⟨_, rfl, ?_⟩, ?_⟩
  · decide
  · intro L pk sk subjects now days hash c h
    unfold makeCert at h
    split at h
    · cases hn : buildName L subjects subjectFields with
      | none => rw [hn] at h; simp at h
      | some name =>
        cases hs : secret sk with
        | none => rw [hn, hs] at h; simp at h
        | some s =>
          rw [hn, hs] at h
          simp only [Option.bind_eq_bind, Option.bind_some] at h
          split at h
          · simp only [Option.some.injEq] at h; subst h; simp
          · exact absurd h (by simp)
    · exact absurd h (by simp)

/-- Subject values are cut at the first zero byte: two different subjects get the same certificate; and a public key
that does not belong to the signing key is certified, giving a self-signed certificate that does not verify. -/
theorem C131_cert_subject_violated :
    makeCert toy (.pub 5) (.full 5) (sameName [65, 0, 66]) 0 1 .sha256
      = makeCert toy (.pub 5) (.full 5) (sameName [65, 0, 67]) 0 1 .sha256 ∧
    (∃ c, makeCert toy (.pub 5) (.full 5) (sameName [65, 0, 66]) 0 1 .sha256 = some c) ∧
    ∃ c, makeCert toy (.pub 6) (.full 5) (sameName [65]) 0 1 .sha256 = some c ∧
      toy.certVerify c.tbs.pk c.alg c.tbs c.sig = false :=
  ⟨rfl, ⟨_, rfl⟩, ⟨_, rfl, by decide⟩⟩

/-! ### Non-vacuity -/

example : rsaEncrypt toy (.pub 7) 3 [1, 2] = some [7, 3, 1, 1, 2] ∧ rsaDecrypt toy (.full 7) [7, 3, 1, 1, 2] = some [1, 2] ∧
    rsaDecrypt toy (.full 8) [7, 3, 1, 1, 2] = none := by decide
example : rsaSign toy (.full 7) [1, 2] = some [7, 3] ∧ rsaVerify toy (.pub 7) [1, 2] [7, 3] = some true ∧
    rsaVerify toy (.pub 7) [1, 3] [7, 3] = some false := by decide
example : BelongsTo toy (.pub 7) 7 ∧ toy.pubPem 7 ≠ toy.pubDer 7 ∧ toy.secPem 7 ≠ toy.secDer 7 :=
  ⟨.inl rfl, by decide, by decide⟩
example : ∃ c, makeCert toy (.pub 5) (.full 5) (sameName [65]) 1000 90 .sm3 = some c ∧
    c.tbs.notAfter = 1000 + 90 * 86400 := ⟨_, rfl, by decide⟩

end Yacl.Pkey
