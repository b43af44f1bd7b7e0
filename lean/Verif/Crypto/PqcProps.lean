/-
C132: post-quantum key encapsulation and signatures.
-/
import Verif.Crypto.Pqc
import Mathlib.Data.List.Basic

namespace Yacl.Pqc

/-! ### Specification: what is required of liboqs -/

/-- Sizes are as announced, and the holder of the secret key finds the encapsulated secret. -/
structure KemSound (A : KemAlg) : Prop where
  keyLen : ∀ r pk sk, A.keypair r = some (pk, sk) → pk.length = A.pkLen ∧ sk.length = A.skLen
  encLen : ∀ r pk ct ss, A.encaps r pk = some (ct, ss) → ct.length = A.ctLen ∧ ss.length = A.ssLen
  decLen : ∀ sk ct ss, A.decaps sk ct = some ss → ss.length = A.ssLen
  correct : ∀ r pk sk r' ct ss, A.keypair r = some (pk, sk) → A.encaps r' pk = some (ct, ss) → A.decaps sk ct = some ss

/-- Sizes are as announced, signatures at most, and honest signatures are valid. -/
structure SigSound (A : SigAlg) : Prop where
  keyLen : ∀ r pk sk, A.keypair r = some (pk, sk) → pk.length = A.pkLen ∧ sk.length = A.skLen
  sigLen : ∀ r sk m σ, A.sign r sk m = some σ → σ.length ≤ A.sigLen
  ctxLen : ∀ r sk m c σ, A.signCtx r sk m c = some σ → σ.length ≤ A.sigLen
  correct : ∀ r pk sk r' m σ, A.keypair r = some (pk, sk) → A.sign r' sk m = some σ → A.verify pk m σ = true
  correctCtx : ∀ r pk sk r' m c σ, A.keypair r = some (pk, sk) → A.signCtx r' sk m c = some σ →
    A.verifyCtx pk m σ c = true

/-! ### Helpers -/

theorem readPtr_self {n : ℕ} {v : Bytes} (h : v.length = n) : readPtr n v = some v := by
  simp [readPtr, ← h]

theorem writeBuf_self {n : ℕ} {r : Bytes} (h : r.length = n) : writeBuf n r = r := by
  simp [writeBuf, h]

theorem ofStatus_ok {α : Type} {x : Option α} {a : α} : ofStatus x = .ok a ↔ x = some a := by
  cases x <;> simp [ofStatus]

theorem ofStatus_ub {α : Type} {x : Option α} : ofStatus x ≠ .ub := by
  cases x <;> simp [ofStatus]

theorem take_writeBuf (n : ℕ) (r : Bytes) : (writeBuf n r).take r.length = r := by
  simp [writeBuf]

/-! ### C132 -/

/-- The algorithms on offer: exactly the enabled names can be constructed; the lists hold every name in order and the
enabled ones among them, and numbers out of range are refused. -/
theorem C132_names {Alg : Type} (R : Registry Alg) :
    (∀ name, (create R name = none ↔ R.enabled name = false) ∧
      (R.enabled name = true → create R name = some (R.make name))) ∧
    allNames R = some R.names ∧ enabledNames R = some (R.names.filter R.enabled) ∧
    (∀ i, algName R i = R.names[i]?) := by
  have ha : ∀ i, algName R i = R.names[i]? := by
    intro i
    unfold algName
    split
    · rename_i h; exact (List.getElem?_eq_none h).symm
    · rfl
  have hall : ∀ l : List String, (List.range l.length).mapM (fun i => l[i]?) = some l := by
    intro l
    have key : ∀ is : List ℕ, (∀ i ∈ is, i < l.length) →
        is.mapM (fun i => l[i]?) = some (is.map fun i => l.getD i "") := by
      intro is
      induction is with
      | nil => intro _; rfl
      | cons i t ih =>
        intro h
        have hi := h i (by simp)
        rw [List.mapM_cons, ih fun j hj => h j (List.mem_cons_of_mem _ hj), List.getElem?_eq_getElem hi]
        simp [List.getD, List.getElem?_eq_getElem hi]
    rw [key _ fun i hi => List.mem_range.1 hi]
    congr 1
    apply List.ext_getElem
    · simp
    · intro i h1 h2; simp [List.getD, List.getElem?_eq_getElem h2]
  have hn : allNames R = some R.names := by
    unfold allNames
    rw [show algName R = fun i => R.names[i]? from funext ha]
    exact hall _
  refine ⟨?_, hn, by simp [enabledNames, hn], ha⟩
  intro name
  constructor
  · by_cases h : R.enabled name <;> simp [create, h]
  · intro h; simp [create, h]

/-- Key encapsulation: for every key pair made by `GenKeyPair`, what `Encapsulate` returns is found again by
`Decapsulate`; sizes are as announced; inputs of any other size are refused with an exception, and no input whatever
makes the library read outside it. -/
theorem C132_kem (A : KemAlg) (hA : KemSound A) (r r' : ℕ) (pk sk ct ss : Bytes) :
    (kemGen A r = .ok (pk, sk) → pk.length = A.pkLen ∧ sk.length = A.skLen) ∧
    (encapsulate A r' pk = .ok (ct, ss) → ct.length = A.ctLen ∧ ss.length = A.ssLen) ∧
    (kemGen A r = .ok (pk, sk) → encapsulate A r' pk = .ok (ct, ss) → decapsulate A sk ct = .ok ss) ∧
    (pk.length ≠ A.pkLen → encapsulate A r' pk = .throw) ∧
    (sk.length ≠ A.skLen ∨ ct.length ≠ A.ctLen → decapsulate A sk ct = .throw) ∧
    encapsulate A r' pk ≠ .ub ∧ decapsulate A sk ct ≠ .ub := by
  have hgen : ∀ pk sk, kemGen A r = .ok (pk, sk) → A.keypair r = some (pk, sk) := by
    intro pk sk h
    simp only [kemGen, ofStatus_ok, Option.map_eq_some_iff] at h
    obtain ⟨⟨p, s⟩, h1, h2⟩ := h
    obtain ⟨l1, l2⟩ := hA.keyLen _ _ _ h1
    simp only [Prod.mk.injEq, writeBuf_self l1, writeBuf_self l2] at h2
    obtain ⟨rfl, rfl⟩ := h2
    exact h1
  have henc : encapsulate A r' pk = .ok (ct, ss) → pk.length = A.pkLen ∧ A.encaps r' pk = some (ct, ss) := by
    intro h
    unfold encapsulate at h
    split at h
    · rename_i hl
      rw [readPtr_self hl] at h
      simp only [ofStatus_ok, Option.map_eq_some_iff] at h
      obtain ⟨⟨c, s⟩, h1, h2⟩ := h
      obtain ⟨l1, l2⟩ := hA.encLen _ _ _ _ h1
      simp only [Prod.mk.injEq, writeBuf_self l1, writeBuf_self l2] at h2
      obtain ⟨rfl, rfl⟩ := h2
      exact ⟨hl, h1⟩
    · simp at h
  refine ⟨fun h => hA.keyLen _ _ _ (hgen _ _ h), fun h => hA.encLen _ _ _ _ (henc h).2, ?_, ?_, ?_, ?_, ?_⟩
  · intro h1 h2
    have g := hgen _ _ h1
    have e := (henc h2).2
    have l1 := (hA.keyLen _ _ _ g).2
    have l2 := (hA.encLen _ _ _ _ e).1
    have d := hA.correct _ _ _ _ _ _ g e
    simp [decapsulate, l1, l2, readPtr_self l1, readPtr_self l2, d, ofStatus, writeBuf_self (hA.decLen _ _ _ d)]
  · intro h; simp [encapsulate, h]
  · intro h
    unfold decapsulate
    by_cases h1 : sk.length = A.skLen
    · rcases h with h | h
      · exact absurd h1 h
      · simp [h1, h]
    · simp [h1]
  · unfold encapsulate
    split
    · rename_i hl; rw [readPtr_self hl]; exact ofStatus_ub
    · simp
  · unfold decapsulate
    split
    · rename_i h1
      split
      · rename_i h2
        rw [readPtr_self h1, readPtr_self h2]; exact ofStatus_ub
      · simp
    · simp

/-- Signatures, for secret keys of the right size: what `Sign` returns for a generated key pair is accepted by
`Verify`, with and without context; `Verify` answers what the library says, never reads outside its inputs, and
refuses keys of the wrong size and oversized signatures; signing with a context refuses empty contexts and secret keys
of the wrong size. -/
theorem C132_sig_partial (A : SigAlg) (hA : SigSound A) (r r' : ℕ) (pk sk m c σ : Bytes) :
    (sigGen A r = .ok (pk, sk) → pk.length = A.pkLen ∧ sk.length = A.skLen) ∧
    (sigGen A r = .ok (pk, sk) → sign A r' sk m = .ok σ → verify A pk m σ = .ok true) ∧
    (sigGen A r = .ok (pk, sk) → signCtx A r' sk m c = .ok σ → verifyCtx A pk m σ c = .ok true) ∧
    (sk.length = A.skLen → (sign A r' sk m = .ok σ ↔ A.sign r' sk m = some σ) ∧ sign A r' sk m ≠ .ub) ∧
    (signCtx A r' sk m c = .ok σ ↔ sk.length = A.skLen ∧ c ≠ [] ∧ A.signCtx r' sk m c = some σ) ∧
    signCtx A r' sk m c ≠ .ub ∧
    (verify A pk m σ = if pk.length = A.pkLen ∧ σ.length ≤ A.sigLen then .ok (A.verify pk m σ) else .throw) ∧
    (verifyCtx A pk m σ c = if pk.length = A.pkLen ∧ σ.length ≤ A.sigLen then .ok (A.verifyCtx pk m σ c) else .throw) := by
  have hgen : sigGen A r = .ok (pk, sk) → A.keypair r = some (pk, sk) := by
    intro h
    simp only [sigGen, ofStatus_ok, Option.map_eq_some_iff] at h
    obtain ⟨⟨p, s⟩, h1, h2⟩ := h
    obtain ⟨l1, l2⟩ := hA.keyLen _ _ _ h1
    simp only [Prod.mk.injEq, writeBuf_self l1, writeBuf_self l2] at h2
    obtain ⟨rfl, rfl⟩ := h2
    exact h1
  have hs : sk.length = A.skLen → sign A r' sk m = ofStatus (A.sign r' sk m) := by
    intro h
    simp only [sign, readPtr_self h, take_writeBuf, Option.map_id']
  have hc : signCtx A r' sk m c = if sk.length = A.skLen then if c.length > 0 then ofStatus (A.signCtx r' sk m c) else .throw
      else .throw := by
    unfold signCtx
    split
    · rename_i h
      simp only [readPtr_self h, take_writeBuf, Option.map_id']
    · rfl
  have hv : verify A pk m σ = if pk.length = A.pkLen ∧ σ.length ≤ A.sigLen then .ok (A.verify pk m σ) else .throw := by
    unfold verify
    by_cases h1 : pk.length = A.pkLen
    · by_cases h2 : σ.length ≤ A.sigLen
      · simp [h1, h2, readPtr_self h1]
      · simp [h2]
    · simp [h1]
  have hvc : verifyCtx A pk m σ c =
      if pk.length = A.pkLen ∧ σ.length ≤ A.sigLen then .ok (A.verifyCtx pk m σ c) else .throw := by
    unfold verifyCtx
    by_cases h1 : pk.length = A.pkLen
    · by_cases h2 : σ.length ≤ A.sigLen
      · simp [h1, h2, readPtr_self h1]
      · simp [h2]
    · simp [h1]
  have hci : signCtx A r' sk m c = .ok σ ↔ sk.length = A.skLen ∧ c ≠ [] ∧ A.signCtx r' sk m c = some σ := by
    rw [hc]
    by_cases h1 : sk.length = A.skLen
    · by_cases h2 : c.length > 0
      · simp [h1, h2, ofStatus_ok, List.length_pos_iff.1 h2]
      · have : c = [] := by
          cases c with
          | nil => rfl
          | cons x t => simp at h2
        simp [this]
    · simp [h1]
  refine ⟨fun h => hA.keyLen _ _ _ (hgen h), ?_, ?_, ?_, hci, ?_, hv, hvc⟩
  · intro g h
    have k := hgen g
    obtain ⟨l1, l2⟩ := hA.keyLen _ _ _ k
    rw [hs l2, ofStatus_ok] at h
    rw [hv, if_pos ⟨l1, hA.sigLen _ _ _ _ h⟩, hA.correct _ _ _ _ _ _ k h]
  · intro g h
    have k := hgen g
    obtain ⟨l1, -⟩ := hA.keyLen _ _ _ k
    obtain ⟨-, -, h⟩ := hci.1 h
    rw [hvc, if_pos ⟨l1, hA.ctxLen _ _ _ _ _ h⟩, hA.correctCtx _ _ _ _ _ _ _ k h]
  · intro h
    rw [hs h]
    exact ⟨ofStatus_ok, ofStatus_ub⟩
  · rw [hc]
    split
    · split
      · exact ofStatus_ub
      · simp
    · simp

/-- `Sign` does not check the size of the secret key: with any algorithm and any shorter key it reads outside the key,
and a longer one is used as if it were its own beginning. -/
theorem C132_sign_key_size_violated (A : SigAlg) (r : ℕ) (sk m : Bytes) :
    (sk.length < A.skLen → sign A r sk m = .ub) ∧
    (A.skLen < sk.length → sign A r sk m = sign A r (sk.take A.skLen) m) := by
  constructor
  · intro h
    simp [sign, readPtr, Nat.not_le.2 h]
  · intro h
    have h1 : A.skLen ≤ sk.length := by omega
    simp [sign, readPtr, h1, List.take_take]

/-! ### Non-vacuity -/

/-- A small key encapsulation that meets the requirements. -/
def toyKem : KemAlg where
  pkLen := 1
  skLen := 2
  ctLen := 2
  ssLen := 1
  keypair r := some ([r], [r, 0])
  encaps r pk := match pk with
    | [p] => some ([p, r], [p + r])
    | _ => none
  decaps sk ct := match sk, ct with
    | [s, _], [_, r] => some [s + r]
    | _, _ => none

theorem toyKem_sound : KemSound toyKem where
  keyLen := by intro r pk sk h; simp [toyKem] at h; obtain ⟨rfl, rfl⟩ := h; exact ⟨rfl, rfl⟩
  encLen := by
    intro r pk ct ss h
    simp only [toyKem] at h
    split at h
    · simp only [Option.some.injEq, Prod.mk.injEq] at h; obtain ⟨rfl, rfl⟩ := h; exact ⟨rfl, rfl⟩
    · exact absurd h (by simp)
  decLen := by
    intro sk ct ss h
    simp only [toyKem] at h
    split at h
    · simp only [Option.some.injEq] at h; subst h; rfl
    · exact absurd h (by simp)
  correct := by
    intro r pk sk r' ct ss h1 h2
    simp [toyKem] at h1; obtain ⟨rfl, rfl⟩ := h1
    simp [toyKem] at h2; obtain ⟨rfl, rfl⟩ := h2
    simp [toyKem]

/-- A small signature scheme that meets the requirements; its signatures are shorter than announced. -/
def toySig : SigAlg where
  pkLen := 1
  skLen := 2
  sigLen := 4
  keypair r := some ([r], [r, 0])
  sign _ sk m := some [sk.sum + m.sum]
  verify pk m σ := σ == [pk.sum + m.sum]
  signCtx _ sk m c := some [sk.sum + m.sum, c.sum]
  verifyCtx pk m σ c := σ == [pk.sum + m.sum, c.sum]

theorem toySig_sound : SigSound toySig where
  keyLen := by intro r pk sk h; simp [toySig] at h; obtain ⟨rfl, rfl⟩ := h; exact ⟨rfl, rfl⟩
  sigLen := by intro r sk m σ h; simp [toySig] at h; subst h; simp [toySig]
  ctxLen := by intro r sk m c σ h; simp [toySig] at h; subst h; simp [toySig]
  correct := by
    intro r pk sk r' m σ h1 h2
    simp [toySig] at h1 h2; obtain ⟨rfl, rfl⟩ := h1; subst h2; simp [toySig]
  correctCtx := by
    intro r pk sk r' m c σ h1 h2
    simp [toySig] at h1 h2; obtain ⟨rfl, rfl⟩ := h1; subst h2; simp [toySig]

example : kemGen toyKem 7 = .ok ([7], [7, 0]) ∧ encapsulate toyKem 3 [7] = .ok ([7, 3], [10]) ∧
    decapsulate toyKem [7, 0] [7, 3] = .ok [10] ∧ decapsulate toyKem [7] [7, 3] = .throw := by decide
example : sigGen toySig 7 = .ok ([7], [7, 0]) ∧ sign toySig 0 [7, 0] [1] = .ok [8] ∧ verify toySig [7] [1] [8] = .ok true ∧
    sign toySig 0 [7] [1] = .ub := by decide

end Yacl.Pqc
