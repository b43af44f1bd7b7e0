/-
The native random generator "GM-DRBG" (yacl/crypto/rand/drbg/native_factory.{h,cc}), the
entropy sources (yacl/crypto/rand/entropy_source/*) and the seeding of OpenSSL's
generators through yacl's provider (yacl/crypto/ossl_provider/rand_impl.h).

The block cipher SM4 is an arbitrary function of key and block, the hash Blake3 an
arbitrary function of its input.  Memory errors are the outcome `ub`; an exception leaves
the object behind as it was when it was thrown, and the caller may go on using it.
-/
import Mathlib.Data.Nat.Digits.Lemmas
import Mathlib.Data.List.Basic

namespace Yacl.Drbg.Gm

abbrev Bytes := List Nat

/-- What a call does to the object. -/
inductive Res (S α : Type) where
  | ok (st : S) (a : α)
  | throws (st : S)
  | ub

/-! ### entropy sources -/

/-- Number of bytes `RdSeedEntropySource::GetEntropy` returns on Intel
    (rdseed_factory.cc L56): arithmetic modulo 2^32. -/
def intelBytes (bits : Nat) : Nat := ((bits * 5 + 2) % 2 ^ 32 / 3 + 7) / 8

/-- The same on AMD (rdseed_factory.cc L92). -/
def amdBytes (bits : Nat) : Nat := ((bits * 10 + 2) % 2 ^ 32 / 3 + 7) / 8

/-- `UrandomEntropySource::GetEntropy` (urandom_factory.cc L24-45) takes its argument as
    a number of bytes. -/
def urandomBytes (n : Nat) : Nat := n

/-! ### the SM4 generator -/

/-- What OpenSSL does when `EVP_CipherUpdate` gets a null pointer for the output length
    (native_factory.cc L204 passes one and does not look at the result).  OpenSSL 3, which
    the project pins (MODULE.bazel L70), refuses before writing anything; a library that
    went on would write `inl` bytes. -/
inductive NullLen | refuses | writes

/-- `InteralWorkingState` (native_factory.h L74-81) and the key with which `cipher_ctx_`
    was initialised last. -/
structure St where
  key : Bytes
  v : Nat
  ctr : Nat
  ctxKey : Bytes

/-- `reseed_interval_ctr` (native_factory.h L78). -/
def interval : Nat := 2 ^ 10

/-- The bytes of a `uint128_t` in memory (native_factory.cc L111, L295). -/
def le16 (n : Nat) : Bytes := (List.range 16).map fun i => n / 256 ^ i % 256

/-- A `uint32_t` written most significant byte first (native_factory.cc L140-148). -/
def be4 (n : Nat) : Bytes := [n / 2 ^ 24 % 256, n / 2 ^ 16 % 256, n / 2 ^ 8 % 256, n % 256]

/-- Byte-wise exclusive or (native_factory.cc L115-118, L237-239). -/
def xor (a b : Bytes) : Bytes := List.zipWith (· ^^^ ·) a b

variable (E : Bytes → Bytes → Bytes)

/-- `Sm4Drbg::cbc_mac` (native_factory.cc L213-246). -/
def cbcMac (key data : Bytes) : Bytes :=
  (List.range (data.length / 16)).foldl
    (fun chain idx => E key (xor ((data.drop (idx * 16)).take 16) chain)) (List.replicate 16 0)

/-- Step (h) of `derive` (native_factory.cc L171-186); every round adds a block, so three
    rounds are enough for `fuel` 48. -/
def macLoop (key s : Bytes) : Nat → Nat → Bytes → Bytes
  | 0, _, temp => temp
  | fuel + 1, i, temp =>
    if temp.length < 16 + 32 then
      macLoop key s fuel (i + 1) (temp ++ cbcMac E key (be4 i ++ List.replicate 28 0 ++ s))
    else temp

/-- The constant key of step (g) (native_factory.cc L168), as it lies in memory. -/
def deriveKey : Bytes := [15, 14, 13, 12, 11, 10, 9, 8, 7, 6, 5, 4, 3, 2, 1, 0]

/-- The buffer `s` of `derive` after step (c) (native_factory.cc L138-154), with
    `out_len` 32: the mark is put 32 bytes after the start of the input, whatever its
    length, and the buffer is cut to 32 bytes. -/
def deriveInput (buf : Bytes) : Option Bytes :=
  let s := be4 buf.length ++ be4 32 ++ buf ++ [0]
  if 8 + 32 < s.length then
    some ((s.set (8 + 32) 0x80 ++ List.replicate 32 0).take 32)
  else none

/-- `Sm4Drbg::derive` with `out_len` 32 (native_factory.cc L126-211): the derived bytes and
    the key left in `cipher_ctx_`.  `none` is a write out of bounds.  The blocks of step
    (l) are appended as they are after the call that gets a null pointer. -/
def derive (lib : NullLen) (buf : Bytes) : Option (Bytes × Bytes) :=
  (deriveInput buf).bind fun s =>
    let temp := macLoop E deriveKey s 48 0 []
    let k := temp.take 16
    match lib with
    | .refuses => some (List.replicate 16 0 ++ List.replicate 16 0, k)
    | .writes => none

/-- `Sm4Drbg::rng_update` (native_factory.cc L96-124); `none` when fewer than 32 bytes of
    `derived` can be read. -/
def rngUpdate (derived : Bytes) (st : St) : Option St :=
  if derived.length < 32 then none
  else
    let temp := E st.key (le16 st.v) ++ E st.key (le16 ((st.v + 1) % 2 ^ 128))
    let temp := xor temp (derived.take 32)
    some { st with key := temp.take 16, v := Nat.ofDigits 256 ((temp.drop 16).take 16), ctxKey := st.key }

/-- `Sm4Drbg::Instantiate` (native_factory.cc L64-94); `H` is `Blake3_128`. -/
def instantiate (H : Bytes → Bytes) (lib : NullLen) (entropy nonce personal : Bytes) :
    Option St :=
  if entropy.length < 32 then none
  else
    let mixed := xor (entropy.take 32) (H nonce ++ H personal) ++ entropy.drop 32
    (derive E lib mixed).bind fun d =>
      (rngUpdate E d.1 { key := List.replicate 16 0, v := 0, ctr := 1, ctxKey := d.2 }).map
        fun st => { st with ctr := 1 }

/-- `Sm4Drbg::ReSeed` (native_factory.cc L248-270): the copy of the additional input starts
    at the end of the enlarged buffer. -/
def reseed (lib : NullLen) (entropy add : Bytes) (st : St) : Res St Unit :=
  if add ≠ [] then .ub
  else
    match derive E lib entropy with
    | none => .ub
    | some d =>
      let st := { st with ctxKey := d.2 }
      if entropy.length = 32 then
        match rngUpdate E d.1 st with
        | none => .ub
        | some st => .ok { st with ctr := 1 } ()
      else .throws st

/-- The part of `Sm4Drbg::Generate` after the check of the counter
    (native_factory.cc L279-307). -/
def generateBody (lib : NullLen) (len : Nat) (add : Bytes) (st : St) : Res St Bytes :=
  let pre : Option St :=
    if add ≠ [] then
      (derive E lib add).bind fun d => rngUpdate E d.1 { st with ctxKey := d.2 }
    else some st
  match pre with
  | none => .ub
  | some st =>
    let st := { st with ctr := st.ctr + 1, v := (st.v + 1) % 2 ^ 128 }
    let block := E st.ctxKey (le16 st.v)
    match rngUpdate E (if add ≠ [] then add else List.replicate 32 0) st with
    | none => .ub
    | some st' => .ok st' (block.take len)

/-- `Sm4Drbg::Generate` (native_factory.cc L272-308). -/
def generate (lib : NullLen) (entropy : Bytes) (len : Nat) (add : Bytes) (st : St) : Res St Bytes :=
  if 16 < len then .throws st
  else if interval < st.ctr then
    match reseed E lib entropy add st with
    | .ub => .ub
    | .throws st => .throws st
    | .ok st _ => generateBody E lib len add st
  else generateBody E lib len add st

/-- The calls of the `Drbg` interface (native_factory.cc L46-52). -/
inductive Call | fill (len : Nat) | reSeed

/-- One call; `entropy` is what the entropy source answers if it is asked.  The output is
    the bytes filled in, or `none` for an exception; the result `none` is undefined
    behaviour. -/
def step (lib : NullLen) (entropy : Bytes) (c : Call) (st : St) : Option (St × Option Bytes) :=
  match c with
  | .fill len =>
    match generate E lib entropy len [] st with
    | .ub => none
    | .throws st => some (st, none)
    | .ok st b => some (st, some b)
  | .reSeed =>
    match reseed E lib entropy [] st with
    | .ub => none
    | .throws st => some (st, none)
    | .ok st _ => some (st, some [])

/-- A history of calls on an object; the `i`-th call gets the `i`-th answer of the entropy
    source. -/
def runFrom (lib : NullLen) : List (Call × Bytes) → St → Option (St × List (Option Bytes))
  | [], st => some (st, [])
  | (c, e) :: rest, st =>
    (step E lib e c st).bind fun r => (runFrom lib rest r.1).map fun q => (q.1, r.2 :: q.2)

/-- A generator is built (native_factory.cc L37-44, L64-94), then used. -/
def life (H : Bytes → Bytes) (lib : NullLen) (entropy nonce : Bytes) (calls : List (Call × Bytes)) :
    Option (St × List (Option Bytes)) :=
  (instantiate E H lib entropy nonce []).bind (runFrom E lib calls)

/-! ### seeding OpenSSL's generators -/

/-- `yacl_rand_ctx_get_seed` (rand_impl.h L224-254): `mem` is what the fresh buffer of
    `min_len` bytes holds; the request to the entropy source (`source`) is commented
    out. -/
def getSeed (_source : Nat → Bytes) (mem adin : Bytes) : Bytes :=
  (List.range adin.length).foldl
    (fun out i => out.set (i % mem.length) (out.getD (i % mem.length) 0 ^^^ adin.getD i 0)) mem

/-- `yacl_rand_ctx_generate` (rand_impl.h L135-158): the source is asked for `outlen` and
    must answer with `outlen` bytes, else an exception (`none`). -/
def providerGenerate (source : Nat → Bytes) (outlen : Nat) : Option Bytes :=
  if (source outlen).length = outlen then some (source outlen) else none

/-! ### Properties -/

variable {E}

theorem deriveInput_isSome (buf : Bytes) : (deriveInput buf).isSome = decide (32 ≤ buf.length) := by
  unfold deriveInput be4
  by_cases h : 32 ≤ buf.length
  · rw [if_pos (by simp; omega)]; simp [h]
  · rw [if_neg (by simp; omega)]; simp [h]

/-- C111 (a): with a library that refuses a null length, deriving gives 32 zero bytes for
    every input of at least 32 bytes; with one that does not, it overruns a buffer;
    inputs of fewer than 32 bytes overrun one in any case. -/
theorem C111_derive_violated (buf : Bytes) :
    (32 ≤ buf.length → ∃ k, derive E .refuses buf = some (List.replicate 32 0, k)) ∧
    derive E .writes buf = none ∧ (∀ lib, buf.length < 32 → derive E lib buf = none) := by
  have hs := deriveInput_isSome buf
  refine ⟨fun h => ?_, ?_, fun lib h => ?_⟩
  · simp only [h, decide_true] at hs
    obtain ⟨s, hs⟩ := Option.isSome_iff_exists.1 hs
    exact ⟨_, by simp only [derive, hs]; rfl⟩
  · unfold derive
    cases deriveInput buf <;> rfl
  · have : ¬ 32 ≤ buf.length := by omega
    simp only [this, decide_false] at hs
    have : deriveInput buf = none := by
      cases hd : deriveInput buf with
      | none => rfl
      | some s => rw [hd] at hs; simp at hs
    simp [derive, this]

/-- C111 (b): the key that `derive` computes looks at the length and the first 24 bytes of
    its input only (the buffer is cut to 32 bytes, of which 8 are lengths). -/
theorem C111_truncated_violated (lib : NullLen) (a b : Bytes) (hl : a.length = b.length)
    (ht : a.take 24 = b.take 24) : derive E lib a = derive E lib b := by
  have : deriveInput a = deriveInput b := by
    unfold deriveInput
    have e : ∀ x : Bytes, (be4 x.length ++ be4 32 ++ x ++ [0]).length = x.length + 9 := by
      intro x; simp [be4]
    dsimp only
    rw [e, e, hl]
    by_cases h : 8 + 32 < b.length + 9
    · rw [if_pos h, if_pos h]
      congr 1
      have hcut : ∀ x : Bytes, 32 ≤ x.length →
          ((be4 x.length ++ be4 32 ++ x ++ [0]).set (8 + 32) 0x80 ++ List.replicate 32 0).take 32
            = be4 x.length ++ be4 32 ++ x.take 24 := by
        intro x hx
        rw [List.take_append_of_le_length (by simp [be4]; omega), List.take_set,
          List.set_eq_of_length_le (by simp [be4]; omega)]
        rw [List.append_assoc (be4 x.length ++ be4 32) x [0], List.take_append,
          List.take_of_length_le (by simp [be4])]
        congr 1
        rw [show 32 - (be4 x.length ++ be4 32).length = 24 by simp [be4],
          List.take_append_of_le_length (by omega)]
      rw [hcut b (by omega), ← hl, hcut a (by omega), ht]
    · rw [if_neg h, if_neg h]
  unfold derive
  rw [this]

/-- Two objects that differ at most in the key of the cipher context, and there only if the
    next output needs a reseed first. -/
def Alike (a b : St) : Prop :=
  a.key = b.key ∧ a.v = b.v ∧ a.ctr = b.ctr

theorem rngUpdate_alike {a b : St} (h : Alike a b) (d : Bytes) (hd : 32 ≤ d.length) :
    ∃ c c', rngUpdate E d a = some c ∧ rngUpdate E d b = some c' ∧ Alike c c' ∧ c.ctxKey = c'.ctxKey := by
  obtain ⟨h1, h2, h3⟩ := h
  unfold rngUpdate
  rw [if_neg (by omega), if_neg (by omega)]
  exact ⟨_, _, rfl, rfl, ⟨by simp [h1, h2], by simp [h1, h2], h3⟩, h1⟩

theorem zeros32 : 32 ≤ (List.replicate 32 0 : Bytes).length := by simp

theorem reseed_alike {a b : St} (h : Alike a b) {e e' : Bytes} (he : 32 ≤ e.length)
    (hl : e.length = e'.length) :
    (∃ c c', reseed E .refuses e [] a = .ok c () ∧ reseed E .refuses e' [] b = .ok c' () ∧
      Alike c c' ∧ c.ctxKey = c'.ctxKey ∧ c.ctr = 1) ∨
    (∃ c c', reseed E .refuses e [] a = .throws c ∧ reseed E .refuses e' [] b = .throws c' ∧
      Alike c c' ∧ c.ctr = a.ctr) := by
  obtain ⟨k, hk⟩ := (C111_derive_violated (E := E) e).1 he
  obtain ⟨k', hk'⟩ := (C111_derive_violated (E := E) e').1 (by omega)
  simp only [reseed, hk, hk', ne_eq, not_true_eq_false, if_false]
  by_cases h32 : e.length = 32
  · left
    have h' : e'.length = 32 := by omega
    obtain ⟨c, c', hc, hc', hA, hX⟩ := rngUpdate_alike (E := E)
      (a := { a with ctxKey := k }) (b := { b with ctxKey := k' }) h _ zeros32
    rw [if_pos h32, if_pos h']
    simp only [hc, hc']
    exact ⟨_, _, rfl, rfl, ⟨hA.1, hA.2.1, rfl⟩, hX, rfl⟩
  · right
    have h' : ¬ e'.length = 32 := by omega
    rw [if_neg h32, if_neg h']
    exact ⟨_, _, rfl, rfl, h, rfl⟩

theorem body_alike {a b : St} (h : Alike a b) (len : Nat) :
    ∃ c c' o o', generateBody E .refuses len [] a = .ok c o ∧ generateBody E .refuses len [] b = .ok c' o' ∧
      Alike c c' ∧ c.ctxKey = c'.ctxKey ∧ (a.ctxKey = b.ctxKey → o = o') ∧ c.ctr = a.ctr + 1 := by
  obtain ⟨h1, h2, h3⟩ := h
  obtain ⟨c, c', hc, hc', hA, hX⟩ := rngUpdate_alike (E := E)
    (a := { a with ctr := a.ctr + 1, v := (a.v + 1) % 2 ^ 128 })
    (b := { b with ctr := b.ctr + 1, v := (b.v + 1) % 2 ^ 128 })
    ⟨h1, by simp [h2], by simp [h3]⟩ _ zeros32
  simp only [generateBody, ne_eq, not_true_eq_false, if_false, hc, hc']
  refine ⟨_, _, _, _, rfl, rfl, hA, hX, fun hk => by simp [h2, hk], ?_⟩
  have : c.ctr = a.ctr + 1 := by
    unfold rngUpdate at hc
    rw [if_neg (by simp)] at hc
    cases hc
    rfl
  exact this

/-- The relation kept over histories: the cipher context differs only when a reseed is due
    (`strict`), or not at all. -/
def Rel (a b : St) : Prop := Alike a b ∧ (a.ctxKey = b.ctxKey ∨ interval < a.ctr)

theorem generate_rel {a b : St} (h : Rel a b) {e e' : Bytes} (he : 32 ≤ e.length)
    (hl : e.length = e'.length) (len : Nat) :
    ∃ c c' o, step E .refuses e (.fill len) a = some (c, o) ∧
      step E .refuses e' (.fill len) b = some (c', o) ∧ Rel c c' := by
  obtain ⟨hA, hX⟩ := h
  unfold step generate
  by_cases hlen : 16 < len
  · simp only [if_pos hlen]
    exact ⟨_, _, _, rfl, rfl, hA, hX⟩
  · simp only [if_neg hlen, ← hA.2.2]
    by_cases hc : interval < a.ctr
    · simp only [if_pos hc]
      rcases reseed_alike (E := E) hA he hl with ⟨c, c', h1, h2, h3, h4, h5⟩ | ⟨c, c', h1, h2, h3, h4⟩
      · obtain ⟨d, d', o, o', g1, g2, g3, g4, g5, -⟩ := body_alike (E := E) h3 len
        rw [h1, h2]
        simp only [g1, g2, g5 h4]
        exact ⟨_, _, _, rfl, rfl, g3, Or.inl g4⟩
      · rw [h1, h2]
        exact ⟨_, _, _, rfl, rfl, h3, Or.inr (by rw [h4]; exact hc)⟩
    · simp only [if_neg hc]
      obtain ⟨d, d', o, o', g1, g2, g3, g4, g5, -⟩ := body_alike (E := E) hA len
      rcases hX with hX | hX
      · simp only [g1, g2, g5 hX]
        exact ⟨_, _, _, rfl, rfl, g3, Or.inl g4⟩
      · exact absurd hX hc

theorem runFrom_rel (calls : List (Nat × Bytes × Bytes)) {a b : St} (h : Rel a b)
    (hc : ∀ c ∈ calls, 32 ≤ c.2.1.length ∧ c.2.1.length = c.2.2.length) :
    ∃ c c' o, runFrom E .refuses (calls.map fun c => (.fill c.1, c.2.1)) a = some (c, o) ∧
      runFrom E .refuses (calls.map fun c => (.fill c.1, c.2.2)) b = some (c', o) := by
  induction calls generalizing a b with
  | nil => exact ⟨a, b, [], rfl, rfl⟩
  | cons x rest ih =>
    obtain ⟨c, c', o, h1, h2, h3⟩ := generate_rel (E := E) h (hc x (by simp)).1 (hc x (by simp)).2 x.1
    obtain ⟨d, d', o', g1, g2⟩ := ih h3 (fun y hy => hc y (by simp [hy]))
    refine ⟨d, d', o :: o', ?_, ?_⟩
    · simp only [List.map_cons, runFrom, h1, Option.bind_some, g1, Option.map_some]
    · simp only [List.map_cons, runFrom, h2, Option.bind_some, g2, Option.map_some]

theorem mixed_length (H : Bytes → Bytes) (hH : ∀ x, (H x).length = 16) (e n : Bytes)
    (he : 32 ≤ e.length) : (xor (e.take 32) (H n ++ H []) ++ e.drop 32).length = e.length := by
  simp [xor, hH]; omega

theorem instantiate_const (H : Bytes → Bytes) (hH : ∀ x, (H x).length = 16) (e n : Bytes)
    (he : 32 ≤ e.length) :
    ∃ k, instantiate E H .refuses e n [] =
      (rngUpdate E (List.replicate 32 0) { key := List.replicate 16 0, v := 0, ctr := 1, ctxKey := k }).map
        fun st => { st with ctr := 1 } := by
  obtain ⟨k, hk⟩ := (C111_derive_violated (E := E) (xor (e.take 32) (H n ++ H []) ++ e.drop 32)).1
    (by rw [mixed_length H hH e n he]; exact he)
  refine ⟨k, ?_⟩
  unfold instantiate
  rw [if_neg (by omega)]
  simp only [hk, Option.bind_some]

/-- C111 (c): the numbers do not depend on the entropy.  Whatever the cipher and the hash,
    two generators built from different entropy and different nonces, and fed different
    entropy afterwards (in answers of the same sizes), fill the same bytes. -/
theorem C111_no_entropy_violated (H : Bytes → Bytes) (hH : ∀ x, (H x).length = 16)
    (e e' n n' : Bytes) (he : 32 ≤ e.length) (he' : 32 ≤ e'.length)
    (calls : List (Nat × Bytes × Bytes))
    (hc : ∀ c ∈ calls, 32 ≤ c.2.1.length ∧ c.2.1.length = c.2.2.length) :
    ∃ outs,
      (life E H .refuses e n (calls.map fun c => (.fill c.1, c.2.1))).map Prod.snd = some outs ∧
      (life E H .refuses e' n' (calls.map fun c => (.fill c.1, c.2.2))).map Prod.snd = some outs := by
  obtain ⟨k, hk⟩ := instantiate_const (E := E) H hH e n he
  obtain ⟨k', hk'⟩ := instantiate_const (E := E) H hH e' n' he'
  obtain ⟨a, b, ha, hb, hA, hX⟩ := rngUpdate_alike (E := E)
    (a := { key := List.replicate 16 0, v := 0, ctr := 1, ctxKey := k })
    (b := { key := List.replicate 16 0, v := 0, ctr := 1, ctxKey := k' }) ⟨rfl, rfl, rfl⟩ _ zeros32
  obtain ⟨c, c', o, h1, h2⟩ := runFrom_rel (E := E) calls
    (a := { a with ctr := 1 }) (b := { b with ctr := 1 }) ⟨⟨hA.1, hA.2.1, rfl⟩, Or.inl hX⟩ hc
  refine ⟨o, ?_, ?_⟩
  · simp only [life, hk, ha, Option.map_some, Option.bind_some, h1]
  · simp only [life, hk', hb, Option.map_some, Option.bind_some, h2]

/-- C111 (d): the very first bytes are a constant of the cipher: the block
    `E(0, E(0, 1) + 1)`, encrypted moreover under the key from before the update. -/
theorem C111_first_block_violated (H : Bytes → Bytes) (hH : ∀ x, (H x).length = 16)
    (hE : ∀ k b, (E k b).length = 16) (e n ent : Bytes)
    (he : 32 ≤ e.length) (len : Nat) (hlen : len ≤ 16) :
    (life E H .refuses e n [(.fill len, ent)]).map Prod.snd
      = some [some ((E (List.replicate 16 0)
          (le16 ((Nat.ofDigits 256 (E (List.replicate 16 0) (le16 1)) + 1) % 2 ^ 128))).take len)] := by
  obtain ⟨k, hk⟩ := instantiate_const (E := E) H hH e n he
  have hx : ∀ a : Bytes, xor a (List.replicate a.length 0) = a := by
    intro a
    unfold xor
    induction a with
    | nil => rfl
    | cons x xs ih =>
      simp only [List.length_cons, List.replicate_succ, List.zipWith_cons_cons, Nat.xor_zero]
      rw [ih]
  have hv : (0 + 1) % 2 ^ 128 = 1 := by decide
  have hup : rngUpdate E (List.replicate 32 0)
      { key := List.replicate 16 0, v := 0, ctr := 1, ctxKey := k }
      = some { key := E (List.replicate 16 0) (le16 0),
               v := Nat.ofDigits 256 (E (List.replicate 16 0) (le16 1)), ctr := 1,
               ctxKey := List.replicate 16 0 } := by
    unfold rngUpdate
    rw [if_neg (by simp)]
    have h32 : (E (List.replicate 16 0) (le16 0) ++ E (List.replicate 16 0) (le16 1)).length = 32 := by
      simp [hE]
    have h0 := hx (E (List.replicate 16 0) (le16 0) ++ E (List.replicate 16 0) (le16 1))
    rw [h32] at h0
    simp only [hv, List.take_replicate, Nat.min_self, h0]
    rw [List.take_left' (hE _ _), List.drop_left' (hE _ _), List.take_of_length_le (by rw [hE])]
  have hint : ¬ interval < 1 := by decide
  simp only [life, hk, hup, Option.map_some, Option.bind_some, runFrom, step, generate, generateBody,
    if_neg (show ¬ 16 < len by omega), if_neg hint, ne_eq, not_true_eq_false, if_false]
  have h2 : ∀ st : St, rngUpdate E (List.replicate 32 0) st ≠ none := by
    intro st hc
    unfold rngUpdate at hc
    rw [if_neg (by simp)] at hc
    cases hc
  split
  · next h => exfalso; split at h <;> simp_all
  · next h => split at h <;> simp_all
  · next h => split at h <;> simp_all

/-! #### the generator runs dry -/

/-- C111 (e): none of the entropy sources answers with 32 bytes, so a reseed always
    throws. -/
theorem C111_reseed_violated (e : Bytes)
    (hs : e.length = intelBytes 256 ∨ e.length = amdBytes 256 ∨ e.length = urandomBytes 256)
    (st : St) : ∃ st', reseed E .refuses e [] st = .throws st' ∧ Alike st' st := by
  have hlen : 32 ≤ e.length ∧ e.length ≠ 32 := by
    have h1 : intelBytes 256 = 54 := by decide
    have h2 : amdBytes 256 = 107 := by decide
    have h3 : urandomBytes 256 = 256 := by decide
    omega
  obtain ⟨k, hk⟩ := (C111_derive_violated (E := E) e).1 hlen.1
  simp only [reseed, hk, ne_eq, not_true_eq_false, if_false, hlen.2]
  exact ⟨_, rfl, rfl, rfl, rfl⟩

theorem run_fill (e : Bytes) (he : 32 ≤ e.length) (hne : e.length ≠ 32) (len : Nat)
    (hlen : len ≤ 16) (m : Nat) (st : St) :
    ∃ st' outs, runFrom E .refuses (List.replicate m (.fill len, e)) st = some (st', outs) ∧
      outs.length = m ∧
      ∀ i, i < m → ((outs.getD i none).isSome = decide (st.ctr + i ≤ interval)) := by
  induction m generalizing st with
  | zero => exact ⟨st, [], rfl, rfl, fun i hi => by omega⟩
  | succ m ih =>
    rw [List.replicate_succ]
    by_cases hc : interval < st.ctr
    · obtain ⟨k, hk⟩ := (C111_derive_violated (E := E) e).1 he
      have hstep : step E .refuses e (.fill len) st = some ({ st with ctxKey := k }, none) := by
        simp only [step, generate, if_neg (show ¬ 16 < len by omega), if_pos hc, reseed, hk, ne_eq,
          not_true_eq_false, if_false, hne]
      obtain ⟨st', outs, h1, h2, h3⟩ := ih { st with ctxKey := k }
      refine ⟨st', none :: outs, ?_, by simp [h2], ?_⟩
      · simp only [runFrom, hstep, Option.bind_some, h1, Option.map_some]
      · intro i hi
        cases i with
        | zero => simp; omega
        | succ i =>
          have := h3 i (by omega)
          simp only [List.getD_cons_succ, this]
          have : ¬ (st.ctr + i ≤ interval) := by omega
          have h' : ¬ (st.ctr + (i + 1) ≤ interval) := by omega
          simp [this, h']
    · obtain ⟨c, c', o, o', g1, g2, g3, g4, g5, g6⟩ :=
        body_alike (E := E) (a := st) (b := st) ⟨rfl, rfl, rfl⟩ len
      have hstep : step E .refuses e (.fill len) st = some (c, some o) := by
        simp only [step, generate, if_neg (show ¬ 16 < len by omega), if_neg hc, g1]
      obtain ⟨st', outs, h1, h2, h3⟩ := ih c
      refine ⟨st', some o :: outs, ?_, by simp [h2], ?_⟩
      · simp only [runFrom, hstep, Option.bind_some, h1, Option.map_some]
      · intro i hi
        cases i with
        | zero => simp; omega
        | succ i =>
          have := h3 i (by omega)
          simp only [List.getD_cons_succ, this, g6]
          congr 2
          omega

/-- C111 (f): a generator fills exactly 1024 requests; from then on every request
    throws. -/
theorem C111_runs_dry_violated (H : Bytes → Bytes) (hH : ∀ x, (H x).length = 16) (e n : Bytes)
    (he : 32 ≤ e.length) (ans : Bytes)
    (hs : ans.length = intelBytes 256 ∨ ans.length = amdBytes 256 ∨ ans.length = urandomBytes 256)
    (len : Nat) (hlen : len ≤ 16) (m : Nat) :
    ∃ outs, (life E H .refuses e n (List.replicate m (.fill len, ans))).map Prod.snd = some outs ∧
      outs.length = m ∧ ∀ i, i < m → ((outs.getD i none).isSome = decide (i < 1024)) := by
  have hl : 32 ≤ ans.length ∧ ans.length ≠ 32 := by
    have h1 : intelBytes 256 = 54 := by decide
    have h2 : amdBytes 256 = 107 := by decide
    have h3 : urandomBytes 256 = 256 := by decide
    omega
  obtain ⟨k, hk⟩ := instantiate_const (E := E) H hH e n he
  obtain ⟨a, b, ha, -, -, -⟩ := rngUpdate_alike (E := E)
    (a := { key := List.replicate 16 0, v := 0, ctr := 1, ctxKey := k })
    (b := { key := List.replicate 16 0, v := 0, ctr := 1, ctxKey := k }) ⟨rfl, rfl, rfl⟩ _ zeros32
  obtain ⟨st', outs, h1, h2, h3⟩ := run_fill (E := E) ans hl.1 hl.2 len hlen m { a with ctr := 1 }
  refine ⟨outs, ?_, h2, fun i hi => ?_⟩
  · simp only [life, hk, ha, Option.map_some, Option.bind_some, h1]
  · rw [h3 i hi]
    have : interval = 1024 := by decide
    simp only [this]
    congr 1
    apply propext
    constructor <;> intro h <;> omega

/-- C111 (g): a request for more than 16 bytes throws and leaves the object as it was. -/
theorem C111_long_requests (lib : NullLen) (e : Bytes) (len : Nat) (h : 16 < len) (st : St) :
    step E lib e (.fill len) st = some (st, none) := by
  simp [step, generate, h]

/-- C111 (h): additional input of fewer than 32 bytes overruns a buffer, whatever the
    library. -/
theorem C111_additional_violated (lib : NullLen) (e add : Bytes) (len : Nat) (hl : len ≤ 16)
    (h0 : add ≠ []) (h1 : add.length < 32) (st : St) : generate E lib e len add st = .ub := by
  have hd := (C111_derive_violated (E := E) add).2.2 lib h1
  unfold generate
  rw [if_neg (by omega)]
  by_cases hc : interval < st.ctr
  · rw [if_pos hc]
    simp [reseed, h0]
  · rw [if_neg hc]
    simp [generateBody, h0, hd]

/-! #### the entropy sources and the provider -/

/-- C111 (i): the sources answer with enough bytes for the entropy asked for at the rates
    documented (0.6 and 0.3 bits per bit, one per bit), for requests that do not overflow
    32 bits. -/
theorem C111_source_sizes_partial (bits : Nat) :
    (bits * 5 + 2 < 2 ^ 32 → bits * 5 ≤ 3 * (8 * intelBytes bits)) ∧
    (bits * 10 + 2 < 2 ^ 32 → bits * 10 ≤ 3 * (8 * amdBytes bits)) ∧
    bits ≤ 8 * urandomBytes bits := by
  refine ⟨fun h => ?_, fun h => ?_, ?_⟩
  · unfold intelBytes
    rw [Nat.mod_eq_of_lt h]
    omega
  · unfold amdBytes
    rw [Nat.mod_eq_of_lt h]
    omega
  · unfold urandomBytes
    omega

/-- ... and with none at all for some larger ones. -/
theorem C111_source_sizes_violated : ∃ bits < 2 ^ 32, 0 < bits ∧ intelBytes bits = 0 :=
  ⟨858993459, by decide, by decide, by decide⟩

/-- C111 (j): the seed that yacl's provider hands to OpenSSL's generators does not come
    from the entropy source: it is what the memory held, xored with the additional
    input. -/
theorem C111_provider_seed_violated (source source' : Nat → Bytes) (mem adin : Bytes) :
    getSeed source mem adin = getSeed source' mem adin ∧ getSeed source mem [] = mem := ⟨rfl, rfl⟩

/-- With the entropy source of Intel processors the provider's `generate` refuses every
    request of two bytes or more. -/
theorem C111_provider_generate_violated (source : Nat → Bytes)
    (hs : ∀ n, (source n).length = intelBytes n) (n : Nat) (h2 : 2 ≤ n) (hn : n * 5 + 2 < 2 ^ 32) :
    providerGenerate source n = none := by
  unfold providerGenerate
  rw [if_neg]
  rw [hs]
  unfold intelBytes
  rw [Nat.mod_eq_of_lt hn]
  omega

/-- A toy cipher for the examples. -/
def toyE (k b : Bytes) : Bytes :=
  (List.range 16).map fun i => (k.getD i 0 * 3 + b.getD i 0 * 5 + b.getD ((i + 1) % 16) 0 + 7) % 256

example : (life toyE (fun _ => List.replicate 16 9) .refuses (List.replicate 54 1) [1] [(.fill 4, [])]).map Prod.snd
      = some [some [79, 49, 49, 49]] ∧
    (life toyE (fun _ => List.replicate 16 9) .refuses (List.replicate 54 200) [2, 3] [(.fill 4, [])]).map Prod.snd
      = some [some [79, 49, 49, 49]] ∧
    (life toyE (fun _ => List.replicate 16 9) .refuses (List.replicate 54 200) [2]
      [(.fill 17, List.replicate 54 1), (.reSeed, List.replicate 54 1)]).map Prod.snd = some [none, none] := by
  decide +kernel

end Yacl.Drbg.Gm
