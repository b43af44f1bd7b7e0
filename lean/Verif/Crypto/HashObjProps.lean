/-
C128: hash, extendable-output and HMAC objects return the function of all bytes added since the last reset.
-/
import Verif.Crypto.HashObj
import Mathlib.Data.List.Induction
import Mathlib.Algebra.Group.Basic
import Mathlib.Algebra.Ring.Nat

namespace Yacl.HashObj

/-! ### Specification -/

/-- The bytes added by a history since its last `reset`. -/
def since (hist : List Op) : Bytes :=
  ((hist.reverse.takeWhile (· ≠ .reset)).reverse.map fun
    | .update b => b
    | _ => []).flatten

/-- `F`-values that the `get` calls of a history must return: each one sees the calls before it. -/
def expected (F : Bytes → Bytes) (hist : List Op) : List Bytes :=
  ((List.range hist.length).filter fun i => hist[i]? = some .get).map fun i => F (since (hist.take i))

/-- An object computes `F`: no history of calls throws, and every `get` returns `F` of the bytes added since
the last `reset` before it, wherever the bytes were cut and however often `get` was called. -/
def Computes {σ : Type} (o : Obj σ) (s : σ) (F : Bytes → Bytes) : Prop :=
  ∀ hist, ∃ s', o.run s hist = some (expected F hist, s')

/-! ### Helpers -/

theorem since_append_reset (h : List Op) : since (h ++ [.reset]) = [] := by
  simp [since]

theorem since_append_update (h : List Op) (b : Bytes) : since (h ++ [.update b]) = since h ++ b := by
  simp [since, List.takeWhile_cons]

theorem since_append_get (h : List Op) : since (h ++ [.get]) = since h := by
  simp [since, List.takeWhile_cons]

theorem expected_append (F : Bytes → Bytes) (h : List Op) (x : Op) :
    expected F (h ++ [x]) = expected F h ++ (if x = .get then [F (since h)] else []) := by
  unfold expected
  rw [List.length_append, List.length_singleton, List.range_succ, List.filter_append, List.map_append]
  congr 1
  · have : (List.range h.length).filter (fun i => (h ++ [x])[i]? = some .get)
        = (List.range h.length).filter fun i => h[i]? = some .get := by
      apply List.filter_congr
      intro i hi
      rw [List.getElem?_append_left (List.mem_range.1 hi)]
    rw [this]
    apply List.map_congr_left
    intro i hi
    have hi' : i ≤ h.length := (List.mem_range.1 (List.mem_of_mem_filter hi)).le
    rw [List.take_append_of_le_length hi']
  · by_cases hx : x = .get <;> simp [hx]

theorem run_append {σ : Type} (o : Obj σ) (s : σ) (h : List Op) (x : Op) :
    o.run s (h ++ [x]) = (o.run s h).bind fun r => (o.run r.2 [x]).map fun q => (r.1 ++ q.1, q.2) := by
  induction h generalizing s with
  | nil => cases h : o.run s [x] <;> simp [Obj.run, h]
  | cons y t ih =>
    cases y with
    | reset => simp only [List.cons_append, Obj.run]; cases o.reset s <;> simp [ih]
    | update b => simp only [List.cons_append, Obj.run]; cases o.update s b <;> simp [ih]
    | get =>
      simp only [List.cons_append, Obj.run]
      cases o.get s with
      | none => simp
      | some r =>
        simp only [Option.bind_some, ih]
        cases o.run r.2 t with
        | none => simp
        | some q => cases h2 : o.run q.2 [x] <;> simp [h2]

/-- An abstraction of the state to the absorbed bytes that the three calls respect. -/
theorem computes_of {σ : Type} (o : Obj σ) (s : σ) (F : Bytes → Bytes) (R : σ → Bytes → Prop)
    (h0 : R s []) (hr : ∀ s d, R s d → ∃ s', o.reset s = some s' ∧ R s' [])
    (hu : ∀ s d b, R s d → ∃ s', o.update s b = some s' ∧ R s' (d ++ b))
    (hg : ∀ s d, R s d → ∃ s', o.get s = some (F d, s') ∧ R s' d) : Computes o s F := by
  intro hist
  suffices ∃ s', o.run s hist = some (expected F hist, s') ∧ R s' (since hist) by
    obtain ⟨s', h, -⟩ := this; exact ⟨s', h⟩
  induction hist using List.reverseRecOn with
  | nil => exact ⟨s, rfl, h0⟩
  | append_singleton h x ih =>
    obtain ⟨s1, e1, r1⟩ := ih
    rw [run_append, e1, Option.bind_some, expected_append]
    cases x with
    | reset =>
      obtain ⟨s2, e2, r2⟩ := hr s1 _ r1
      exact ⟨s2, by simp [Obj.run, e2], by rw [since_append_reset]; exact r2⟩
    | update b =>
      obtain ⟨s2, e2, r2⟩ := hu s1 _ b r1
      exact ⟨s2, by simp [Obj.run, e2], by rw [since_append_update]; exact r2⟩
    | get =>
      obtain ⟨s2, e2, r2⟩ := hg s1 _ r1
      exact ⟨s2, by simp [Obj.run, e2], by rw [since_append_get]; exact r2⟩

theorem firstBytes_take (s : ℕ → UInt8) {m n : ℕ} (h : m ≤ n) : (firstBytes s n).take m = firstBytes s m := by
  simp [firstBytes, ← List.map_take, List.take_range, h]

theorem firstBytes_length (s : ℕ → UInt8) (n : ℕ) : (firstBytes s n).length = n := by simp [firstBytes]

/-! ### C128 -/

/-- `SslHash`: for an algorithm the library knows and digests of the announced size, the object is made and
computes that algorithm's digest; other algorithms are refused by the constructor. -/
theorem C128_ssl (L : Lib) (hlen : ∀ md d, (L.digest md d).length = L.size md) (a : Algo) :
    (∀ name, toStr a = some name → L.knows name = true →
      ∃ h, SslHash.new L a = some h ∧ h.digestSize = L.size name ∧ Computes (sslObj L) h (L.digest name)) ∧
    ((toStr a = none ∨ ∃ name, toStr a = some name ∧ L.knows name = false) → SslHash.new L a = none) := by
  constructor
  · intro name hn hk
    refine ⟨⟨a, .absorbing name [], L.size name⟩, ?_, rfl, ?_⟩
    · simp [SslHash.new, SslHash.reset, hn, fetchMd, hk, digestInit]
    · apply computes_of (sslObj L) _ (L.digest name)
        (fun s d => s = ⟨a, .absorbing name d, L.size name⟩) rfl
      · rintro s d rfl
        exact ⟨_, by simp [sslObj, SslHash.reset, hn, fetchMd, hk, digestInit], rfl⟩
      · rintro s d b rfl
        exact ⟨_, by simp [sslObj, SslHash.update, digestUpdate], rfl⟩
      · rintro s d rfl
        exact ⟨_, by simp [sslObj, SslHash.cumulativeHash, digestFinal, hlen], rfl⟩
  · rintro (h | ⟨name, h, hk⟩)
    · simp [SslHash.new, h]
    · simp [SslHash.new, SslHash.reset, h, fetchMd, hk, digestInit]

/-- `SslHashXof`: the two SHAKE objects compute 32 and 64 bytes of their streams, every other algorithm is
refused. -/
theorem C128_xof (L : Lib) (hk : ∀ a, (toStr a).all L.knows = true)
    (hx : L.isXof "shake-128" = true ∧ L.isXof "shake-256" = true) :
    (∃ h, XofHash.new L .shake128 = some h ∧
      Computes (xofObj L) h fun d => firstBytes (L.stream "shake-128" d) 32) ∧
    (∃ h, XofHash.new L .shake256 = some h ∧
      Computes (xofObj L) h fun d => firstBytes (L.stream "shake-256" d) 64) ∧
    ∀ a, a ≠ .shake128 → a ≠ .shake256 → XofHash.new L a = none := by
  have key : ∀ (md : String) (n : ℕ), L.isXof md = true →
      Computes (xofObj L) ⟨md, .absorbing md [], n⟩ fun d => firstBytes (L.stream md d) n := by
    intro md n hm
    apply computes_of (xofObj L) _ _ (fun s d => s = ⟨md, .absorbing md d, n⟩) rfl
    · rintro s d rfl
      exact ⟨_, by simp [xofObj, XofHash.reset, digestInit], rfl⟩
    · rintro s d b rfl
      exact ⟨_, by simp [xofObj, XofHash.update, digestUpdate], rfl⟩
    · rintro s d rfl
      exact ⟨_, by simp [xofObj, XofHash.cumulativeHash, XofHash.cumulativeHashN, digestFinalXof, hm], rfl⟩
  have k1 : L.knows "shake-128" = true := by simpa [toStr] using hk .shake128
  have k2 : L.knows "shake-256" = true := by simpa [toStr] using hk .shake256
  refine ⟨⟨_, by simp [XofHash.new, toStr, fetchMd, k1, digestInit], key _ _ hx.1⟩,
    ⟨_, by simp [XofHash.new, toStr, fetchMd, k2, digestInit], key _ _ hx.2⟩, ?_⟩
  intro a h1 h2
  cases a <;> simp_all [XofHash.new, toStr]

/-- Output of another length: at any time `CumulativeHash(n)` gives `n` bytes of the same stream, so a shorter
output is the beginning of a longer one, and the object is unchanged. -/
theorem C128_xof_prefix (L : Lib) (h : XofHash) {m n : ℕ} (hmn : m ≤ n) {b h'} (he : h.cumulativeHashN L n = some (b, h')) :
    b.length = n ∧ h' = h ∧ h.cumulativeHashN L m = some (b.take m, h) := by
  simp only [XofHash.cumulativeHashN] at *
  cases hc : h.ctx with
  | blank => simp [hc, digestFinalXof] at he
  | finished md => simp [hc, digestFinalXof] at he
  | absorbing md d =>
    by_cases hx : L.isXof md
    · simp [hc, digestFinalXof, hx] at he ⊢
      obtain ⟨rfl, rfl⟩ := he
      exact ⟨firstBytes_length _ _, rfl, (firstBytes_take _ hmn).symm⟩
    · simp [hc, digestFinalXof, hx] at he

/-- `Blake3Hash` computes the first bytes of the BLAKE3 stream, as many as were asked for at construction. -/
theorem C128_blake3 (L : Lib) (n : ℕ) :
    Computes (blakeObj L) (Blake3Hash.new n) fun d => firstBytes (L.blake3 d) n := by
  apply computes_of (blakeObj L) _ _ (fun s d => s = ⟨d, n⟩) rfl
  · rintro s d rfl
    exact ⟨_, by simp [blakeObj, Blake3Hash.reset], rfl⟩
  · rintro s d b rfl
    exact ⟨_, by simp [blakeObj, Blake3Hash.update], rfl⟩
  · rintro s d rfl
    exact ⟨_, by simp [blakeObj, Blake3Hash.cumulativeHash], rfl⟩

/-- `Hmac` with a key that is not empty computes RFC 2104's HMAC under the key given at construction, also
after any number of resets. -/
theorem C128_hmac_partial (L : Lib) (a : Algo) (name : String) (hn : toStr a = some name) (hk : L.knows name = true)
    (key : Bytes) (hkey : key ≠ []) :
    ∃ h, Hmac.new L a key = some h ∧ Computes (hmacObj L) h (rfc2104 (L.digest name) (L.block name) key) := by
  refine ⟨⟨key, ⟨some name, some key, []⟩⟩, by simp [Hmac.new, hn, macInit, fetchMd, hk, dataPtr, hkey], ?_⟩
  apply computes_of (hmacObj L) _ _ (fun s d => s = ⟨key, ⟨some name, some key, d⟩⟩) rfl
  · rintro s d rfl
    exact ⟨_, by simp [hmacObj, Hmac.reset, macInit, dataPtr, hkey], rfl⟩
  · rintro s d b rfl
    exact ⟨_, by simp [hmacObj, Hmac.update], rfl⟩
  · rintro s d rfl
    exact ⟨_, by simp [hmacObj, Hmac.cumulativeMac, macFinal], rfl⟩

/-- The empty key, which RFC 2104 allows, cannot be used: the constructor throws for every algorithm. -/
theorem C128_hmac_empty_violated (L : Lib) (a : Algo) : Hmac.new L a [] = none := by
  cases h : toStr a with
  | none => simp [Hmac.new, h]
  | some n =>
    cases hk : L.knows n <;> simp [Hmac.new, h, macInit, fetchMd, hk, dataPtr]

/-- The one-call functions equal the objects: the digest itself for `Sha256`, `Sm3`, `Blake2` and `Blake3`,
`n` stream bytes for `Shake128/256`, which refuse `n = 0`. -/
theorem C128_oneshot (L : Lib) (hk : ∀ a, (toStr a).all L.knows = true)
    (hlen : ∀ md d, (L.digest md d).length = L.size md)
    (hs : L.size "sha2-256" = 32 ∧ L.size "sm3" = 32 ∧ L.size "blake2b-512" = 64)
    (hx : L.isXof "shake-128" = true ∧ L.isXof "shake-256" = true) (d : Bytes) :
    oneShot L .sha256 32 d = some (L.digest "sha2-256" d) ∧
    oneShot L .sm3 32 d = some (L.digest "sm3" d) ∧
    oneShot L .blake2b 64 d = some (L.digest "blake2b-512" d) ∧
    blake3 L d = ((blakeObj L).run Blake3Hash.new [.update d, .get]).bind (·.1[0]?) ∧
    (∀ n, 0 < n → shake L .shake128 d n = some (firstBytes (L.stream "shake-128" d) n)) ∧
    (∀ n, 0 < n → shake L .shake256 d n = some (firstBytes (L.stream "shake-256" d) n)) ∧
    ∀ a, shake L a d 0 = none := by
  have one : ∀ a name n, toStr a = some name → L.size name = n → oneShot L a n d = some (L.digest name d) := by
    intro a name n hn hsz
    have : L.knows name = true := by simpa [hn] using hk a
    have hl := hlen name d
    have ht : (L.digest name d).take n = L.digest name d := List.take_of_length_le (by omega)
    simp [oneShot, SslHash.new, SslHash.reset, hn, fetchMd, this, digestInit, SslHash.update, digestUpdate,
      SslHash.cumulativeHash, digestFinal, hlen, hsz, ht]
  have k1 : L.knows "shake-128" = true := by simpa [toStr] using hk .shake128
  have k2 : L.knows "shake-256" = true := by simpa [toStr] using hk .shake256
  refine ⟨one _ _ _ rfl hs.1, one _ _ _ rfl hs.2.1, one _ _ _ rfl hs.2.2, ?_, ?_, ?_, ?_⟩
  · simp [blake3, Obj.run, blakeObj, Blake3Hash.update, Blake3Hash.cumulativeHash, Blake3Hash.new]
  · intro n hn
    simp [shake, hn.ne', XofHash.new, toStr, fetchMd, k1, digestInit, XofHash.update, digestUpdate,
      XofHash.cumulativeHashN, digestFinalXof, hx.1]
  · intro n hn
    simp [shake, hn.ne', XofHash.new, toStr, fetchMd, k2, digestInit, XofHash.update, digestUpdate,
      XofHash.cumulativeHashN, digestFinalXof, hx.2]
  · intro a; simp [shake]

/-- The 128-bit versions: the number whose base-256 digits, least significant first, are the first sixteen
bytes; hashes that are shorter are refused. -/
theorem C128_low128 (b : Bytes) :
    (16 ≤ b.length → ∃ v, low128 (some b) = some v ∧ v < 2 ^ 128 ∧
      ∀ i (hi : i < 16), v / 256 ^ i % 256 = (b.getD i 0).toNat) ∧
    (b.length < 16 → low128 (some b) = none) := by
  constructor
  · intro h
    refine ⟨_, by simp [low128, h]; rfl, ?_⟩
    have gen : ∀ (l : Bytes), (l.foldr (fun x acc => x.toNat + 256 * acc) 0) < 256 ^ l.length ∧
        ∀ i, i < l.length → (l.foldr (fun x acc => x.toNat + 256 * acc) 0) / 256 ^ i % 256 = (l.getD i 0).toNat := by
      intro l
      induction l with
      | nil => simp
      | cons x t ih =>
        have hx : x.toNat < 256 := x.toNat_lt
        refine ⟨?_, ?_⟩
        · simp only [List.foldr_cons, List.length_cons, pow_succ]
          have := ih.1; omega
        · intro i hi
          cases i with
          | zero => simp only [List.foldr_cons, pow_zero, Nat.div_one, List.getD_cons_zero]; omega
          | succ j =>
            simp only [List.foldr_cons, pow_succ, List.getD_cons_succ]
            rw [mul_comm (256 ^ j) 256, ← Nat.div_div_eq_div_mul]
            have : (x.toNat + 256 * t.foldr (fun x acc => x.toNat + 256 * acc) 0) / 256
                = t.foldr (fun x acc => x.toNat + 256 * acc) 0 := by omega
            rw [this]
            exact ih.2 j (by simpa using hi)
    have hl : (b.take 16).length = 16 := by simp [h]
    obtain ⟨g1, g2⟩ := gen (b.take 16)
    rw [hl] at g1 g2
    refine ⟨by simpa using g1, fun i hi => ?_⟩
    rw [g2 i hi]
    simp [List.getD_eq_getElem?_getD, List.getElem?_take, hi]
  · intro h
    simp [low128, Nat.not_le.2 h]

/-! ### Non-vacuity -/

/-- A library with simple functions. -/
def toyLib : Lib where
  knows := fun n => (toStr .sha256 = some n) || n ∈ ["sha2-224", "sha2-384", "sha2-512", "sm3", "blake2b-512", "shake-128", "shake-256"]
  size := fun n => if n = "blake2b-512" then 64 else 32
  digest := fun n d => List.replicate (if n = "blake2b-512" then 64 else 32) d.sum
  block := fun _ => 64
  isXof := fun n => n = "shake-128" || n = "shake-256"
  stream := fun _ d i => d.sum + UInt8.ofNat i
  blake3 := fun d i => d.sum + UInt8.ofNat i

example : (∀ a, (toStr a).all toyLib.knows = true) ∧ (∀ md d, (toyLib.digest md d).length = toyLib.size md) ∧
    toyLib.size "sha2-256" = 32 ∧ toyLib.isXof "shake-128" = true := by
  refine ⟨?_, ?_, by decide, by decide⟩
  · intro a; cases a <;> decide
  · intro md d; simp [toyLib]

example : expected id [.update [1], .get, .update [2], .get, .reset, .update [7], .get]
    = [[1], [1, 2], [7]] := by decide

end Yacl.HashObj
