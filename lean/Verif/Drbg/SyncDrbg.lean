import Mathlib.Data.List.Basic
import Mathlib.Tactic.SplitIfs
import Mathlib.Tactic.NormNum

/-! Syncable DRBG: yacl/crypto/experimental/sync_drbg/sync_drbg.cc.  Properties C58 and C85.

The generator of the hash_drbg library and the reseeding from the entropy source are arbitrary functions of the
context. -/
namespace Yacl.SyncDrbg

abbrev Byte := BitVec 8
abbrev Bytes := List Byte

/-- hash_drbg's context, as repeated in sync_drbg.cc L25-35: the internal state `V`, `C` and the reseed counter,
and the public parameters. -/
structure Ctx where
  v : Bytes
  c : Bytes
  counter : BitVec 64
  md : Nat
  hashOutputLen : Nat
  securityStrength : Nat
  seedByteLen : Nat
deriving DecidableEq

/-- The outcome of `gen_rnd_bytes_with_hash_drbg`. -/
inductive Gen where
  | done (ctx : Ctx) (out : Bytes)
  | requireReseed
  | error

/-- The library and the entropy source: `gen ctx len additional` and `reseed ctx seedDraw`. -/
structure Lib where
  gen : Ctx → Nat → Bytes → Gen
  reseed : Ctx → Nat → Ctx

/-! ### Model of Fill -/

/-- sync_drbg.cc L22 `kBatchSize`. -/
def kBatchSize : Nat := 65536

/-- Overwrite `buf[off ..]` with `out`. -/
def writeAt (buf : Bytes) (off : Nat) (out : Bytes) : Bytes :=
  buf.take off ++ out ++ buf.drop (off + out.length)

/-- sync_drbg.cc L134-153: the loop over the batches, with `left` bytes still to fill from offset `off`
(`len - step * kBatchSize` and `step * kBatchSize`).  The result is the return value, the context, the buffer and
the number of batches for which the generator asked for a reseed.
Simplified: `step` is a 32-bit counter, so lengths of 2^48 bytes and more would not terminate; `Reseed()` does not
throw; `seed` numbers the draws from the entropy source. -/
def fillLoop (L : Lib) (add : Bytes) (fuel : Nat) (seed : Nat) (ctx : Ctx) (buf : Bytes) (off left reseeds : Nat) :
    Bool × Ctx × Bytes × Nat :=
  match fuel with
  | 0 => (true, ctx, buf, reseeds)
  | fuel + 1 =>
    let limit := min kBatchSize left
    match L.gen ctx limit add with
    | .requireReseed => fillLoop L add fuel (seed + 1) (L.reseed ctx seed) buf (off + kBatchSize) (left - limit) (reseeds + 1)
    | .done ctx' out => fillLoop L add fuel seed ctx' (writeAt buf off out) (off + kBatchSize) (left - limit) reseeds
    | .error => (false, ctx, buf, reseeds)

/-- sync_drbg.cc L117-154 `Fill`: `buf` is the caller's buffer of `len` bytes. -/
def fill (L : Lib) (syncing : Bool) (add : Bytes) (seed : Nat) (ctx : Ctx) (buf : Bytes) : Bool × Ctx × Bytes × Nat :=
  if add.length > 32 then (false, ctx, buf, 0)
  else if syncing then (false, ctx, buf, 0)
  else fillLoop L add ((buf.length + kBatchSize - 1) / kBatchSize) seed ctx buf 0 buf.length 0

/-- The library writes as many bytes as it is asked for, if it is asked for at most 65536, the largest request of the
standard (NIST SP 800-90A, table 2). -/
def LibOk (L : Lib) : Prop := ∀ ctx n add ctx' out, n ≤ 65536 → L.gen ctx n add = .done ctx' out → out.length = n

/-! ### C58 -/

theorem writeAt_length (buf out : Bytes) (off : Nat) (h : off + out.length ≤ buf.length) :
    (writeAt buf off out).length = buf.length := by
  unfold writeAt
  simp
  omega

theorem writeAt_take (buf out : Bytes) (off : Nat) (h : off + out.length ≤ buf.length) :
    (writeAt buf off out).take (off + out.length) = buf.take off ++ out := by
  unfold writeAt
  rw [List.take_append_of_le_length (by simp; omega)]
  rw [List.take_of_length_le (by simp)]

theorem fillLoop_reseeds (L : Lib) (add : Bytes) (fuel seed : Nat) (ctx : Ctx) (buf : Bytes) (off left r : Nat) :
    r ≤ (fillLoop L add fuel seed ctx buf off left r).2.2.2 := by
  induction fuel generalizing seed ctx buf off left r with
  | zero => exact Nat.le_refl _
  | succ fuel ih =>
    simp only [fillLoop]
    cases L.gen ctx (min kBatchSize left) add with
    | requireReseed => exact Nat.le_trans (Nat.le_succ r) (ih _ _ _ _ _ _)
    | done ctx' out => exact ih _ _ _ _ _ _
    | error => exact Nat.le_refl _

theorem fillLoop_indep (L : Lib) (hL : LibOk L) (add : Bytes) (fuel seed : Nat) (ctx : Ctx) (b1 b2 : Bytes) (off left : Nat)
    (hl1 : b1.length = off + left) (hl2 : b2.length = off + left) (hpre : b1.take off = b2.take off)
    (hf : left ≤ fuel * kBatchSize) (hf2 : fuel = 0 ∨ (fuel - 1) * kBatchSize < left) :
    (fillLoop L add fuel seed ctx b1 off left 0).1 = true → (fillLoop L add fuel seed ctx b1 off left 0).2.2.2 = 0 →
    fillLoop L add fuel seed ctx b2 off left 0 = fillLoop L add fuel seed ctx b1 off left 0 ∧
    (fillLoop L add fuel seed ctx b1 off left 0).2.2.1.length = off + left := by
  induction fuel generalizing seed ctx b1 b2 off left with
  | zero =>
    intro _ _
    have : left = 0 := by simpa using hf
    subst this
    have e1 : b1.take off = b1 := List.take_of_length_le (by omega)
    have e2 : b2.take off = b2 := List.take_of_length_le (by omega)
    rw [e1, e2] at hpre
    subst hpre
    exact ⟨rfl, hl1⟩
  | succ fuel ih =>
    intro h1 h2
    simp only [fillLoop] at h1 h2 ⊢
    cases hg : L.gen ctx (min kBatchSize left) add with
    | requireReseed =>
      rw [hg] at h2
      simp only at h2
      have := fillLoop_reseeds L add fuel (seed + 1) (L.reseed ctx seed) b1 (off + kBatchSize) (left - min kBatchSize left) (0 + 1)
      omega
    | error => rw [hg] at h1; cases h1
    | done ctx' out =>
      rw [hg] at h1 h2
      simp only at h1 h2 ⊢
      have hol := hL _ _ _ _ _ (Nat.le_trans (Nat.min_le_left _ _) (by decide : kBatchSize ≤ 65536)) hg
      have hB : 0 < kBatchSize := by decide
      rcases Nat.lt_or_ge left kBatchSize with hlt | hge
      · -- the last, short batch
        have hmin : min kBatchSize left = left := by omega
        rw [hmin] at hol h1 h2 ⊢
        have hf0 : fuel = 0 := by
          rcases hf2 with h | h
          · omega
          · rcases Nat.eq_zero_or_pos fuel with h0 | h0
            · exact h0
            · have : kBatchSize ≤ fuel * kBatchSize := Nat.le_mul_of_pos_left _ h0
              simp only [Nat.add_sub_cancel] at h
              omega
        subst hf0
        simp only [fillLoop] at h1 h2 ⊢
        have e : writeAt b2 off out = writeAt b1 off out := by
          unfold writeAt
          rw [hpre, List.drop_of_length_le (by omega), List.drop_of_length_le (by omega)]
        rw [e]
        exact ⟨rfl, by rw [writeAt_length _ _ _ (by omega)]; exact hl1⟩
      · have hmin : min kBatchSize left = kBatchSize := by omega
        rw [hmin] at hol h1 h2 ⊢
        have := ih seed ctx' (writeAt b1 off out) (writeAt b2 off out) (off + kBatchSize) (left - kBatchSize)
          (by rw [writeAt_length _ _ _ (by omega)]; omega) (by rw [writeAt_length _ _ _ (by omega)]; omega)
          (by
            have t1 := writeAt_take b1 out off (by omega)
            have t2 := writeAt_take b2 out off (by omega)
            rw [hol] at t1 t2
            rw [t1, t2, hpre])
          (by rw [Nat.add_mul] at hf; omega)
          (by
            rcases Nat.eq_zero_or_pos fuel with h0 | h0
            · exact Or.inl h0
            · right
              rcases hf2 with h | h
              · omega
              · simp only [Nat.add_sub_cancel] at h
                obtain ⟨f, rfl⟩ : ∃ f, fuel = f + 1 := ⟨fuel - 1, by omega⟩
                rw [Nat.add_mul] at h
                simp only [Nat.add_sub_cancel]
                omega)
          h1 h2
        refine ⟨this.1, ?_⟩
        rw [this.2]
        omega

/-- C58, the part that holds: if `Fill` returns 1 and the generator did not ask for a reseed, then the whole
output was written: it has the right length and does not depend on what the buffer held before.
Missing: runs in which the generator asks for a reseed (`C58_violated`). -/
theorem C58_fill_partial (L : Lib) (hL : LibOk L) (syncing : Bool) (add : Bytes) (seed : Nat) (ctx : Ctx) (buf other : Bytes)
    (hlen : other.length = buf.length) (hok : (fill L syncing add seed ctx buf).1 = true)
    (hno : (fill L syncing add seed ctx buf).2.2.2 = 0) :
    (fill L syncing add seed ctx buf).2.2.1.length = buf.length ∧
    fill L syncing add seed ctx other = fill L syncing add seed ctx buf := by
  unfold fill at *
  split_ifs at * with h1 h2
  rw [hlen]
  have := fillLoop_indep L hL add ((buf.length + kBatchSize - 1) / kBatchSize) seed ctx buf other 0 buf.length
    (by omega) (by omega) (by simp) (by unfold kBatchSize; omega) (by unfold kBatchSize; omega) hok hno
  exact ⟨by simpa using this.2, this.1⟩

/-- C58, refusals: with too much additional data or during a sync, `Fill` returns 0 and leaves buffer and state
alone. -/
theorem C58_refused (L : Lib) (syncing : Bool) (add : Bytes) (seed : Nat) (ctx : Ctx) (buf : Bytes)
    (h : 32 < add.length ∨ syncing = true) : fill L syncing add seed ctx buf = (false, ctx, buf, 0) := by
  unfold fill
  rcases h with h | h
  · rw [if_pos h]
  · rw [h]; simp

/-- A generator that wants a reseed when its counter is 0 and otherwise writes 7s. -/
def toyLib : Lib where
  gen ctx n _ := if ctx.counter = 0 then .requireReseed else .done { ctx with counter := ctx.counter - 1 } (List.replicate n 7)
  reseed ctx _ := { ctx with counter := 3 }

/-- A context due for a reseed. -/
def toyCtx : Ctx := ⟨[], [], 0, 0, 32, 128, 55⟩

/-- C58 is violated: when the generator asks for a reseed, `Fill` reseeds, does not retry that batch and returns
1; the caller's buffer keeps its old bytes. -/
theorem C58_violated : LibOk toyLib ∧ ∀ buf : Bytes, buf.length = 4 →
    (fill toyLib false [] 0 toyCtx buf).1 = true ∧ (fill toyLib false [] 0 toyCtx buf).2.2.1 = buf := by
  constructor
  · intro ctx n add ctx' out _ h
    simp only [toyLib] at h
    split_ifs at h
    cases h
    simp
  · intro buf hb
    have : fill toyLib false [] 0 toyCtx buf = (true, { toyCtx with counter := 3 }, buf, 1) := by
      unfold fill
      rw [hb]
      rfl
    rw [this]
    exact ⟨rfl, rfl⟩

/-- Non-vacuity of `C58_fill_partial`. -/
example : fill toyLib false [] 0 { toyCtx with counter := 5 } [1, 2, 3] = (true, { toyCtx with counter := 4 }, [7, 7, 7], 0) := by
  rfl

/-! ### C85: state synchronisation -/

/-- sync_drbg.cc L36-38, L64: the parameters of the SHA-256 generator; `sha256` stands for `EVP_sha256()`. -/
structure Params where
  maxSeed : Nat
  sha256 : Nat

/-- The eight bytes of the counter in memory order. -/
def counterBytes (c : BitVec 64) : Bytes := (List.range 8).map fun k => c.extractLsb' (8 * k) 8

/-- Read the counter back. -/
def readCounter (b : Bytes) : BitVec 64 :=
  (List.range 8).foldl (fun acc k => acc ||| ((b.getD k 0).zeroExtend 64 <<< (8 * k))) 0

/-- sync_drbg.cc L52-60 `serialize_hash_drbg_ctx`: `V` and `C` are arrays of `MAX_SEED_BYTE_LENGTH` bytes. -/
def serialize (ctx : Ctx) : Bytes := ctx.v ++ ctx.c ++ counterBytes ctx.counter

/-- sync_drbg.cc L62-76 `deserialize_hash_drbg_ctx`; a short buffer is read past its end (`none`). -/
def deserialize (p : Params) (buf : Bytes) : Option Ctx :=
  if buf.length < 2 * p.maxSeed + 8 then none else
  some ⟨buf.take p.maxSeed, (buf.drop p.maxSeed).take p.maxSeed, readCounter ((buf.drop (2 * p.maxSeed)).take 8), p.sha256, 32, 128, 55⟩

/-- A context as the library makes it for SHA-256. -/
structure CtxOk (p : Params) (ctx : Ctx) : Prop where
  v : ctx.v.length = p.maxSeed
  c : ctx.c.length = p.maxSeed
  pub : ctx.md = p.sha256 ∧ ctx.hashOutputLen = 32 ∧ ctx.securityStrength = 128 ∧ ctx.seedByteLen = 55

theorem readCounter_bytes (c : BitVec 64) : readCounter (counterBytes c) = c := by
  unfold readCounter counterBytes
  apply BitVec.eq_of_getLsbD_eq
  intro i hi
  have e : List.range 8 = [0, 1, 2, 3, 4, 5, 6, 7] := by decide
  rw [e]
  simp only [List.foldl_cons, List.foldl_nil, List.map_cons, List.map_nil, List.getD_cons_zero, List.getD_cons_succ]
  simp only [BitVec.getLsbD_or, BitVec.getLsbD_shiftLeft, BitVec.getLsbD_setWidth, BitVec.getLsbD_extractLsb', BitVec.getLsbD_zero]
  have hcase : i / 8 = 0 ∨ i / 8 = 1 ∨ i / 8 = 2 ∨ i / 8 = 3 ∨ i / 8 = 4 ∨ i / 8 = 5 ∨ i / 8 = 6 ∨ i / 8 = 7 := by omega
  have key : ∀ k, k < 8 → (decide (i < 64) && !decide (i < 8 * k) && (decide (i - 8 * k < 64) && (decide (i - 8 * k < 8) && c.getLsbD (8 * k + (i - 8 * k))))) =
      (decide (i / 8 = k) && c.getLsbD i) := by
    intro k hk
    by_cases h : i / 8 = k
    · have e1 : ¬ i < 8 * k := by omega
      have e2 : i - 8 * k < 8 := by omega
      have e3 : 8 * k + (i - 8 * k) = i := by omega
      simp [hi, e1, e2, e3, h]
      omega
    · by_cases h1 : i < 8 * k
      · simp [h1, h]
      · have : ¬ i - 8 * k < 8 := by omega
        simp [this, h]
  have h0 := key 0 (by omega)
  have h1 := key 1 (by omega)
  have h2 := key 2 (by omega)
  have h3 := key 3 (by omega)
  have h4 := key 4 (by omega)
  have h5 := key 5 (by omega)
  have h6 := key 6 (by omega)
  have h7 := key 7 (by omega)
  rw [h0, h1, h2, h3, h4, h5, h6, h7]
  rcases hcase with h | h | h | h | h | h | h | h <;> simp [h]

/-- C85, the state survives the transfer: what `RecvState` installs is the state `SendState` read. -/
theorem C85_roundtrip (p : Params) (ctx : Ctx) (h : CtxOk p ctx) : deserialize p (serialize ctx) = some ctx := by
  unfold deserialize serialize
  have hv := h.v
  have hc := h.c
  have hcl : (counterBytes ctx.counter).length = 8 := by simp [counterBytes]
  rw [if_neg (by simp only [List.length_append]; omega)]
  have e1 : (ctx.v ++ ctx.c ++ counterBytes ctx.counter).take p.maxSeed = ctx.v := by
    rw [List.append_assoc, ← hv, List.take_left]
  have e2 : ((ctx.v ++ ctx.c ++ counterBytes ctx.counter).drop p.maxSeed).take p.maxSeed = ctx.c := by
    have : (ctx.v ++ (ctx.c ++ counterBytes ctx.counter)).drop p.maxSeed = ctx.c ++ counterBytes ctx.counter := by
      rw [← hv, List.drop_left]
    rw [List.append_assoc, this, ← hc, List.take_left]
  have e3 : (ctx.v ++ ctx.c ++ counterBytes ctx.counter).drop (2 * p.maxSeed) = counterBytes ctx.counter := by
    have : 2 * p.maxSeed = (ctx.v ++ ctx.c).length := by rw [List.length_append]; omega
    rw [this, List.drop_left]
  rw [e1, e2, e3, List.take_of_length_le (by omega), readCounter_bytes]
  obtain ⟨p1, p2, p3, p4⟩ := h.pub
  rw [← p1, ← p2, ← p3, ← p4]

/-- A `SyncDrbg` object (sync_drbg.h L154-159). -/
structure Drbg where
  ctx : Ctx
  syncing : Bool
deriving DecidableEq

/-- sync_drbg.cc L172-177, the first half of `SendState`: the flag is raised and the state sent. -/
def sendBegin (d : Drbg) : Drbg × Bytes := ({ d with syncing := true }, serialize d.ctx)

/-- sync_drbg.cc L180-182, the second half of `SendState`: `none` for a receive that throws; `true` for a normal
return.  A throw skips the reset of the flag. -/
def sendEnd (d : Drbg) : Option Bytes → Drbg × Bool
  | some (b :: _) => if b = 89 then ({ d with syncing := false }, true) else (d, false)
  | some [] => (d, false)
  | none => (d, false)

/-- sync_drbg.cc L188-199 `RecvState`: `none` for a receive that throws; `sendOk` says whether the sending of the
acknowledgement returned.  Also returns the acknowledgement. -/
def recvState (p : Params) (d : Drbg) (msg : Option Bytes) (sendOk : Bool) : Drbg × Option Bytes :=
  match msg.bind (deserialize p) with
  | none => ({ d with syncing := true }, none)
  | some ctx => if sendOk then (⟨ctx, false⟩, some [89]) else (⟨ctx, true⟩, none)

/-- C85, a completed sync: with a link that delivers, both calls return, the receiver's state is the sender's, and
both generators can be used again. -/
theorem C85_sync (p : Params) (a b : Drbg) (h : CtxOk p a.ctx) :
    let r := recvState p b (some (sendBegin a).2) true
    let s := sendEnd (sendBegin a).1 r.2
    s = (⟨a.ctx, false⟩, true) ∧ r.1 = ⟨a.ctx, false⟩ := by
  simp only [recvState, sendBegin, Option.bind_some, C85_roundtrip p a.ctx h]
  exact ⟨rfl, rfl⟩

/-- C85, a failed sync: if the link throws, the flag stays up and from then on every `Fill` returns 0 without
writing anything, until a later sync succeeds. -/
theorem C85_stuck (p : Params) (L : Lib) (a b : Drbg) (add : Bytes) (seed : Nat) (buf : Bytes) (ok : Bool) :
    fill L (sendEnd (sendBegin a).1 none).1.syncing add seed a.ctx buf = (false, a.ctx, buf, 0) ∧
    fill L (recvState p b none ok).1.syncing add seed b.ctx buf = (false, b.ctx, buf, 0) :=
  ⟨C58_refused _ _ _ _ _ _ (Or.inr rfl), C58_refused _ _ _ _ _ _ (Or.inr rfl)⟩

/-- A party's sequence of `Fill` calls: lengths and additional data; returns the outputs (initial buffers are
zero). -/
def fills (L : Lib) : Nat → Ctx → List (Nat × Bytes) → List (Bool × Bytes)
  | _, _, [] => []
  | seed, ctx, (n, add) :: calls =>
    let r := fill L false add seed ctx (List.replicate n 0)
    (r.1, r.2.2.1) :: fills L seed r.2.1 calls

/-- The number of reseeds in such a sequence. -/
def reseedsIn (L : Lib) : Nat → Ctx → List (Nat × Bytes) → Nat
  | _, _, [] => 0
  | seed, ctx, (n, add) :: calls =>
    let r := fill L false add seed ctx (List.replicate n 0)
    r.2.2.2 + reseedsIn L seed r.2.1 calls

theorem fillLoop_seed (L : Lib) (add : Bytes) (fuel s1 s2 : Nat) (ctx : Ctx) (buf : Bytes) (off left : Nat)
    (h : (fillLoop L add fuel s1 ctx buf off left 0).2.2.2 = 0) :
    fillLoop L add fuel s2 ctx buf off left 0 = fillLoop L add fuel s1 ctx buf off left 0 := by
  induction fuel generalizing ctx buf off left with
  | zero => rfl
  | succ fuel ih =>
    simp only [fillLoop] at h ⊢
    cases hg : L.gen ctx (min kBatchSize left) add with
    | requireReseed =>
      rw [hg] at h
      simp only at h
      have := fillLoop_reseeds L add fuel (s1 + 1) (L.reseed ctx s1) buf (off + kBatchSize) (left - min kBatchSize left) (0 + 1)
      omega
    | error => rfl
    | done ctx' out =>
      rw [hg] at h
      exact ih _ _ _ _ h

/-- C85, two parties agree after a sync: until one of them reseeds, the receiver of the state produces the same
outputs as the sender for every sequence of calls, although their entropy sources (`s1`, `s2`) differ. -/
theorem C85_agree (p : Params) (L : Lib) (ctx : Ctx) (h : CtxOk p ctx) (s1 s2 : Nat) (calls : List (Nat × Bytes))
    (hno : reseedsIn L s1 ctx calls = 0) :
    ∃ ctx', deserialize p (serialize ctx) = some ctx' ∧ fills L s2 ctx' calls = fills L s1 ctx calls := by
  refine ⟨ctx, C85_roundtrip p ctx h, ?_⟩
  clear h
  induction calls generalizing ctx with
  | nil => rfl
  | cons a calls ih =>
    obtain ⟨n, add⟩ := a
    simp only [reseedsIn] at hno
    have e : fill L false add s2 ctx (List.replicate n 0) = fill L false add s1 ctx (List.replicate n 0) := by
      have h0 : (fill L false add s1 ctx (List.replicate n 0)).2.2.2 = 0 := by omega
      unfold fill at h0 ⊢
      by_cases hadd : add.length > 32
      · rw [if_pos hadd, if_pos hadd]
      · rw [if_neg hadd, if_neg (by decide)] at h0 ⊢
        rw [if_neg hadd, if_neg (by decide)]
        exact fillLoop_seed _ _ _ _ _ _ _ _ _ h0
    simp only [fills]
    rw [e, ih _ (by omega)]

/-- Non-vacuity. -/
example : CtxOk ⟨3, 9⟩ ⟨[1, 2, 3], [4, 5, 6], 0x0102030405060708, 9, 32, 128, 55⟩ ∧
    serialize ⟨[1, 2, 3], [4, 5, 6], 0x0102030405060708, 9, 32, 128, 55⟩ = [1, 2, 3, 4, 5, 6, 8, 7, 6, 5, 4, 3, 2, 1] := by
  refine ⟨⟨rfl, rfl, ⟨rfl, rfl, rfl, rfl⟩⟩, ?_⟩
  decide +kernel

end Yacl.SyncDrbg
