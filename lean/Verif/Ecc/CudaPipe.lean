import Mathlib.Logic.Function.Basic
import Mathlib.Data.Nat.Find
import Mathlib.Tactic.Common
import Mathlib.Tactic.Ring

/-! C147: `CudaSm2Group::batchHashAndMul` for large batches.  The calling thread hashes the inputs chunk by chunk into two slots, a second
thread feeds the slots to the GPU, and the calling thread turns the results into points; when the GPU fails everything is computed
again.  All schedules of the two threads are considered.

The GPU function, the digest, the conversion of a result and the CPU's answer are parameters. -/

namespace Yacl.Cuda

/-! ### Model -/

/-- One call.  `x i` is input `i`, `dig` the SM3 digest, `gpu` what `batchHashAndMulFromSm3Digests` computes from a digest,
`conv` is `convertFromCudaPoint`, `cpu` the answer computed again without the pipeline, `ok k` whether the GPU accepts its `k`-th call.
`chunk` is `kChunkSize` (cuda_sm2_group.cc L812; 131072 in the code).

`own` says whether the GPU thread works on slots of its own.  In the code it does: `slots` is `thread_local` (L851), so the name inside the
thread function (L883) means the new thread's array, not the caller's. -/
structure Job (X D P Q : Type) where
  x : ℕ → X
  count : ℕ
  chunk : ℕ
  dig : X → D
  gpu : D → P
  conv : P → Q
  cpu : X → Q
  ok : ℕ → Bool
  own : Bool

variable {X D P Q : Type}

/-- cuda_sm2_group.cc L866. -/
def Job.num (j : Job X D P Q) : ℕ := (j.count + j.chunk - 1) / j.chunk

/-- cuda_sm2_group.cc L928: the size of a chunk. -/
def Job.size (j : Job X D P Q) (k : ℕ) : ℕ := min j.chunk (j.count - k * j.chunk)

/-- Where the calling thread is. -/
inductive MPc where
  /-- about to hash chunk `k` (L925-951) -/
  | hash (k : ℕ)
  /-- about to publish chunk `k` (L953-961) -/
  | publish (k : ℕ)
  /-- in round `k`, waiting for chunk `k-1` (L963-974) -/
  | await (k : ℕ)
  /-- in round `k`, about to convert chunk `k-1` (L985) -/
  | convert (k : ℕ)
  /-- waiting for the last chunk (L989-993) -/
  | final
  /-- about to convert the last chunk (L1011) -/
  | convLast
  /-- joining the GPU thread (L996, L1015) -/
  | join
  /-- returned -/
  | done
deriving DecidableEq

/-- Where the GPU thread is. -/
inductive WPc where
  /-- waiting for chunk `k` (L870-878) -/
  | wait (k : ℕ)
  /-- about to call the GPU for chunk `k` with `n` inputs (L882-883) -/
  | run (k n : ℕ)
  /-- about to post the status of chunk `k` (L885-892) -/
  | post (k : ℕ) (ok : Bool)
  /-- returned -/
  | ret
deriving DecidableEq

/-- Everything the two threads see.  `off`, `n`, `dr`, `rr` are `state[slot]` (L853-859): offset, size, `digests_ready`, `results_ready`;
`dig`, `res` the buffers of the caller's slots; `out` is `results`; `again` records that everything was computed again. -/
structure St (D P Q : Type) where
  m : MPc
  w : WPc
  stop : Bool
  off : ℕ → ℕ
  n : ℕ → ℕ
  dr : ℕ → Bool
  rr : ℕ → Bool
  dig : ℕ → ℕ → D
  res : ℕ → ℕ → P
  out : ℕ → Q
  again : Bool

/-- The start: both threads running, flags clear (L853-864); the buffers and the results hold anything. -/
def start (dig : ℕ → ℕ → D) (res : ℕ → ℕ → P) (out : ℕ → Q) : St D P Q :=
  ⟨.hash 0, .wait 0, false, fun _ => 0, fun _ => 0, fun _ => false, fun _ => false, dig, res, out, false⟩

/-- cuda_sm2_group.cc L901-921 `convertChunk`. -/
def convertChunk (j : Job X D P Q) (s : St D P Q) (slot : ℕ) : ℕ → Q := fun i =>
  if s.off slot ≤ i ∧ i < s.off slot + s.n slot then j.conv (s.res slot (i - s.off slot)) else s.out i

/-- After round `k`. -/
def nextRound (j : Job X D P Q) (k : ℕ) : MPc := if k + 1 < j.num then .hash (k + 1) else .final

/-- One step of the calling thread; `none` when it waits or has returned.  A wait goes on when its condition holds: every change of the
flags is made under the mutex and followed by `notify_all`.  Not modelled: exceptions (out of memory, or a failed check in a debug
build, with the GPU thread still running end the program); `PipelineSlot::Ensure` always returns true. -/
def stepM (j : Job X D P Q) (s : St D P Q) : Option (St D P Q) :=
  match s.m with
  | .hash k => some { s with
      m := .publish k
      dig := Function.update s.dig (k % 2) fun i => if i < j.size k then j.dig (j.x (k * j.chunk + i)) else s.dig (k % 2) i }
  | .publish k => some { s with
      m := if 0 < k then .await k else nextRound j k
      off := Function.update s.off (k % 2) (k * j.chunk)
      n := Function.update s.n (k % 2) (j.size k)
      rr := Function.update s.rr (k % 2) false
      dr := Function.update s.dr (k % 2) true }
  | .await k =>
    if s.stop then some { s with m := .final }
    else if s.rr ((k - 1) % 2) then some { s with m := .convert k, rr := Function.update s.rr ((k - 1) % 2) false }
    else none
  | .convert k => some { s with m := nextRound j k, out := convertChunk j s ((k - 1) % 2) }
  | .final =>
    if s.stop then some { s with m := .join }
    else if s.rr ((j.num - 1) % 2) then some { s with m := .convLast, rr := Function.update s.rr ((j.num - 1) % 2) false }
    else none
  | .convLast => some { s with m := .join, out := convertChunk j s ((j.num - 1) % 2) }
  | .join =>
    if s.w = .ret then
      if s.stop then some { s with m := .done, again := true, out := fun i => if i < j.count then j.cpu (j.x i) else s.out i }
      else some { s with m := .done }
    else none
  | .done => none

/-- The GPU call on the slot the GPU thread sees: the caller's buffers, or, when it has slots of its own, a slot that was never
constructed.  Its bytes are zero: `use_pinned` is false and the vectors' data pointers are null, and the GPU function refuses null pointers
with `kInvalidInput` (sm2_kernels.cu L2510-2513).  By the C++ standard the access itself is undefined. -/
def gpuCall (j : Job X D P Q) (s : St D P Q) (k n : ℕ) : Option (ℕ → P) :=
  if j.own then none
  else if j.ok k then some fun i => if i < n then j.gpu (s.dig (k % 2) i) else s.res (k % 2) i
  else none

/-- One step of the GPU thread (L868-899). -/
def stepW (j : Job X D P Q) (s : St D P Q) : Option (St D P Q) :=
  match s.w with
  | .wait k =>
    if s.stop then some { s with w := .ret }
    else if s.dr (k % 2) then some { s with w := .run k (s.n (k % 2)), dr := Function.update s.dr (k % 2) false }
    else none
  | .run k n =>
    match gpuCall j s k n with
    | some r => some { s with w := .post k true, res := Function.update s.res (k % 2) r }
    | none => some { s with w := .post k false }
  | .post k ok => some { s with
      w := if ok ∧ k + 1 < j.num then .wait (k + 1) else .ret
      stop := if ok then s.stop else true
      rr := Function.update s.rr (k % 2) true }
  | .ret => none

/-- One step of a thread. -/
def stepT (j : Job X D P Q) (who : Bool) (s : St D P Q) : Option (St D P Q) := if who then stepM j s else stepW j s

/-! ### Specification -/

/-- The states `k` steps lead to. -/
inductive Run (j : Job X D P Q) : ℕ → St D P Q → St D P Q → Prop
  | nil (s) : Run j 0 s s
  | cons {k s t u} (who : Bool) : stepT j who s = some t → Run j k t u → Run j (k + 1) s u

/-- The answer asked for: for every input what the CPU computes. -/
def Right (j : Job X D P Q) (out : ℕ → Q) : Prop := ∀ i < j.count, out i = j.cpu (j.x i)

/-- The buffers a thread is about to touch without holding the mutex. -/
def touchM (j : Job X D P Q) : MPc → Option ℕ
  | .hash k => some (k % 2)
  | .convert k => some ((k - 1) % 2)
  | .convLast => some ((j.num - 1) % 2)
  | _ => none
def touchW : WPc → Option ℕ
  | .run k _ => some (k % 2)
  | _ => none

/-! ### Proof -/

/-- Chunks hashed, published, taken back and converted by the calling thread. -/
def hashed (N : ℕ) : MPc → ℕ
  | .hash k => k | .publish k => k + 1 | .await k => k + 1 | .convert k => k + 1 | _ => N
def pub (N : ℕ) : MPc → ℕ
  | .hash k => k | .publish k => k | .await k => k + 1 | .convert k => k + 1 | _ => N
def cons (N : ℕ) : MPc → ℕ
  | .hash k => k - 1 | .publish k => k - 1 | .await k => k - 1 | .convert k => k | .final => N - 1 | _ => N
def cvt (N : ℕ) : MPc → ℕ
  | .hash k => k - 1 | .publish k => k - 1 | .await k => k - 1 | .convert k => k - 1 | .final => N - 1 | .convLast => N - 1 | _ => N
/-- Chunks taken and posted by the GPU thread. -/
def taken (N : ℕ) : WPc → ℕ
  | .wait k => k | .run k _ => k + 1 | .post k _ => k + 1 | .ret => N
def posted (N : ℕ) : WPc → ℕ
  | .wait k => k | .run k _ => k | .post k _ => k | .ret => N

def goodM (N : ℕ) : MPc → Prop
  | .hash k => k < N | .publish k => k < N | .await k => 0 < k ∧ k < N | .convert k => 0 < k ∧ k < N | _ => True
def goodW (N : ℕ) : WPc → Prop
  | .wait k => k < N | .run k _ => k < N | .post k _ => k < N | .ret => True

/-- Invariant while no call has failed. -/
structure Inv (j : Job X D P Q) (s : St D P Q) : Prop where
  gm : goodM j.num s.m
  gw : goodW j.num s.w
  o1 : cons j.num s.m ≤ posted j.num s.w
  o2 : taken j.num s.w ≤ pub j.num s.m
  o3 : s.m ≠ .done
  dr1 : ∀ c, taken j.num s.w ≤ c → c < pub j.num s.m → s.dr (c % 2) = true
  dr0 : ∀ c, pub j.num s.m ≤ c → c < taken j.num s.w + 2 → s.dr (c % 2) = false
  rr1 : ∀ c, cons j.num s.m ≤ c → c < posted j.num s.w → s.rr (c % 2) = true
  rr0 : ∀ c, posted j.num s.w ≤ c → c < cons j.num s.m + 2 → s.rr (c % 2) = false
  dig : ∀ c, c < hashed j.num s.m → hashed j.num s.m ≤ c + 2 → ∀ i < j.size c, s.dig (c % 2) i = j.dig (j.x (c * j.chunk + i))
  st : ∀ c, c < pub j.num s.m → pub j.num s.m ≤ c + 2 → s.n (c % 2) = j.size c ∧ s.off (c % 2) = c * j.chunk
  run : ∀ k n, s.w = .run k n → n = j.size k
  res : ∀ c, cvt j.num s.m ≤ c → c < posted j.num s.w → ∀ i < j.size c, s.res (c % 2) i = j.gpu (j.dig (j.x (c * j.chunk + i)))
  post : ∀ k, s.w = .post k true → ∀ i < j.size k, s.res (k % 2) i = j.gpu (j.dig (j.x (k * j.chunk + i)))
  out : ∀ i, i < cvt j.num s.m * j.chunk → i < j.count → s.out i = j.cpu (j.x i)
  again : s.again = false

/-- Facts about where the calling thread is. -/
theorem pcs {N : ℕ} (m : MPc) (h : goodM N m) (hN : 2 ≤ N) :
    pub N m ≤ cvt N m + 2 ∧ cvt N m ≤ cons N m ∧ cons N m ≤ cvt N m + 1 ∧ hashed N m ≤ cons N m + 2 ∧ pub N m ≤ hashed N m ∧
      hashed N m ≤ pub N m + 1 ∧ pub N m ≤ N := by
  cases m <;> simp only [goodM, pub, cvt, cons, hashed] at * <;> omega

theorem wpcs {N : ℕ} (w : WPc) (h : goodW N w) : posted N w ≤ taken N w ∧ taken N w ≤ posted N w + 1 ∧ taken N w ≤ N := by
  cases w <;> simp only [goodW, taken, posted] at * <;> omega

theorem upd_mod {α : Type} (f : ℕ → α) (k c : ℕ) (v : α) :
    Function.update f (k % 2) v (c % 2) = if c % 2 = k % 2 then v else f (c % 2) := by
  by_cases h : c % 2 = k % 2
  · rw [h]; simp
  · simp [h]

/-- What `nextRound` stands for. -/
theorem nextRound_num (j : Job X D P Q) (k : ℕ) (h : k < j.num) :
    goodM j.num (nextRound j k) ∧ pub j.num (nextRound j k) = k + 1 ∧ cons j.num (nextRound j k) = k ∧
      cvt j.num (nextRound j k) = k ∧ hashed j.num (nextRound j k) = k + 1 ∧ nextRound j k ≠ .done := by
  unfold nextRound
  split
  · simp [goodM, pub, cons, cvt, hashed]; assumption
  · simp only [goodM, pub, cons, cvt, hashed]; simp; omega

/-- Elements of converted chunks. -/
theorem chunk_size (j : Job X D P Q) (c i : ℕ) (h1 : c * j.chunk ≤ i) (h2 : i < (c + 1) * j.chunk) (h3 : i < j.count) :
    i - c * j.chunk < j.size c := by
  have : (c + 1) * j.chunk = c * j.chunk + j.chunk := by ring
  simp only [Job.size]; omega

/-- Converting chunk `c`. -/
theorem convert_out (j : Job X D P Q) (s : St D P Q) (c : ℕ) (hcpu : ∀ x, j.cpu x = j.conv (j.gpu (j.dig x)))
    (hn : s.n (c % 2) = j.size c) (ho : s.off (c % 2) = c * j.chunk)
    (hr : ∀ i < j.size c, s.res (c % 2) i = j.gpu (j.dig (j.x (c * j.chunk + i))))
    (hout : ∀ i, i < c * j.chunk → i < j.count → s.out i = j.cpu (j.x i)) :
    ∀ i, i < (c + 1) * j.chunk → i < j.count → convertChunk j s (c % 2) i = j.cpu (j.x i) := by
  intro i hi hc
  unfold convertChunk
  rw [hn, ho]
  split
  · next h =>
    have hs : i - c * j.chunk < j.size c := by omega
    rw [hr _ hs, hcpu]
    congr 4
    omega
  · next h =>
    rcases Nat.lt_or_ge i (c * j.chunk) with h1 | h1
    · exact hout i h1 hc
    · have := chunk_size j c i h1 hi hc
      omega

theorem inv_hash {j : Job X D P Q} {s t : St D P Q} (hI : Inv j s) (k : ℕ) (hm : s.m = .hash k) (h : stepM j s = some t) : Inv j t := by
  obtain ⟨gm, gw, o1, o2, o3, dr1, dr0, rr1, rr0, dig, st, run, res, post, out, again⟩ := hI
  simp only [stepM, hm, Option.some.injEq] at h
  subst h
  simp only [hm, pub, cons, cvt, hashed, goodM] at *
  refine ⟨gm, gw, o1, o2, by simp, dr1, dr0, rr1, rr0, ?_, st, run, res, post, out, again⟩
  intro c h1 h2 i hi
  simp only [hashed] at h1 h2
  simp only [upd_mod]
  by_cases hc : c % 2 = k % 2
  · have : c = k := by omega
    subst this
    simp [hi]
  · rw [if_neg hc]
    exact dig c (by omega) (by omega) i hi

theorem inv_publish {j : Job X D P Q} {s t : St D P Q} (hI : Inv j s) (k : ℕ) (hm : s.m = .publish k) (h : stepM j s = some t) :
    Inv j t := by
  obtain ⟨gm, gw, o1, o2, o3, dr1, dr0, rr1, rr0, dig, st, run, res, post, out, again⟩ := hI
  simp only [stepM, hm, Option.some.injEq] at h
  subst h
  simp only [hm, pub, cons, cvt, hashed, goodM] at *
  obtain ⟨w1, w2, w3⟩ := wpcs s.w gw
  obtain ⟨m', hm'⟩ : ∃ m', m' = if 0 < k then MPc.await k else nextRound j k := ⟨_, rfl⟩
  have hnum : goodM j.num m' ∧ pub j.num m' = k + 1 ∧ cons j.num m' = k - 1 ∧ cvt j.num m' = k - 1 ∧ hashed j.num m' = k + 1 ∧ m' ≠ .done := by
    rw [hm']
    split
    · next hk => simp [goodM, pub, cons, cvt, hashed, hk, gm]
    · next hk =>
      have hk0 : k = 0 := by omega
      subst hk0
      exact nextRound_num j 0 gm
  obtain ⟨n1, n2, n3, n4, n5, n6⟩ := hnum
  rw [← hm']
  refine ⟨n1, gw, ?_, ?_, n6, ?_, ?_, ?_, ?_, ?_, ?_, run, ?_, post, ?_, again⟩ <;> simp only [n2, n3, n4, n5, upd_mod]
  · exact o1
  · omega
  · intro c h1 h2
    by_cases hc : c % 2 = k % 2
    · rw [if_pos hc]
    · rw [if_neg hc]; exact dr1 c h1 (by omega)
  · intro c h1 h2
    rw [if_neg (by omega)]; exact dr0 c (by omega) h2
  · intro c h1 h2
    rw [if_neg (by omega)]; exact rr1 c h1 h2
  · intro c h1 h2
    by_cases hc : c % 2 = k % 2
    · rw [if_pos hc]
    · rw [if_neg hc]; exact rr0 c h1 h2
  · exact dig
  · intro c h1 h2
    by_cases hc : c % 2 = k % 2
    · have : c = k := by omega
      subst this
      simp
    · rw [if_neg hc, if_neg hc]; exact st c (by omega) (by omega)
  · exact res
  · exact out

theorem inv_await {j : Job X D P Q} {s t : St D P Q} (hI : Inv j s) (hs : s.stop = false) (k : ℕ) (hm : s.m = .await k)
    (h : stepM j s = some t) : Inv j t := by
  obtain ⟨gm, gw, o1, o2, o3, dr1, dr0, rr1, rr0, dig, st, run, res, post, out, again⟩ := hI
  simp only [stepM, hm, hs, Bool.false_eq_true, if_false] at h
  split at h
  swap
  · exact absurd h (by simp)
  next hrr =>
  simp only [Option.some.injEq] at h
  subst h
  simp only [hm, pub, cons, cvt, hashed, goodM] at *
  obtain ⟨w1, w2, w3⟩ := wpcs s.w gw
  have hp : k - 1 < posted j.num s.w := by
    by_contra hc
    have := rr0 (k - 1) (by omega) (by omega)
    rw [this] at hrr
    exact absurd hrr (by simp)
  refine ⟨gm, gw, ?_, o2, by simp, dr1, dr0, ?_, ?_, dig, st, run, res, post, out, again⟩ <;> simp only [cons, upd_mod]
  · omega
  · intro c h1 h2
    rw [if_neg (by omega)]; exact rr1 c (by omega) h2
  · intro c h1 h2
    by_cases hc : c % 2 = (k - 1) % 2
    · rw [if_pos hc]
    · rw [if_neg hc]; exact rr0 c h1 (by omega)

theorem inv_convert {j : Job X D P Q} {s t : St D P Q} (hcpu : ∀ x, j.cpu x = j.conv (j.gpu (j.dig x))) (hI : Inv j s) (k : ℕ)
    (hm : s.m = .convert k) (h : stepM j s = some t) : Inv j t := by
  obtain ⟨gm, gw, o1, o2, o3, dr1, dr0, rr1, rr0, dig, st, run, res, post, out, again⟩ := hI
  simp only [stepM, hm, Option.some.injEq] at h
  subst h
  simp only [hm, pub, cons, cvt, hashed, goodM] at *
  obtain ⟨n1, n2, n3, n4, n5, n6⟩ := nextRound_num j k gm.2
  refine ⟨n1, gw, ?_, ?_, n6, ?_, ?_, ?_, ?_, ?_, ?_, run, ?_, post, ?_, again⟩ <;> simp only [n2, n3, n4, n5]
  · exact o1
  · exact o2
  · exact dr1
  · exact dr0
  · exact rr1
  · exact rr0
  · exact dig
  · exact st
  · intro c h1 h2; exact res c (by omega) h2
  · have := convert_out j s (k - 1) hcpu (st (k - 1) (by omega) (by omega)).1 (st (k - 1) (by omega) (by omega)).2
      (res (k - 1) (by omega) (by omega)) out
    rwa [Nat.sub_add_cancel gm.1] at this

theorem inv_final {j : Job X D P Q} {s t : St D P Q} (hN : 2 ≤ j.num) (hI : Inv j s) (hs : s.stop = false) (hm : s.m = .final)
    (h : stepM j s = some t) : Inv j t := by
  obtain ⟨gm, gw, o1, o2, o3, dr1, dr0, rr1, rr0, dig, st, run, res, post, out, again⟩ := hI
  simp only [stepM, hm, hs, Bool.false_eq_true, if_false] at h
  split at h
  swap
  · exact absurd h (by simp)
  next hrr =>
  simp only [Option.some.injEq] at h
  subst h
  simp only [hm, pub, cons, cvt, hashed, goodM] at *
  have hp : j.num - 1 < posted j.num s.w := by
    by_contra hc
    have := rr0 (j.num - 1) (by omega) (by omega)
    rw [this] at hrr
    exact absurd hrr (by simp)
  refine ⟨trivial, gw, ?_, o2, by simp, dr1, dr0, ?_, ?_, dig, st, run, res, post, out, again⟩ <;> simp only [cons, upd_mod]
  · omega
  · intro c h1 h2
    rw [if_neg (by obtain ⟨w1, w2, w3⟩ := wpcs s.w gw; omega)]; exact rr1 c (by omega) h2
  · intro c h1 h2
    by_cases hc : c % 2 = (j.num - 1) % 2
    · rw [if_pos hc]
    · rw [if_neg hc]
      have : c = j.num := by omega
      exact rr0 c h1 (by omega)

theorem inv_convLast {j : Job X D P Q} {s t : St D P Q} (hcpu : ∀ x, j.cpu x = j.conv (j.gpu (j.dig x))) (hN : 2 ≤ j.num)
    (hI : Inv j s) (hm : s.m = .convLast) (h : stepM j s = some t) : Inv j t := by
  obtain ⟨gm, gw, o1, o2, o3, dr1, dr0, rr1, rr0, dig, st, run, res, post, out, again⟩ := hI
  simp only [stepM, hm, Option.some.injEq] at h
  subst h
  simp only [hm, pub, cons, cvt, hashed, goodM] at *
  refine ⟨trivial, gw, o1, o2, by simp, dr1, dr0, rr1, rr0, dig, st, run, ?_, post, ?_, again⟩ <;> simp only [cvt]
  · intro c h1 h2; exact res c (by omega) h2
  · have := convert_out j s (j.num - 1) hcpu (st (j.num - 1) (by omega) (by omega)).1 (st (j.num - 1) (by omega) (by omega)).2
      (res (j.num - 1) (by omega) (by omega)) out
    rwa [Nat.sub_add_cancel (by omega)] at this

theorem inv_wait {j : Job X D P Q} {s t : St D P Q} (hN : 2 ≤ j.num) (hI : Inv j s) (hs : s.stop = false) (k : ℕ) (hw : s.w = .wait k)
    (h : stepW j s = some t) : Inv j t := by
  obtain ⟨gm, gw, o1, o2, o3, dr1, dr0, rr1, rr0, dig, st, run, res, post, out, again⟩ := hI
  simp only [stepW, hw, hs, Bool.false_eq_true, if_false] at h
  split at h
  swap
  · exact absurd h (by simp)
  next hdr =>
  simp only [Option.some.injEq] at h
  subst h
  obtain ⟨m1, m2, m3, m4, m5, m6, m7⟩ := pcs s.m gm hN
  simp only [hw, taken, posted, goodW] at *
  have hp : k < pub j.num s.m := by
    by_contra hc
    have := dr0 k (by omega) (by omega)
    rw [this] at hdr
    exact absurd hdr (by simp)
  refine ⟨gm, gw, o1, ?_, o3, ?_, ?_, rr1, rr0, dig, st, ?_, res, by simp, out, again⟩ <;> simp only [taken, upd_mod]
  · omega
  · intro c h1 h2
    rw [if_neg (by omega)]; exact dr1 c (by omega) h2
  · intro c h1 h2
    by_cases hc : c % 2 = k % 2
    · rw [if_pos hc]
    · rw [if_neg hc]; exact dr0 c h1 (by omega)
  · intro k' n' heq
    simp only [WPc.run.injEq] at heq
    obtain ⟨rfl, rfl⟩ := heq
    exact (st k hp (by omega)).1

theorem inv_run {j : Job X D P Q} {s t : St D P Q} (hN : 2 ≤ j.num) (hI : Inv j s) (k n : ℕ) (hw : s.w = .run k n)
    (h : stepW j s = some t) : Inv j t := by
  obtain ⟨gm, gw, o1, o2, o3, dr1, dr0, rr1, rr0, dig, st, run, res, post, out, again⟩ := hI
  obtain ⟨m1, m2, m3, m4, m5, m6, m7⟩ := pcs s.m gm hN
  have hn := run k n hw
  subst hn
  simp only [stepW, hw] at h
  simp only [hw, taken, posted, goodW] at *
  split at h
  · next r hr =>
    simp only [Option.some.injEq] at h
    subst h
    have hr' : r = fun i => if i < j.size k then j.gpu (s.dig (k % 2) i) else s.res (k % 2) i := by
      unfold gpuCall at hr
      split at hr
      · exact absurd hr (by simp)
      · split at hr
        · simpa using hr.symm
        · exact absurd hr (by simp)
    subst hr'
    refine ⟨gm, gw, o1, o2, o3, dr1, dr0, rr1, rr0, dig, st, by simp, ?_, ?_, out, again⟩ <;> simp only [upd_mod]
    · intro c h1 h2
      simp only [posted] at h2
      rw [if_neg (by omega)]
      exact res c h1 h2
    · intro k' hk i hi
      simp only [WPc.post.injEq, and_true] at hk
      subst hk
      simp only [if_true, hi]
      rw [dig k (by omega) (by omega) i hi]
  · simp only [Option.some.injEq] at h
    subst h
    exact ⟨gm, gw, o1, o2, o3, dr1, dr0, rr1, rr0, dig, st, by simp, res, by simp, out, again⟩

theorem inv_post {j : Job X D P Q} {s t : St D P Q} (hN : 2 ≤ j.num) (hI : Inv j s) (k : ℕ) (hw : s.w = .post k true)
    (h : stepW j s = some t) : Inv j t := by
  obtain ⟨gm, gw, o1, o2, o3, dr1, dr0, rr1, rr0, dig, st, run, res, post, out, again⟩ := hI
  obtain ⟨m1, m2, m3, m4, m5, m6, m7⟩ := pcs s.m gm hN
  have hpost := post k hw
  simp only [stepW, hw, Option.some.injEq, true_and, if_true] at h
  subst h
  simp only [hw, taken, posted, goodW] at *
  obtain ⟨w', hw'⟩ : ∃ w', w' = if k + 1 < j.num then WPc.wait (k + 1) else WPc.ret := ⟨_, rfl⟩
  have hnum : goodW j.num w' ∧ taken j.num w' = k + 1 ∧ posted j.num w' = k + 1 ∧ (∀ a b, w' ≠ .run a b) ∧ ∀ a b, w' ≠ .post a b := by
    rw [hw']
    split
    · next hk => simp [goodW, taken, posted, hk]
    · next hk => simp only [goodW, taken, posted]; simp; omega
  obtain ⟨n1, n2, n3, n4, n5⟩ := hnum
  rw [← hw']
  refine ⟨gm, n1, ?_, ?_, o3, ?_, ?_, ?_, ?_, dig, st, fun a b hab => absurd hab (n4 a b), ?_, fun a hab => absurd hab (n5 a true), out, again⟩ <;>
    simp only [n2, n3, upd_mod]
  · omega
  · exact o2
  · exact dr1
  · exact dr0
  · intro c h1 h2
    by_cases hc : c % 2 = k % 2
    · rw [if_pos hc]
    · rw [if_neg hc]; exact rr1 c h1 (by omega)
  · intro c h1 h2
    rw [if_neg (by omega)]; exact rr0 c (by omega) h2
  · intro c h1 h2
    rcases Nat.lt_or_ge c k with hc | hc
    · exact res c h1 hc
    · have : c = k := by omega
      subst this
      exact hpost

/-- The invariant over all states. -/
def Good (j : Job X D P Q) (s : St D P Q) : Prop :=
  (s.stop = false ∧ Inv j s) ∨
  (s.stop = true ∧ s.w = .ret ∧ (s.m = .done → s.again = true ∧ Right j s.out)) ∨
  (s.stop = false ∧ s.w = .ret ∧ s.m = .done ∧ s.again = false ∧ Right j s.out)

theorem num_le (j : Job X D P Q) (hc : 0 < j.chunk) : j.count ≤ j.num * j.chunk := by
  have h2 : j.count + j.chunk - 1 < (j.num + 1) * j.chunk := Nat.lt_mul_of_div_lt (Nat.lt_succ_self _) hc
  have : (j.num + 1) * j.chunk = j.num * j.chunk + j.chunk := by ring
  omega

theorem num_two (j : Job X D P Q) (hc : 0 < j.chunk) (h : 2 * j.chunk ≤ j.count) : 2 ≤ j.num := by
  have := num_le j hc
  by_contra hlt
  have h1 : j.num ≤ 1 := by omega
  have h2 : j.num * j.chunk ≤ 1 * j.chunk := Nat.mul_le_mul_right _ h1
  omega

theorem good_start (j : Job X D P Q) (hN : 2 ≤ j.num) (dig : ℕ → ℕ → D) (res : ℕ → ℕ → P) (out : ℕ → Q) :
    Good j (start dig res out) := by
  left
  refine ⟨rfl, ?_⟩
  constructor <;> simp [start, goodM, goodW, pub, cons, cvt, hashed, taken, posted] <;> omega

theorem good_step {j : Job X D P Q} {s t : St D P Q} (hcpu : ∀ x, j.cpu x = j.conv (j.gpu (j.dig x))) (hc : 0 < j.chunk)
    (hN : 2 ≤ j.num) (hg : Good j s) (who : Bool) (h : stepT j who s = some t) : Good j t := by
  rcases hg with ⟨hs, hI⟩ | ⟨hs, hw, hd⟩ | ⟨hs, hw, hm, -, -⟩
  · cases who
    · simp only [stepT, Bool.false_eq_true, if_false] at h
      cases hw : s.w with
      | wait k =>
        have ht := inv_wait hN hI hs k hw h
        simp only [stepW, hw, hs, Bool.false_eq_true, if_false] at h
        split at h <;> simp only [Option.some.injEq, reduceCtorEq] at h
        exact .inl ⟨by subst h; first | exact hs | rfl, ht⟩
      | run k n =>
        have ht := inv_run hN hI k n hw h
        simp only [stepW, hw] at h
        split at h <;> simp only [Option.some.injEq] at h <;> exact .inl ⟨by subst h; first | exact hs | rfl, ht⟩
      | post k ok =>
        cases ok
        · simp only [stepW, hw, Bool.false_eq_true, false_and, if_false, Option.some.injEq] at h
          subst h
          exact .inr (.inl ⟨rfl, rfl, fun hm => absurd hm hI.o3⟩)
        · have ht := inv_post hN hI k hw h
          simp only [stepW, hw, Option.some.injEq, true_and, if_true] at h
          exact .inl ⟨by subst h; first | exact hs | rfl, ht⟩
      | ret => simp [stepW, hw] at h
    · simp only [stepT, if_true] at h
      cases hm : s.m with
      | hash k =>
        have ht := inv_hash hI k hm h
        simp only [stepM, hm, Option.some.injEq] at h
        exact .inl ⟨by subst h; first | exact hs | rfl, ht⟩
      | publish k =>
        have ht := inv_publish hI k hm h
        simp only [stepM, hm, Option.some.injEq] at h
        exact .inl ⟨by subst h; first | exact hs | rfl, ht⟩
      | await k =>
        have ht := inv_await hI hs k hm h
        simp only [stepM, hm, hs, Bool.false_eq_true, if_false] at h
        split at h <;> simp only [Option.some.injEq, reduceCtorEq] at h
        exact .inl ⟨by subst h; first | exact hs | rfl, ht⟩
      | convert k =>
        have ht := inv_convert hcpu hI k hm h
        simp only [stepM, hm, Option.some.injEq] at h
        exact .inl ⟨by subst h; first | exact hs | rfl, ht⟩
      | final =>
        have ht := inv_final hN hI hs hm h
        simp only [stepM, hm, hs, Bool.false_eq_true, if_false] at h
        split at h <;> simp only [Option.some.injEq, reduceCtorEq] at h
        exact .inl ⟨by subst h; first | exact hs | rfl, ht⟩
      | convLast =>
        have ht := inv_convLast hcpu hN hI hm h
        simp only [stepM, hm, Option.some.injEq] at h
        exact .inl ⟨by subst h; first | exact hs | rfl, ht⟩
      | join =>
        simp only [stepM, hm, hs, Bool.false_eq_true, if_false] at h
        split at h <;> simp only [Option.some.injEq, reduceCtorEq] at h
        next hw =>
        subst h
        refine .inr (.inr ⟨rfl, hw, rfl, hI.again, fun i hi => ?_⟩)
        have hout := hI.out i
        simp only [hm, cvt] at hout
        exact hout (by have := num_le j hc; omega) hi
      | done => simp [stepM, hm] at h
  · cases who
    · simp [stepT, stepW, hw] at h
    · simp only [stepT, if_true] at h
      right; left
      cases hm : s.m with
      | hash k =>
        simp only [stepM, hm, Option.some.injEq] at h; subst h; exact ⟨hs, hw, by simp⟩
      | publish k =>
        simp only [stepM, hm, Option.some.injEq] at h; subst h
        refine ⟨hs, hw, fun hd => ?_⟩
        simp only [nextRound] at hd
        split at hd
        · exact absurd hd (by simp)
        · split at hd <;> exact absurd hd (by simp)
      | await k => simp only [stepM, hm, hs, if_true, Option.some.injEq] at h; subst h; exact ⟨rfl, hw, by simp⟩
      | convert k =>
        simp only [stepM, hm, Option.some.injEq] at h; subst h
        refine ⟨hs, hw, fun hd => ?_⟩
        simp only [nextRound] at hd
        split at hd <;> exact absurd hd (by simp)
      | final => simp only [stepM, hm, hs, if_true, Option.some.injEq] at h; subst h; exact ⟨rfl, hw, by simp⟩
      | convLast => simp only [stepM, hm, Option.some.injEq] at h; subst h; exact ⟨hs, hw, by simp⟩
      | join =>
        simp only [stepM, hm, hs, hw, if_true, Option.some.injEq] at h; subst h
        exact ⟨rfl, rfl, fun _ => ⟨rfl, fun i hi => by simp [hi]⟩⟩
      | done => simp [stepM, hm] at h
  · cases who
    · simp [stepT, stepW, hw] at h
    · simp [stepT, stepM, hm] at h

theorem good_run {j : Job X D P Q} {k : ℕ} {s t : St D P Q} (hcpu : ∀ x, j.cpu x = j.conv (j.gpu (j.dig x))) (hc : 0 < j.chunk)
    (hN : 2 ≤ j.num) (hg : Good j s) (h : Run j k s t) : Good j t := by
  induction h with
  | nil => exact hg
  | cons who hst _ ih => exact ih (good_step hcpu hc hN hg who hst)

theorem progress {j : Job X D P Q} {s : St D P Q} (hN : 2 ≤ j.num) (hg : Good j s) :
    (s.m = .done ∧ s.w = .ret) ∨ ∃ who t, stepT j who s = some t := by
  rcases hg with ⟨hs, hI⟩ | ⟨hs, hw, hd⟩ | ⟨hs, hw, hm, -, -⟩
  · right
    have key : ∀ c, cons j.num s.m ≤ c → c < pub j.num s.m → c < j.num → posted j.num s.w ≤ c → ∃ t, stepW j s = some t := by
      intro c h1 h2 h3 h4
      cases hw : s.w with
      | wait k =>
        have hk : k ≤ c := by simpa [hw, posted] using h4
        have := hI.dr1 k (by simp [hw, taken]) (by omega)
        exact ⟨_, by simp only [stepW, hw, hs, this, Bool.false_eq_true, if_false, if_true]; rfl⟩
      | run k n =>
        cases hgp : gpuCall j s k n with
        | none => exact ⟨{ s with w := .post k false }, by simp [stepW, hw, hgp]⟩
        | some r => exact ⟨{ s with w := .post k true, res := Function.update s.res (k % 2) r }, by simp [stepW, hw, hgp]⟩
      | post k ok => exact ⟨_, by simp only [stepW, hw]; rfl⟩
      | ret => simp [hw, posted] at h4; omega
    cases hm : s.m with
    | hash k => exact ⟨true, _, by simp only [stepT, if_true, stepM, hm]; rfl⟩
    | publish k => exact ⟨true, _, by simp only [stepT, if_true, stepM, hm]; rfl⟩
    | convert k => exact ⟨true, _, by simp only [stepT, if_true, stepM, hm]; rfl⟩
    | convLast => exact ⟨true, _, by simp only [stepT, if_true, stepM, hm]; rfl⟩
    | done => exact absurd hm hI.o3
    | await k =>
      have gm := hI.gm
      simp only [hm, goodM] at gm
      rcases Nat.lt_or_ge (k - 1) (posted j.num s.w) with hp | hp
      · have := hI.rr1 (k - 1) (by simp [hm, cons]) hp
        exact ⟨true, _, by simp only [stepT, if_true, stepM, hm, hs, this, Bool.false_eq_true, if_false]; rfl⟩
      · obtain ⟨t, ht⟩ := key (k - 1) (by simp [hm, cons]) (by simp only [hm, pub]; omega) (by omega) hp
        exact ⟨false, t, by simpa [stepT] using ht⟩
    | final =>
      rcases Nat.lt_or_ge (j.num - 1) (posted j.num s.w) with hp | hp
      · have := hI.rr1 (j.num - 1) (by simp [hm, cons]) hp
        exact ⟨true, _, by simp only [stepT, if_true, stepM, hm, hs, this, Bool.false_eq_true, if_false]; rfl⟩
      · obtain ⟨t, ht⟩ := key (j.num - 1) (by simp [hm, cons]) (by simp only [hm, pub]; omega) (by omega) hp
        exact ⟨false, t, by simpa [stepT] using ht⟩
    | join =>
      have o1 := hI.o1
      have gw := hI.gw
      have hw : s.w = .ret := by
        cases hw : s.w <;> simp [hw, hm, cons, posted, goodW] at o1 gw <;> first | rfl | omega
      exact ⟨true, { s with m := .done }, by simp [stepT, stepM, hm, hw, hs]⟩
  · cases hm : s.m with
    | done => exact .inl ⟨rfl, hw⟩
    | hash k => exact .inr ⟨true, _, by simp only [stepT, if_true, stepM, hm]; rfl⟩
    | publish k => exact .inr ⟨true, _, by simp only [stepT, if_true, stepM, hm]; rfl⟩
    | convert k => exact .inr ⟨true, _, by simp only [stepT, if_true, stepM, hm]; rfl⟩
    | convLast => exact .inr ⟨true, _, by simp only [stepT, if_true, stepM, hm]; rfl⟩
    | await k => exact .inr ⟨true, _, by simp only [stepT, if_true, stepM, hm, hs]; rfl⟩
    | final => exact .inr ⟨true, _, by simp only [stepT, if_true, stepM, hm, hs]; rfl⟩
    | join => exact .inr ⟨true, _, by simp only [stepT, if_true, stepM, hm, hs, hw]; rfl⟩
  · exact .inl ⟨hm, hw⟩

/-- Steps left, at most. -/
def rankM (N : ℕ) : MPc → ℕ
  | .hash k => 4 * (N - k) + 10 | .publish k => 4 * (N - k) + 9 | .await k => 4 * (N - k) + 8 | .convert k => 4 * (N - k) + 7
  | .final => 6 | .convLast => 5 | .join => 4 | .done => 0
def rankW (N : ℕ) : WPc → ℕ
  | .wait k => 3 * (N - k) + 3 | .run k _ => 3 * (N - k) + 2 | .post k _ => 3 * (N - k) + 1 | .ret => 0

theorem rank_nextRound (j : Job X D P Q) (k : ℕ) : rankM j.num (nextRound j k) < 4 * (j.num - k) + 7 := by
  unfold nextRound
  split <;> simp only [rankM] <;> omega

theorem rank_step {j : Job X D P Q} {s t : St D P Q} (who : Bool) (h : stepT j who s = some t) :
    rankM j.num t.m + rankW j.num t.w < rankM j.num s.m + rankW j.num s.w := by
  cases who
  · simp only [stepT, Bool.false_eq_true, if_false] at h
    cases hw : s.w with
    | wait k =>
      simp only [stepW, hw] at h
      split at h
      · cases h; simp only [rankW]; omega
      · split at h
        · cases h; simp only [rankW]; omega
        · exact absurd h (by simp)
    | run k n =>
      simp only [stepW, hw] at h
      split at h <;> cases h <;> simp only [rankW] <;> omega
    | post k ok =>
      simp only [stepW, hw] at h
      cases h
      simp only
      split <;> simp only [rankW] <;> omega
    | ret => simp [stepW, hw] at h
  · simp only [stepT, if_true] at h
    cases hm : s.m with
    | hash k => simp only [stepM, hm] at h; cases h; simp only [rankM]; omega
    | publish k =>
      simp only [stepM, hm] at h; cases h
      have := rank_nextRound j k
      simp only
      split <;> simp only [rankM] at * <;> omega
    | await k =>
      simp only [stepM, hm] at h
      split at h
      · cases h; simp only [rankM]; omega
      · split at h
        · cases h; simp only [rankM]; omega
        · exact absurd h (by simp)
    | convert k =>
      simp only [stepM, hm] at h; cases h
      have := rank_nextRound j k
      simp only [rankM] at *; omega
    | final =>
      simp only [stepM, hm] at h
      split at h
      · cases h; simp only [rankM]; omega
      · split at h
        · cases h; simp only [rankM]; omega
        · exact absurd h (by simp)
    | convLast => simp only [stepM, hm] at h; cases h; simp only [rankM]; omega
    | join =>
      simp only [stepM, hm] at h
      split at h
      · split at h <;> cases h <;> simp only [rankM] <;> omega
      · exact absurd h (by simp)
    | done => simp [stepM, hm] at h

theorem rank_run {j : Job X D P Q} {k : ℕ} {s t : St D P Q} (h : Run j k s t) :
    rankM j.num t.m + rankW j.num t.w + k ≤ rankM j.num s.m + rankW j.num s.w := by
  induction h with
  | nil => omega
  | cons who hst _ ih => have := rank_step who hst; omega

/-! ### The property -/

/-- C147.  Under every schedule of the two threads, whatever the GPU calls return, and whether or not the GPU thread sees the caller's
slots: one of the threads can go on until both have returned, and then every result is what the CPU would have computed.  `hcpu` is the
contract of the GPU function: a call that succeeds agrees with the CPU. -/
theorem C147_pipeline (j : Job X D P Q) (hcpu : ∀ x, j.cpu x = j.conv (j.gpu (j.dig x))) (hc : 0 < j.chunk) (hN : 2 * j.chunk ≤ j.count)
    (dig : ℕ → ℕ → D) (res : ℕ → ℕ → P) (out : ℕ → Q) (k : ℕ) (s : St D P Q) (h : Run j k (start dig res out) s) :
    ((s.m = .done ∧ s.w = .ret) ∨ ∃ who t, stepT j who s = some t) ∧ (s.m = .done → Right j s.out) := by
  have h2 := num_two j hc hN
  have hg := good_run hcpu hc h2 (good_start j h2 dig res out) h
  refine ⟨progress h2 hg, fun hm => ?_⟩
  rcases hg with ⟨-, hI⟩ | ⟨-, -, hd⟩ | ⟨-, -, -, -, hr⟩
  · exact absurd hm hI.o3
  · exact (hd hm).2
  · exact hr

/-- C147.  The call ends: no schedule is longer than seven steps per chunk and a few more. -/
theorem C147_ends (j : Job X D P Q) (dig : ℕ → ℕ → D) (res : ℕ → ℕ → P) (out : ℕ → Q) (k : ℕ) (s : St D P Q)
    (h : Run j k (start dig res out) s) : k ≤ 7 * j.num + 13 := by
  have := rank_run h
  simp only [start, rankM, rankW] at this
  omega

/-- C147.  The two threads never touch the buffers of one slot at the same time. -/
theorem C147_race_free (j : Job X D P Q) (hcpu : ∀ x, j.cpu x = j.conv (j.gpu (j.dig x))) (hc : 0 < j.chunk)
    (hN : 2 * j.chunk ≤ j.count) (dig : ℕ → ℕ → D) (res : ℕ → ℕ → P) (out : ℕ → Q) (k : ℕ) (s : St D P Q)
    (h : Run j k (start dig res out) s) (slot : ℕ) : ¬ (touchM j s.m = some slot ∧ touchW s.w = some slot) := by
  have h2 := num_two j hc hN
  rcases good_run hcpu hc h2 (good_start j h2 dig res out) h with ⟨hs, hI⟩ | ⟨-, hw, -⟩ | ⟨-, hw, -⟩
  · rintro ⟨hm, hw⟩
    have o1 := hI.o1
    have o2 := hI.o2
    have gm := hI.gm
    cases hw' : s.w <;> simp only [hw', touchW, reduceCtorEq, Option.some.injEq] at hw
    next a b =>
    cases hm' : s.m <;> simp only [hm', touchM, reduceCtorEq, Option.some.injEq] at hm <;>
      simp only [hm', hw', cons, pub, taken, posted, goodM] at o1 o2 gm <;> omega
  · simp [hw, touchW]
  · simp [hw, touchW]

/-- C147, as intended.  If the GPU thread sees the caller's slots and no GPU call fails, nothing is computed twice. -/
theorem C147_once (j : Job X D P Q) (hown : j.own = false) (hok : ∀ k, j.ok k = true) (dig : ℕ → ℕ → D) (res : ℕ → ℕ → P) (out : ℕ → Q)
    (k : ℕ) (s : St D P Q) (h : Run j k (start dig res out) s) : s.again = false := by
  have : ∀ {k} {s t : St D P Q}, Run j k s t → (s.stop = false ∧ (∀ c, s.w ≠ .post c false) ∧ s.again = false) →
      t.stop = false ∧ (∀ c, t.w ≠ .post c false) ∧ t.again = false := by
    intro k s t hr
    induction hr with
    | nil => exact id
    | @cons k s t u who hst _ ih =>
      rintro ⟨h1, h2, h3⟩
      apply ih
      cases who
      · simp only [stepT, Bool.false_eq_true, if_false] at hst
        cases hw : s.w with
        | wait c =>
          simp only [stepW, hw, h1, Bool.false_eq_true, if_false] at hst
          split at hst <;> cases hst
          exact ⟨rfl, by simp, h3⟩
        | run c n =>
          simp only [stepW, hw, gpuCall, hown, hok, Bool.false_eq_true, if_false, if_true] at hst
          cases hst
          exact ⟨h1, by simp, h3⟩
        | post c ok =>
          have hok' : ok = true := by
            cases ok
            · exact absurd hw (h2 c)
            · rfl
          subst hok'
          simp only [stepW, hw, if_true, true_and] at hst
          cases hst
          refine ⟨h1, fun c' => ?_, h3⟩
          simp only
          split <;> simp
        | ret => simp [stepW, hw] at hst
      · simp only [stepT, if_true] at hst
        cases hm : s.m <;> simp only [stepM, hm, h1, Bool.false_eq_true, if_false] at hst
        all_goals first
          | (cases hst; done)
          | (cases hst; exact ⟨h1, h2, h3⟩)
          | (cases hst; exact ⟨rfl, h2, h3⟩)
          | (split at hst <;> cases hst <;> exact ⟨rfl, h2, h3⟩)
  exact (this h ⟨rfl, by simp [start], rfl⟩).2.2

/-- C147 fails in what the pipeline is for: with slots of its own, as in the code, the GPU thread never delivers anything.  Every call that
ends has computed everything again after the pipeline, whatever the GPU does. -/
theorem C147_slots_violated (j : Job X D P Q) (hown : j.own = true) (dig : ℕ → ℕ → D) (res : ℕ → ℕ → P) (out : ℕ → Q) (k : ℕ)
    (s : St D P Q) (h : Run j k (start dig res out) s) :
    s.res = res ∧ (∀ slot, s.stop = false → s.rr slot = false) ∧ (s.m = .done → s.again = true) := by
  let I : St D P Q → Prop := fun s => s.res = res ∧ (s.stop = false → ∀ slot, s.rr slot = false) ∧ (s.m = .done → s.again = true) ∧
    (s.stop = false → s.m ≠ .convLast ∧ s.m ≠ .join ∧ s.w ≠ .ret ∧ ∀ c, s.w ≠ .post c true)
  have step : ∀ {s t : St D P Q} who, stepT j who s = some t → I s → I t := by
    rintro s t who hst ⟨h1, h2, h3, h4⟩
    cases who
    · simp only [stepT, Bool.false_eq_true, if_false] at hst
      cases hw : s.w with
      | wait c =>
        simp only [stepW, hw] at hst
        split at hst
        · next hs => cases hst; exact ⟨h1, h2, h3, fun hc => absurd hc (by simp [hs])⟩
        · split at hst <;> cases hst
          next hs _ =>
          have hs' : s.stop = false := by simpa using hs
          exact ⟨h1, h2, h3, fun _ => ⟨(h4 hs').1, (h4 hs').2.1, by simp, by simp⟩⟩
      | run c n =>
        simp only [stepW, hw, gpuCall, hown, if_true] at hst
        cases hst
        exact ⟨h1, h2, h3, fun hs => ⟨(h4 hs).1, (h4 hs).2.1, by simp, by simp⟩⟩
      | post c ok =>
        simp only [stepW, hw] at hst
        cases hst
        cases ok
        · exact ⟨h1, by simp, h3, by simp⟩
        · refine ⟨h1, ?_, h3, ?_⟩ <;> simp only [if_true] <;> intro hs <;> exact absurd hw ((h4 hs).2.2.2 c)
      | ret => simp [stepW, hw] at hst
    · simp only [stepT, if_true] at hst
      have upd : ∀ k v, (s.stop = false → v = false) → s.stop = false → ∀ slot, Function.update s.rr k v slot = false := by
        intro k v hv hs slot
        rw [Function.update_apply]
        split
        · exact hv hs
        · exact h2 hs slot
      have nr : ∀ k, nextRound j k ≠ .done ∧ nextRound j k ≠ .convLast ∧ nextRound j k ≠ .join := by
        intro k
        unfold nextRound
        split <;> simp
      cases hm : s.m with
      | hash k => simp only [stepM, hm] at hst; cases hst; exact ⟨h1, h2, by simp, fun hs => ⟨by simp, by simp, (h4 hs).2.2⟩⟩
      | publish k =>
        simp only [stepM, hm] at hst; cases hst
        refine ⟨h1, upd _ _ (fun _ => rfl), ?_, fun hs => ⟨?_, ?_, (h4 hs).2.2⟩⟩ <;> simp only <;> split <;> simp [nr]
      | await k =>
        simp only [stepM, hm] at hst
        split at hst
        · next hs => cases hst; exact ⟨h1, h2, by simp, fun hc => absurd hc (by simp [hs])⟩
        · next hs =>
          have hs' : s.stop = false := by simpa using hs
          rw [h2 hs'] at hst
          exact absurd hst (by simp)
      | convert k =>
        simp only [stepM, hm] at hst; cases hst
        exact ⟨h1, h2, fun hd => absurd hd (nr k).1, fun hs => ⟨(nr k).2.1, (nr k).2.2, (h4 hs).2.2⟩⟩
      | final =>
        simp only [stepM, hm] at hst
        split at hst
        · next hs => cases hst; exact ⟨h1, h2, by simp, fun hc => absurd hc (by simp [hs])⟩
        · next hs =>
          have hs' : s.stop = false := by simpa using hs
          rw [h2 hs'] at hst
          exact absurd hst (by simp)
      | convLast =>
        simp only [stepM, hm] at hst; cases hst
        exact ⟨h1, h2, by simp, fun hs => absurd hm (h4 hs).1⟩
      | join =>
        simp only [stepM, hm] at hst
        split at hst
        · split at hst
          · next hs => cases hst; exact ⟨h1, h2, fun _ => rfl, fun hc => absurd hc (by simp [hs])⟩
          · next hs =>
            have hs' : s.stop = false := by simpa using hs
            exact absurd hm (h4 hs').2.1
        · exact absurd hst (by simp)
      | done => simp [stepM, hm] at hst
  have all : ∀ {k} {s t : St D P Q}, Run j k s t → I s → I t := by
    intro k s t hr
    induction hr with
    | nil => exact id
    | cons who hst _ ih => exact fun hi => ih (step who hst hi)
  obtain ⟨h1, h2, h3, -⟩ := all h (show I (start dig res out) from ⟨rfl, by simp [start], by simp [start], by simp [start]⟩)
  exact ⟨h1, fun slot hs => h2 hs slot, h3⟩

/-- cuda_sm2_group.cc L866 in `int32_t`: `none` when the sum overflows. -/
def numInt32 (count : ℕ) : Option ℕ := if count + 131072 - 1 < 2 ^ 31 then some ((count + 131072 - 1) / 131072) else none

/-- C147 fails for the largest batches that pass the check of L720-721: the number of chunks overflows. -/
theorem C147_overflow_violated (count : ℕ) : count ≤ 2 ^ 31 - 1 → (numInt32 count = none ↔ 2 ^ 31 - 131071 ≤ count) := by
  intro h
  unfold numInt32
  split <;> simp <;> omega

/-- With wrapping arithmetic the number of chunks is then negative: both loops are skipped and the caller waits for ever for the last chunk,
while the GPU thread has returned. -/
theorem C147_hang_violated (j : Job X D P Q) (dig : ℕ → ℕ → D) (res : ℕ → ℕ → P) (out : ℕ → Q) (who : Bool) :
    stepT j who { start dig res out with m := .final, w := .ret } = none := by
  cases who <;> simp [stepT, stepM, stepW, start]

/-- Twice 131072 inputs, one GPU call failing: the hypotheses of the theorems hold and the first steps exist. -/
example : let j : Job ℕ ℕ ℕ ℕ := ⟨id, 262144, 131072, (· + 1), (· * 2), (· + 3), fun x => (x + 1) * 2 + 3, fun k => k != 1, true⟩
    (∀ x, j.cpu x = j.conv (j.gpu (j.dig x))) ∧ 0 < j.chunk ∧ 2 * j.chunk ≤ j.count ∧ j.num = 2 ∧
      ∃ s, Run j 2 (start (fun _ _ => 0) (fun _ _ => 0) fun _ => 0) s ∧ s.dr 0 = true := by
  refine ⟨fun x => rfl, by decide, by decide, rfl, _, .cons true rfl (.cons true rfl (.nil _)), rfl⟩

/-- A call of two chunks of one input each, run to the end: all results are there and nothing was computed twice. -/
example : let j : Job ℕ ℕ ℕ ℕ := ⟨id, 2, 1, (· + 1), (· * 2), (· + 3), fun x => (x + 1) * 2 + 3, fun _ => true, false⟩
    ∃ s, Run j 15 (start (fun _ _ => 0) (fun _ _ => 0) fun _ => 0) s ∧ s.m = .done ∧ s.again = false ∧ s.out 0 = 5 ∧ s.out 1 = 7 :=
  ⟨_, .cons true rfl (.cons true rfl (.cons false rfl (.cons false rfl (.cons false rfl (.cons true rfl (.cons true rfl
    (.cons true rfl (.cons true rfl (.cons false rfl (.cons false rfl (.cons false rfl (.cons true rfl (.cons true rfl
    (.cons true rfl (.nil _))))))))))))))), rfl, rfl, rfl, rfl⟩

end Yacl.Cuda
