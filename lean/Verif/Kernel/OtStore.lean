/-! OT stores and their slices: yacl/kernel/type/{slice_base,ot_store}.{h,cc}. Properties C35, C36, C72. -/
namespace Yacl.OtStore

/-- How a call ends: normally, with an exception, or with undefined behaviour (access outside a vector). -/
inductive Out (α : Type)
  | ok (a : α)
  | throw
  | ub
deriving Repr, DecidableEq

/-! ### Model -/

/-- Arithmetic on `uint64_t`. -/
def u64 (n : Nat) : Nat := n % 18446744073709551616

/-- slice_base.h L75-79: the four counters of a store or slice. -/
structure Ctrs where
  useCtr : Nat
  useSize : Nat
  bufCtr : Nat
  bufSize : Nat
deriving Repr, DecidableEq

/-- slice_base.cc L24-37 `SliceBase::ConsistencyCheck` and ot_store.cc L184-193, L225-231 (the part about `blk_buf_`; the choice
buffer of a receiver in normal mode has the same length by construction and is shared by all slices). -/
def Ctrs.consistent (c : Ctrs) (blkLen : Nat) : Bool :=
  decide (c.useSize > 0) && decide (c.bufSize > 0) && decide (c.bufSize ≥ c.useSize) && decide (c.bufSize ≥ c.bufCtr) &&
    decide (blkLen ≥ c.bufSize)

/-- ot_store.cc L76-94 `OtRecvStore::Slice` (`m = 1`) and L235-254 `OtSendStore::Slice` (`m` = blocks per OT: 1 in compact mode, 2 in
normal mode). `none` when the constructor throws. -/
def mkSlice (m blkLen b e : Nat) : Option Ctrs :=
  let c : Ctrs := ⟨u64 (b * m), u64 (u64 (e + (18446744073709551616 - b)) * m), u64 (b * m), u64 (e * m)⟩
  if c.consistent blkLen then some c else none

/-- slice_base.cc L55-62 `IncreaseBufCtr`. -/
def Ctrs.increase (c : Ctrs) (size : Nat) : Option Ctrs :=
  if u64 (c.bufSize + (18446744073709551616 - c.bufCtr)) ≥ size then some { c with bufCtr := u64 (c.bufCtr + size) } else none

/-- ot_store.cc L49-72 `OtRecvStore::NextSlice` (`m = 1`), L256-283 `OtSendStore::NextSlice`: the new slice and the changed
counters; `none` when it throws (nothing is changed then). -/
def nextSlice (m blkLen : Nat) (c : Ctrs) (num : Nat) : Option (Ctrs × Ctrs) :=
  match mkSlice m blkLen (c.bufCtr / m) (u64 (c.bufCtr / m + num)) with
  | none => none
  | some s => match c.increase (u64 (num * m)) with
    | none => none
    | some c' => some (s, c')

/-- slice_base.h L28-32 `ResetSlice`. -/
def Ctrs.resetSlice (c : Ctrs) : Ctrs := { c with useCtr := 0, useSize := c.bufSize, bufCtr := 0 }

/-- slice_base.cc L48-53 `GetBufIdx`. -/
def Ctrs.bufIdx (c : Ctrs) (i : Nat) : Option Nat := if c.useSize > i then some (u64 (c.useCtr + i)) else none

/-- slice_base.cc L64-70 `SliceBase::Reset`: clears the counters and then checks them; `none` when the check throws. -/
def Ctrs.reset (_ : Ctrs) (blkLen : Nat) : Option Ctrs :=
  let c : Ctrs := ⟨0, 0, 0, 0⟩
  if c.consistent blkLen then some c else none

/-- `blk_buf_->operator[]`: no bounds check. -/
def rd {β : Type} (buf : List β) (i : Nat) : Out β :=
  match buf[i]? with
  | some v => .ok v
  | none => .ub

/-- A store together with all slices made of it: they share the block buffer (and, for a receiver, the choice buffer). `m` is the
number of blocks per OT. Handle 0 is the store itself. -/
structure Fam (β : Type) where
  m : Nat
  buf : List β
  hs : List Ctrs
deriving Repr, DecidableEq

/-- Operations on the handle `h` of a family. `get`/`set` take block indices within the handle: ot_store.cc L104-111 (receiver blocks;
choices L135-156 use the same index computation), L316-328 (sender: `i = 2*ot_idx + msg_idx` or `ot_idx`). -/
inductive Op (β : Type)
  | next (h num : Nat)
  | slice (h b e : Nat)
  | resetSlice (h : Nat)
  | get (h i : Nat)
  | set (h i : Nat) (v : β)

/-- What an operation returns. -/
inductive Ret (β : Type)
  | slice (c : Ctrs)
  | val (v : β)
  | unit
deriving Repr, DecidableEq

/-- One operation. An unknown handle is not an operation of the program: nothing happens. -/
def Fam.step {β : Type} (f : Fam β) : Op β → Fam β × Out (Ret β)
  | .next h num => match f.hs[h]? with
    | none => (f, .throw)
    | some c => match nextSlice f.m f.buf.length c num with
      | none => (f, .throw)
      | some (s, c') => ({ f with hs := (f.hs.set h c') ++ [s] }, .ok (.slice s))
  | .slice h b e => match f.hs[h]? with
    | none => (f, .throw)
    | some _ => match mkSlice f.m f.buf.length b e with
      | none => (f, .throw)
      | some s => ({ f with hs := f.hs ++ [s] }, .ok (.slice s))
  | .resetSlice h => match f.hs[h]? with
    | none => (f, .throw)
    | some c => ({ f with hs := f.hs.set h c.resetSlice }, .ok .unit)
  | .get h i => match f.hs[h]? with
    | none => (f, .throw)
    | some c => match c.bufIdx i with
      | none => (f, .throw)
      | some j => (f, match rd f.buf j with | .ok v => .ok (.val v) | .throw => .throw | .ub => .ub)
  | .set h i v => match f.hs[h]? with
    | none => (f, .throw)
    | some c => match c.bufIdx i with
      | none => (f, .throw)
      | some j => if j < f.buf.length then ({ f with buf := f.buf.set j v }, .ok .unit) else (f, .ub)

/-- ot_store.cc L39-47, L207-216: a new store for `num` OTs with initial blocks `buf`; the vector allocation fails beyond 2^59
blocks of 16 bytes. -/
def Fam.new {β : Type} (m num : Nat) (init : β) : Option (Fam β) :=
  if num * m ≥ 576460752303423488 then none
  else
    let c : Ctrs := ⟨0, num * m, 0, num * m⟩
    if c.consistent (num * m) then some ⟨m, List.replicate (num * m) init, [c]⟩ else none

def Fam.run {β : Type} (f : Fam β) (ops : List (Op β)) : Fam β := ops.foldl (fun f o => (f.step o).1) f

/-- ot_store.cc L305-314 `OtSendStore::GetBlock`, the case `delta_ == 0` in normal mode. -/
def sendGetRot {β : Type} (buf : List β) (c : Ctrs) (otIdx msgIdx : Nat) : Out β :=
  if msgIdx = 0 ∨ msgIdx = 1 then
    match c.bufIdx (u64 (2 * otIdx)) with
    | none => .throw
    | some j => rd buf (u64 (j + msgIdx))
  else .throw

/-- ot_store.cc L305-314 `OtSendStore::GetBlock`, the case `delta_ != 0`; `m` blocks per OT. `delta * msg_idx` is `delta` or 0. -/
def sendGetCot (buf : List (BitVec 128)) (c : Ctrs) (m : Nat) (delta : BitVec 128) (otIdx msgIdx : Nat) : Out (BitVec 128) :=
  if msgIdx = 0 ∨ msgIdx = 1 then
    match c.bufIdx (u64 (m * otIdx)) with
    | none => .throw
    | some j => match rd buf j with
      | .ok v => .ok (v ^^^ (delta * BitVec.ofNat 128 msgIdx))
      | o => o
  else .throw

/-- A range copy `{begin() + b, begin() + b + n}`: undefined behaviour unless the range lies in the vector. -/
def copyRange {β : Type} (buf : List β) (b n : Nat) : Out (List β) := if b + n ≤ buf.length then .ok ((buf.drop b).take n) else .ub

/-- ot_store.cc L130-133 `OtRecvStore::CopyBlkBuf`. -/
def copyBlkBuf {β : Type} (buf : List β) (c : Ctrs) : Out (List β) := copyRange buf c.useCtr c.useSize

/-- ot_store.cc L347-352 `OtSendStore::CopyCotBlkBuf` (compact mode): starts at `internal_buf_ctr_`. -/
def copyCotBlkBuf {β : Type} (buf : List β) (c : Ctrs) : Out (List β) := copyRange buf c.bufCtr c.useSize

/-- ot_store.cc L167-182 `OtRecvStore::CopyBitBuf` in normal mode: shift the whole choice buffer right by `use_ctr` (the bitset keeps
its length, zeros come in), then cut it to `use_size`. -/
def copyBitBuf (bits : List Bool) (c : Ctrs) : List Bool :=
  ((bits.drop c.useCtr) ++ List.replicate (min c.useCtr bits.length) false).take c.useSize

/-- ot_store.cc L123-128, L340-345 `StealBlkBuf` with `use_count() == 1`: moves the buffer out, then `Reset()`; when `Reset` throws, the
moved buffer is destroyed during unwinding. Result: the returned buffer, if any. -/
def steal {β : Type} (buf : List β) (c : Ctrs) : Out (List β) :=
  match c.reset 0 with
  | some _ => .ok buf
  | none => .throw

/-! ### Specification -/

/-- Windows `(begin, length)` that follow each other without gap or overlap from `s` to `e`. -/
def Consecutive : Nat → List (Nat × Nat) → Nat → Prop
  | s, [], e => s = e
  | s, (b, l) :: r, e => b = s ∧ 0 < l ∧ Consecutive (b + l) r e

/-- The windows returned by the successful `NextSlice` calls on handle `h` along a history. -/
def nextWindows {β : Type} (h : Nat) : Fam β → List (Op β) → List (Nat × Nat)
  | _, [] => []
  | f, o :: os => match o, (f.step o).2 with
    | .next h' _, .ok (.slice s) =>
      if h' = h then (s.useCtr, s.useSize) :: nextWindows h (f.step o).1 os else nextWindows h (f.step o).1 os
    | _, _ => nextWindows h (f.step o).1 os

/-! ### Invariant -/

structure Good (m len : Nat) (c : Ctrs) : Prop where
  pos : 0 < c.useSize
  fit : c.useCtr + c.useSize = c.bufSize
  lo : c.useCtr ≤ c.bufCtr
  hi : c.bufCtr ≤ c.bufSize
  len : c.bufSize ≤ len
  d1 : m ∣ c.useCtr
  d2 : m ∣ c.bufCtr
  d3 : m ∣ c.bufSize

structure Inv {β : Type} (f : Fam β) : Prop where
  m1 : f.m = 1 ∨ f.m = 2
  small : f.buf.length < 576460752303423488
  good : ∀ c ∈ f.hs, Good f.m f.buf.length c

theorem consistent_iff (c : Ctrs) (len : Nat) : c.consistent len = true ↔
    0 < c.useSize ∧ 0 < c.bufSize ∧ c.useSize ≤ c.bufSize ∧ c.bufCtr ≤ c.bufSize ∧ c.bufSize ≤ len := by
  simp [Ctrs.consistent, and_assoc]

theorem mkSlice_good {m len b e : Nat} {c : Ctrs} (hm : m = 1 ∨ m = 2) (hlen : len < 576460752303423488) (hb : b < 18446744073709551616)
    (he : e < 18446744073709551616) (h : mkSlice m len b e = some c) : Good m len c := by
  unfold mkSlice at h
  simp only at h
  split at h
  · rename_i hc
    simp only [Option.some.injEq] at h
    rw [consistent_iff] at hc
    rcases c with ⟨c1, c2, c3, c4⟩
    simp only [Ctrs.mk.injEq, u64] at h
    obtain ⟨h1, h2, h3, h4⟩ := h
    simp only [u64, h1, h2, h4] at hc
    rcases hm with rfl | rfl
    · refine ⟨?_, ?_, ?_, ?_, ?_, ?_, ?_, ?_⟩ <;> (try simp only) <;> omega
    · refine ⟨?_, ?_, ?_, ?_, ?_, ?_, ?_, ?_⟩ <;> (try simp only) <;> omega
  · simp at h

/-- `Slice(b, e)` succeeds exactly on the non-empty ranges of the whole buffer, and selects that range. -/
theorem mkSlice_spec {m len b e : Nat} (hm : m = 1 ∨ m = 2) (hlen : len < 576460752303423488) (hb : b < 9223372036854775808)
    (he : e < 9223372036854775808) :
    mkSlice m len b e = if b < e ∧ e * m ≤ len then some ⟨b * m, (e - b) * m, b * m, e * m⟩ else none := by
  unfold mkSlice
  simp only [consistent_iff, u64]
  rcases hm with rfl | rfl
  · by_cases h : b < e ∧ e * 1 ≤ len
    · rw [if_pos h, if_pos (by omega)]
      simp only [Option.some.injEq, Ctrs.mk.injEq]
      omega
    · rw [if_neg h, if_neg (by omega)]
  · by_cases h : b < e ∧ e * 2 ≤ len
    · rw [if_pos h, if_pos (by omega)]
      simp only [Option.some.injEq, Ctrs.mk.injEq]
      omega
    · rw [if_neg h, if_neg (by omega)]

theorem nextSlice_spec {m len : Nat} {c : Ctrs} {num : Nat} (hm : m = 1 ∨ m = 2) (hlen : len < 576460752303423488) (g : Good m len c)
    (hn : num < 4611686018427387904) :
    nextSlice m len c num = if 0 < num ∧ c.bufCtr + num * m ≤ c.bufSize then
      some (⟨c.bufCtr, num * m, c.bufCtr, c.bufCtr + num * m⟩, { c with bufCtr := c.bufCtr + num * m }) else none := by
  obtain ⟨g1, g2, g3, g4, g5, g6, g7, g8⟩ := g
  have hq : c.bufCtr / m * m = c.bufCtr := Nat.div_mul_cancel g7
  have hq2 : c.bufCtr / m ≤ c.bufCtr := Nat.div_le_self _ _
  have hu : u64 (c.bufCtr / m + num) = c.bufCtr / m + num := Nat.mod_eq_of_lt (by omega)
  unfold nextSlice
  rw [hu, mkSlice_spec hm hlen (by omega) (by omega)]
  generalize c.bufCtr / m = q at *
  rcases hm with rfl | rfl
  · by_cases h : 0 < num ∧ c.bufCtr + num * 1 ≤ c.bufSize
    · rw [if_pos h, if_pos (by omega)]
      simp only [Ctrs.increase]
      rw [if_pos (by simp only [u64]; omega)]
      simp only [Option.some.injEq, Prod.mk.injEq, Ctrs.mk.injEq, u64, true_and, and_true]
      omega
    · rw [if_neg h]
      split
      · rfl
      · rename_i s hs
        split at hs
        · simp only [Ctrs.increase]
          rw [if_neg (by simp only [u64]; omega)]
        · simp at hs
  · by_cases h : 0 < num ∧ c.bufCtr + num * 2 ≤ c.bufSize
    · rw [if_pos h, if_pos (by omega)]
      simp only [Ctrs.increase]
      rw [if_pos (by simp only [u64]; omega)]
      simp only [Option.some.injEq, Prod.mk.injEq, Ctrs.mk.injEq, u64, true_and, and_true]
      omega
    · rw [if_neg h]
      split
      · rfl
      · rename_i s hs
        split at hs
        · simp only [Ctrs.increase]
          rw [if_neg (by simp only [u64]; omega)]
        · simp at hs

theorem nextSlice_good {m len : Nat} {c : Ctrs} {num : Nat} {s c' : Ctrs} (hm : m = 1 ∨ m = 2) (hlen : len < 576460752303423488)
    (g : Good m len c) (hn : num < 18446744073709551616) (h : nextSlice m len c num = some (s, c')) :
    Good m len s ∧ Good m len c' ∧ c'.useCtr = c.useCtr ∧ c'.useSize = c.useSize ∧ c'.bufSize = c.bufSize ∧ c.bufCtr ≤ c'.bufCtr := by
  unfold nextSlice at h
  split at h
  · simp at h
  · rename_i s' hs
    split at h
    · simp at h
    · rename_i c'' hc
      simp only [Option.some.injEq, Prod.mk.injEq] at h
      obtain ⟨rfl, rfl⟩ := h
      have hb : c.bufCtr / m < 18446744073709551616 := by
        have := Nat.div_le_self c.bufCtr m
        have := g.hi
        have := g.len
        omega
      refine ⟨mkSlice_good hm hlen hb (Nat.mod_lt _ (by omega)) hs, ?_⟩
      unfold Ctrs.increase at hc
      split at hc
      · simp only [Option.some.injEq] at hc
        subst hc
        obtain ⟨g1, g2, g3, g4, g5, g6, g7, g8⟩ := g
        rename_i hi
        simp only [u64] at hi ⊢
        rcases hm with rfl | rfl
        · refine ⟨⟨?_, ?_, ?_, ?_, ?_, ?_, ?_, ?_⟩, ?_⟩ <;> (try simp only [true_and]) <;> omega
        · refine ⟨⟨?_, ?_, ?_, ?_, ?_, ?_, ?_, ?_⟩, ?_⟩ <;> (try simp only [true_and]) <;> omega
      · simp at hc

/-- All arguments are 64-bit numbers. -/
def Op.u64 {β : Type} : Op β → Prop
  | .next _ num => num < 18446744073709551616
  | .slice _ b e => b < 18446744073709551616 ∧ e < 18446744073709551616
  | .get _ i => i < 18446744073709551616
  | .set _ i _ => i < 18446744073709551616
  | .resetSlice _ => True

theorem step_len {β : Type} (f : Fam β) (o : Op β) : (f.step o).1.buf.length = f.buf.length ∧ (f.step o).1.m = f.m := by
  cases o <;> simp only [Fam.step] <;> split <;> (try split) <;> (try split) <;> simp

theorem reset_good {m len : Nat} {c : Ctrs} (g : Good m len c) : Good m len c.resetSlice := by
  obtain ⟨g1, g2, g3, g4, g5, g6, g7, g8⟩ := g
  unfold Ctrs.resetSlice
  refine ⟨?_, ?_, ?_, ?_, ?_, ?_, ?_, ?_⟩ <;> simp only <;> (first | omega | exact Nat.dvd_zero _ | exact g8)

theorem step_inv {β : Type} {f : Fam β} (hf : Inv f) {o : Op β} (ho : o.u64) : Inv (f.step o).1 := by
  obtain ⟨l, m⟩ := step_len f o
  refine ⟨by rw [m]; exact hf.m1, by rw [l]; exact hf.small, ?_⟩
  rw [l, m]
  have hg := hf.good
  cases o with
  | next h num =>
    simp only [Fam.step]
    split
    · exact hg
    · rename_i c hc
      split
      · exact hg
      · rename_i s c' hn
        have hcm := hg c (List.mem_of_getElem? hc)
        obtain ⟨x, y, _⟩ := nextSlice_good hf.m1 hf.small hcm ho hn
        intro d hd
        simp only [List.mem_append, List.mem_singleton] at hd
        rcases hd with hd | rfl
        · rcases List.mem_or_eq_of_mem_set hd with hd | rfl
          · exact hg d hd
          · exact y
        · exact x
  | slice h b e =>
    simp only [Fam.step]
    split
    · exact hg
    · split
      · exact hg
      · rename_i s hs
        intro d hd
        simp only [List.mem_append, List.mem_singleton] at hd
        rcases hd with hd | rfl
        · exact hg d hd
        · exact mkSlice_good hf.m1 hf.small ho.1 ho.2 hs
  | resetSlice h =>
    simp only [Fam.step]
    split
    · exact hg
    · rename_i c hc
      intro d hd
      rcases List.mem_or_eq_of_mem_set hd with hd | rfl
      · exact hg d hd
      · exact reset_good (hg c (List.mem_of_getElem? hc))
  | get h i =>
    simp only [Fam.step]
    split
    · exact hg
    · split <;> exact hg
  | set h i v =>
    simp only [Fam.step]
    split
    · exact hg
    · split
      · exact hg
      · split <;> exact hg

theorem new_inv {β : Type} {m num : Nat} {x : β} {f : Fam β} (hm : m = 1 ∨ m = 2) (h : Fam.new m num x = some f) : Inv f := by
  unfold Fam.new at h
  split at h
  · simp at h
  · simp only at h
    split at h
    · rename_i h1 h2
      simp only [Option.some.injEq] at h
      subst h
      rw [consistent_iff] at h2
      simp only at h2
      refine ⟨hm, by simpa using h1, ?_⟩
      intro c hc
      simp only [List.mem_singleton] at hc
      subst hc
      refine ⟨?_, ?_, ?_, ?_, ?_, ?_, ?_, ?_⟩ <;>
        simp only [List.length_replicate, Nat.dvd_zero, Nat.dvd_mul_left] <;> omega
    · simp at h

theorem run_inv {β : Type} {f : Fam β} (hf : Inv f) (ops : List (Op β)) (ho : ∀ o ∈ ops, o.u64) : Inv (f.run ops) := by
  induction ops generalizing f with
  | nil => exact hf
  | cons o os ih =>
    exact ih (step_inv hf (ho o (by simp))) (fun o h => ho o (by simp [h]))

/-! ### C35 -/

/-- C35. Whatever slices were made before, an access at index `i` of a store or slice touches exactly element `i` of its window, which
lies inside the buffer, when `i` is below its size, and is refused otherwise. -/
theorem C35_access {β : Type} {m num : Nat} (hm : m = 1 ∨ m = 2) {x : β} {f0 : Fam β} (h0 : Fam.new m num x = some f0)
    (ops : List (Op β)) (ho : ∀ o ∈ ops, o.u64) {h : Nat} {c : Ctrs} (hc : (f0.run ops).hs[h]? = some c) (i : Nat) :
    let f := f0.run ops
    c.useCtr + c.useSize ≤ f.buf.length ∧
    (i < c.useSize →
      (∃ v, f.buf[c.useCtr + i]? = some v ∧ f.step (.get h i) = (f, .ok (.val v))) ∧
      ∀ v, f.step (.set h i v) = ({ f with buf := f.buf.set (c.useCtr + i) v }, .ok .unit)) ∧
    (c.useSize ≤ i → f.step (.get h i) = (f, .throw) ∧ ∀ v, f.step (.set h i v) = (f, .throw)) := by
  have hi := run_inv (new_inv hm h0) ops ho
  generalize f0.run ops = f at *
  obtain ⟨g1, g2, g3, g4, g5, g6, g7, g8⟩ := hi.good c (List.mem_of_getElem? hc)
  have hs := hi.small
  simp only
  refine ⟨by omega, ?_, ?_⟩
  · intro hi
    have hb : c.bufIdx i = some (c.useCtr + i) := by
      simp only [Ctrs.bufIdx, gt_iff_lt, hi, if_true, u64, Option.some.injEq]
      exact Nat.mod_eq_of_lt (by omega)
    have hl : c.useCtr + i < f.buf.length := by omega
    refine ⟨⟨f.buf[c.useCtr + i], List.getElem?_eq_getElem hl, ?_⟩, ?_⟩
    · simp only [Fam.step, hc, hb, rd, List.getElem?_eq_getElem hl]
    · intro v
      simp only [Fam.step, hc, hb, hl, if_true]
  · intro hi
    have hb : c.bufIdx i = none := by
      simp only [Ctrs.bufIdx, gt_iff_lt]
      rw [if_neg (by omega)]
    simp only [Fam.step, hc, hb, implies_true, and_self]

/-- C35. `NextSlice(num)` hands out the next `num` OTs that this store or slice has not handed out yet, or refuses (and changes
nothing) when fewer are left. -/
theorem C35_nextSlice {β : Type} {m num0 : Nat} (hm : m = 1 ∨ m = 2) {x : β} {f0 : Fam β} (h0 : Fam.new m num0 x = some f0)
    (ops : List (Op β)) (ho : ∀ o ∈ ops, o.u64) {h : Nat} {c : Ctrs} (hc : (f0.run ops).hs[h]? = some c) {num : Nat}
    (hn : num < 4611686018427387904) :
    let f := f0.run ops
    c.bufSize = c.useCtr + c.useSize ∧
    (f.step (.next h num)).2 = (if 0 < num ∧ c.bufCtr + num * m ≤ c.useCtr + c.useSize then
      .ok (.slice ⟨c.bufCtr, num * m, c.bufCtr, c.bufCtr + num * m⟩) else .throw) ∧
    ((f.step (.next h num)).2 = .throw → (f.step (.next h num)).1 = f) ∧
    (f.step (.next h num)).1.buf = f.buf := by
  have hi := run_inv (new_inv hm h0) ops ho
  have hmm : (f0.run ops).m = m := by
    have h1 : f0.m = m := by
      unfold Fam.new at h0
      split at h0
      · simp at h0
      · simp only at h0
        split at h0
        · simp only [Option.some.injEq] at h0
          rw [← h0]
        · simp at h0
    rw [← h1]
    clear hc ho hi h0 h1
    induction ops generalizing f0 with
    | nil => rfl
    | cons o os ih => exact (ih (f0 := (f0.step o).1)).trans (step_len f0 o).2
  generalize f0.run ops = f at *
  subst hmm
  have hg := hi.good c (List.mem_of_getElem? hc)
  have hg2 := hg.fit
  have hsp := nextSlice_spec hi.m1 hi.small hg hn
  simp only
  refine ⟨by omega, ?_, ?_, ?_⟩
  · simp only [Fam.step, hc, hsp, ← hg.fit]
    by_cases hh : 0 < num ∧ c.bufCtr + num * f.m ≤ c.useCtr + c.useSize
    · simp only [if_pos hh]
    · simp only [if_neg hh]
  · simp only [Fam.step, hc, hsp]
    by_cases hh : 0 < num ∧ c.bufCtr + num * f.m ≤ c.bufSize
    · simp only [if_pos hh, reduceCtorEq, false_implies]
    · simp only [if_neg hh, implies_true]
  · simp only [Fam.step, hc, hsp]
    by_cases hh : 0 < num ∧ c.bufCtr + num * f.m ≤ c.bufSize
    · simp only [if_pos hh]
    · simp only [if_neg hh]

theorem run_m {β : Type} (f0 : Fam β) (ops : List (Op β)) : (f0.run ops).m = f0.m := by
  induction ops generalizing f0 with
  | nil => rfl
  | cons o os ih => exact (ih (f0 := (f0.step o).1)).trans (step_len f0 o).2

theorem new_m {β : Type} {m num : Nat} {x : β} {f : Fam β} (h0 : Fam.new m num x = some f) : f.m = m := by
  unfold Fam.new at h0
  split at h0
  · simp at h0
  · simp only at h0
    split at h0
    · simp only [Option.some.injEq] at h0
      rw [← h0]
    · simp at h0

theorem getElem?_set_append {β : Type} {l : List β} {k h : Nat} {x y : β} (hk : l[h]? = some x) (a s : β) (e : k = h → a = y)
    (ne : k ≠ h → y = x) : (l.set k a ++ [s])[h]? = some y := by
  have hl : h < l.length := by
    rcases Nat.lt_or_ge h l.length with h' | h'
    · exact h'
    · rw [List.getElem?_eq_none h'] at hk
      simp at hk
  rw [List.getElem?_append_left (by simpa using hl)]
  by_cases hkh : k = h
  · subst hkh
    rw [List.getElem?_set_self hl, e rfl]
  · rw [List.getElem?_set_ne hkh, hk, ne hkh]

/-- A step other than `ResetSlice` on `h` leaves the window of `h` alone; `NextSlice` on `h` moves its cursor to the end of the slice it
returns; nothing else moves it. -/
theorem step_handle {β : Type} {f : Fam β} (hf : Inv f) {h : Nat} {c : Ctrs} (hc : f.hs[h]? = some c) {o : Op β} (_ : o.u64)
    (hn : ∀ num, o = .next h num → num < 4611686018427387904) (hr : o ≠ .resetSlice h) :
    ∃ c', (f.step o).1.hs[h]? = some c' ∧ c'.useCtr = c.useCtr ∧ c'.useSize = c.useSize ∧ c'.bufSize = c.bufSize ∧
      ((∀ num, o ≠ .next h num) → c' = c) ∧
      (∀ num, o = .next h num →
        ((f.step o).2 = .throw ∧ c' = c) ∨
        ∃ s, (f.step o).2 = .ok (.slice s) ∧ s.useCtr = c.bufCtr ∧ 0 < s.useSize ∧ c'.bufCtr = s.useCtr + s.useSize) := by
  have hl : h < f.hs.length := by
    rcases Nat.lt_or_ge h f.hs.length with h' | h'
    · exact h'
    · rw [List.getElem?_eq_none h'] at hc
      simp at hc
  cases o with
  | next k num =>
    simp only [Fam.step]
    split
    · rename_i hk
      refine ⟨c, hc, rfl, rfl, rfl, fun _ => rfl, fun n e => Or.inl ⟨rfl, rfl⟩⟩
    · rename_i d hd
      split
      · exact ⟨c, hc, rfl, rfl, rfl, fun _ => rfl, fun n e => Or.inl ⟨rfl, rfl⟩⟩
      · rename_i s c' hns
        by_cases hk : k = h
        · subst hk
          rw [hc] at hd
          obtain rfl := Option.some.inj hd
          have hg := hf.good c (List.mem_of_getElem? hc)
          have hm0 : 0 < f.m := by rcases hf.m1 with e | e <;> omega
          rw [nextSlice_spec hf.m1 hf.small hg (hn num rfl)] at hns
          split at hns
          · rename_i hcond
            simp only [Option.some.injEq, Prod.mk.injEq] at hns
            obtain ⟨rfl, rfl⟩ := hns
            refine ⟨_, getElem?_set_append hc _ _ (fun _ => rfl) (fun n => absurd rfl n), rfl, rfl, rfl, ?_, ?_⟩
            · intro hh
              exact absurd rfl (hh num)
            · intro n _
              exact Or.inr ⟨_, rfl, rfl, Nat.mul_pos hcond.1 hm0, rfl⟩
          · simp at hns
        · refine ⟨c, getElem?_set_append hc _ _ (fun e => absurd e hk) (fun _ => rfl), rfl, rfl, rfl, fun _ => rfl, ?_⟩
          intro n e
          simp only [Op.next.injEq] at e
          exact absurd e.1 hk
  | slice k b e =>
    simp only [Fam.step]
    split
    · exact ⟨c, hc, rfl, rfl, rfl, fun _ => rfl, fun n e => by simp at e⟩
    · split
      · exact ⟨c, hc, rfl, rfl, rfl, fun _ => rfl, fun n e => by simp at e⟩
      · refine ⟨c, ?_, rfl, rfl, rfl, fun _ => rfl, fun n e => by simp at e⟩
        simp only
        rw [List.getElem?_append_left hl, hc]
  | resetSlice k =>
    have hk : k ≠ h := fun e => hr (by rw [e])
    simp only [Fam.step]
    split
    · exact ⟨c, hc, rfl, rfl, rfl, fun _ => rfl, fun n e => by simp at e⟩
    · refine ⟨c, ?_, rfl, rfl, rfl, fun _ => rfl, fun n e => by simp at e⟩
      simp only
      rw [List.getElem?_set_ne hk, hc]
  | get k i =>
    refine ⟨c, ?_, rfl, rfl, rfl, fun _ => rfl, fun n e => by simp at e⟩
    simp only [Fam.step]
    split
    · exact hc
    · split <;> exact hc
  | set k i v =>
    refine ⟨c, ?_, rfl, rfl, rfl, fun _ => rfl, fun n e => by simp at e⟩
    simp only [Fam.step]
    split
    · exact hc
    · split
      · exact hc
      · split <;> exact hc

theorem windows_aux {β : Type} {h : Nat} (ops : List (Op β)) : ∀ {f : Fam β} {c : Ctrs}, Inv f → f.hs[h]? = some c →
    (∀ o ∈ ops, o.u64 ∧ (∀ num, o = .next h num → num < 4611686018427387904) ∧ o ≠ .resetSlice h) →
    ∃ e, Consecutive c.bufCtr (nextWindows h f ops) e ∧ e ≤ c.useCtr + c.useSize := by
  induction ops with
  | nil =>
    intro f c hf hc _
    have hg := hf.good c (List.mem_of_getElem? hc)
    exact ⟨c.bufCtr, rfl, by have := hg.hi; have := hg.fit; omega⟩
  | cons o os ih =>
    intro f c hf hc ho
    obtain ⟨o1, o2, o3⟩ := ho o (by simp)
    obtain ⟨c', h1, h2, h3, h4, h5, h6⟩ := step_handle hf hc o1 o2 o3
    obtain ⟨e, he1, he2⟩ := ih (step_inv hf o1) h1 (fun o h => ho o (by simp [h]))
    refine ⟨e, ?_, by omega⟩
    by_cases hx : ∃ num, o = .next h num
    · obtain ⟨num, rfl⟩ := hx
      rcases h6 num rfl with ⟨r, rfl⟩ | ⟨s, r, w1, w2, w3⟩
      · simp only [nextWindows, r]
        exact he1
      · simp only [nextWindows, r, if_true]
        refine ⟨w1, w2, ?_⟩
        rw [← w3]
        exact he1
    · have hx' : ∀ num, o ≠ .next h num := fun num e => hx ⟨num, e⟩
      have := h5 hx'
      subst this
      have : nextWindows h f (o :: os) = nextWindows h (f.step o).1 os := by
        cases o with
        | next k num =>
          have hk : k ≠ h := by
            rintro rfl
            exact hx' num rfl
          cases hr : (f.step (.next k num)).2 with
          | ok r => cases r <;> simp [nextWindows, hr, hk]
          | throw => simp [nextWindows, hr]
          | ub => simp [nextWindows, hr]
        | _ => simp only [nextWindows]
      rw [this]
      exact he1

/-- C35. Take any store or slice at any moment and any later history of slicing, reading and writing (on it and on its relatives) in
which it is not reset: the slices its `NextSlice` returns are non-empty, follow each other without gap or overlap, begin where the
previously handed out ones ended and stay inside its window. -/
theorem C35_windows {β : Type} {m num0 : Nat} (hm : m = 1 ∨ m = 2) {x : β} {f0 : Fam β} (h0 : Fam.new m num0 x = some f0)
    (ops : List (Op β)) (ho : ∀ o ∈ ops, o.u64) {h : Nat} {c : Ctrs} (hc : (f0.run ops).hs[h]? = some c) (later : List (Op β))
    (hl : ∀ o ∈ later, o.u64 ∧ (∀ num, o = .next h num → num < 4611686018427387904) ∧ o ≠ .resetSlice h) :
    c.useCtr ≤ c.bufCtr ∧
      ∃ e, Consecutive c.bufCtr (nextWindows h (f0.run ops) later) e ∧ e ≤ c.useCtr + c.useSize := by
  have hi := run_inv (new_inv hm h0) ops ho
  exact ⟨(hi.good c (List.mem_of_getElem? hc)).lo, windows_aux later hi hc hl⟩

theorem Consecutive.lower {s e : Nat} {ws : List (Nat × Nat)} (h : Consecutive s ws e) : ∀ w ∈ ws, s ≤ w.1 := by
  induction ws generalizing s with
  | nil => simp
  | cons w r ih =>
    obtain ⟨b, l⟩ := w
    obtain ⟨rfl, h2, h3⟩ := h
    intro w hw
    rcases List.mem_cons.mp hw with rfl | hw
    · exact Nat.le_refl _
    · have := ih h3 w hw
      omega

/-- Consecutive windows are pairwise disjoint. -/
theorem Consecutive.disjoint {s e : Nat} {ws : List (Nat × Nat)} (h : Consecutive s ws e) :
    ws.Pairwise (fun a b => a.1 + a.2 ≤ b.1) := by
  induction ws generalizing s with
  | nil => exact .nil
  | cons w r ih =>
    obtain ⟨b, l⟩ := w
    obtain ⟨rfl, h2, h3⟩ := h
    exact .cons (fun w hw => h3.lower w hw) (ih h3)

/-- C35. What is written through one slice is not seen through another whose window is disjoint from it: no OT is used twice. -/
theorem C35_independent {β : Type} {m num0 : Nat} (hm : m = 1 ∨ m = 2) {x : β} {f0 : Fam β} (h0 : Fam.new m num0 x = some f0)
    (ops : List (Op β)) (ho : ∀ o ∈ ops, o.u64) {a b : Nat} {ca cb : Ctrs} (ha : (f0.run ops).hs[a]? = some ca)
    (hb : (f0.run ops).hs[b]? = some cb)
    (hd : ca.useCtr + ca.useSize ≤ cb.useCtr ∨ cb.useCtr + cb.useSize ≤ ca.useCtr) (i j : Nat) (v : β) :
    (((f0.run ops).step (.set a i v)).1.step (.get b j)).2 = ((f0.run ops).step (.get b j)).2 := by
  obtain ⟨a1, a2, a3⟩ := C35_access hm h0 ops ho ha i
  obtain ⟨b1, b2, b3⟩ := C35_access hm h0 ops ho hb j
  have hi := run_inv (new_inv hm h0) ops ho
  have hss := hi.small
  generalize f0.run ops = f at *
  rcases Nat.lt_or_ge i ca.useSize with h | h
  · obtain ⟨_, a2⟩ := a2 h
    rw [a2 v]
    simp only [Fam.step, hb]
    split
    · rfl
    · rename_i k hk
      simp only [Ctrs.bufIdx] at hk
      split at hk
      · simp only [u64, Option.some.injEq] at hk
        have hne : ca.useCtr + i ≠ k := by omega
        simp only [rd, List.getElem?_set_ne hne]
      · simp at hk
  · rw [(a3 h).2 v]

/-- C35. `Slice(b, e)` on a store selects exactly that range of it, and refuses empty, reversed and overlong ranges. -/
theorem C35_slice {β : Type} {m num0 : Nat} (hm : m = 1 ∨ m = 2) {x : β} {f0 : Fam β} (h0 : Fam.new m num0 x = some f0)
    (ops : List (Op β)) (ho : ∀ o ∈ ops, o.u64) {c : Ctrs} (hc : (f0.run ops).hs[0]? = some c) {b e : Nat}
    (hb : b < 9223372036854775808) (he : e < 9223372036854775808) :
    ((f0.run ops).step (.slice 0 b e)).2 =
      if b < e ∧ e * m ≤ (f0.run ops).buf.length then .ok (.slice ⟨b * m, (e - b) * m, b * m, e * m⟩) else .throw := by
  have hi := run_inv (new_inv hm h0) ops ho
  have hmm := (run_m f0 ops).trans (new_m h0)
  generalize f0.run ops = f at *
  subst hmm
  simp only [Fam.step, hc, mkSlice_spec hi.m1 hi.small hb he]
  by_cases h : b < e ∧ e * f.m ≤ f.buf.length
  · simp only [if_pos h]
  · simp only [if_neg h]

/-- C35, sender side. `GetBlock(ot, msg)` reads message `msg` of OT `ot` of the window, and refuses other indices (`delta == 0`). -/
theorem C35_sender_rot {β : Type} {num0 : Nat} {x : β} {f0 : Fam β} (h0 : Fam.new 2 num0 x = some f0)
    (ops : List (Op β)) (ho : ∀ o ∈ ops, o.u64) {h : Nat} {c : Ctrs} (hc : (f0.run ops).hs[h]? = some c) {k : Nat} (msg : Nat)
    (hk : k < 9223372036854775808) :
    let f := f0.run ops
    ((msg = 0 ∨ msg = 1) ∧ k < c.useSize / 2 →
      ∃ v, f.buf[c.useCtr + 2 * k + msg]? = some v ∧ sendGetRot f.buf c k msg = .ok v) ∧
    (¬ ((msg = 0 ∨ msg = 1) ∧ k < c.useSize / 2) → sendGetRot f.buf c k msg = .throw) := by
  have hi := run_inv (new_inv (Or.inr rfl) h0) ops ho
  have hmm := (run_m f0 ops).trans (new_m h0)
  generalize f0.run ops = f at *
  obtain ⟨g1, g2, g3, g4, g5, g6, g7, g8⟩ := hi.good c (List.mem_of_getElem? hc)
  have hs := hi.small
  rw [hmm] at g6 g7 g8
  have hu : u64 (2 * k) = 2 * k := Nat.mod_eq_of_lt (by omega)
  simp only
  refine ⟨?_, ?_⟩
  · rintro ⟨hm, hk2⟩
    have hl : c.useCtr + 2 * k + msg < f.buf.length := by omega
    refine ⟨f.buf[c.useCtr + 2 * k + msg], List.getElem?_eq_getElem hl, ?_⟩
    have e1 : u64 (c.useCtr + 2 * k) = c.useCtr + 2 * k := Nat.mod_eq_of_lt (by omega)
    have e2 : u64 (c.useCtr + 2 * k + msg) = c.useCtr + 2 * k + msg := Nat.mod_eq_of_lt (by omega)
    simp only [sendGetRot, if_pos hm, hu, Ctrs.bufIdx, gt_iff_lt, show 2 * k < c.useSize by omega, if_true, e1, e2, rd,
      List.getElem?_eq_getElem hl]
  · intro hn
    unfold sendGetRot
    by_cases hm : msg = 0 ∨ msg = 1
    · simp only [if_pos hm, hu, Ctrs.bufIdx, gt_iff_lt, show ¬ 2 * k < c.useSize by omega, if_false]
    · simp only [if_neg hm]

/-- C35, sender side with a correlation: the two messages of OT `k` are its stored block and that block xor delta. -/
theorem C35_sender_cot {m num0 : Nat} (hm : m = 1 ∨ m = 2) {x : BitVec 128} {f0 : Fam (BitVec 128)} (h0 : Fam.new m num0 x = some f0)
    (ops : List (Op (BitVec 128))) (ho : ∀ o ∈ ops, o.u64) {h : Nat} {c : Ctrs} (hc : (f0.run ops).hs[h]? = some c) {k : Nat}
    (delta : BitVec 128) (hk : k < c.useSize / m) :
    let f := f0.run ops
    ∃ v, f.buf[c.useCtr + m * k]? = some v ∧ sendGetCot f.buf c m delta k 0 = .ok v ∧
      sendGetCot f.buf c m delta k 1 = .ok (v ^^^ delta) := by
  have hi := run_inv (new_inv hm h0) ops ho
  generalize f0.run ops = f at *
  obtain ⟨g1, g2, g3, g4, g5, g6, g7, g8⟩ := hi.good c (List.mem_of_getElem? hc)
  have hs := hi.small
  have hk2 : m * k < c.useSize := by
    have := Nat.div_mul_le_self c.useSize m
    rcases hm with rfl | rfl <;> omega
  have hl : c.useCtr + m * k < f.buf.length := by omega
  have e0 : u64 (m * k) = m * k := Nat.mod_eq_of_lt (by omega)
  have e1 : u64 (c.useCtr + m * k) = c.useCtr + m * k := Nat.mod_eq_of_lt (by omega)
  refine ⟨f.buf[c.useCtr + m * k], List.getElem?_eq_getElem hl, ?_, ?_⟩
  · simp [sendGetCot, e0, Ctrs.bufIdx, hk2, e1, rd, List.getElem?_eq_getElem hl]
  · simp [sendGetCot, e0, Ctrs.bufIdx, hk2, e1, rd, List.getElem?_eq_getElem hl]

/-- C35. The receiver's bulk copies return exactly the blocks and the choices of its window. -/
theorem C35_copies {β : Type} {m num0 : Nat} (hm : m = 1 ∨ m = 2) {x : β} {f0 : Fam β} (h0 : Fam.new m num0 x = some f0)
    (ops : List (Op β)) (ho : ∀ o ∈ ops, o.u64) {h : Nat} {c : Ctrs} (hc : (f0.run ops).hs[h]? = some c) (bits : List Bool)
    (hb : bits.length = (f0.run ops).buf.length) :
    copyBlkBuf (f0.run ops).buf c = .ok (((f0.run ops).buf.drop c.useCtr).take c.useSize) ∧
    (((f0.run ops).buf.drop c.useCtr).take c.useSize).length = c.useSize ∧
    copyBitBuf bits c = (bits.drop c.useCtr).take c.useSize := by
  have hi := run_inv (new_inv hm h0) ops ho
  generalize f0.run ops = f at *
  obtain ⟨g1, g2, g3, g4, g5, g6, g7, g8⟩ := hi.good c (List.mem_of_getElem? hc)
  refine ⟨?_, ?_, ?_⟩
  · unfold copyBlkBuf copyRange
    rw [if_pos (by omega)]
  · simp only [List.length_take, List.length_drop]
    omega
  · unfold copyBitBuf
    rw [List.take_append_of_le_length]
    simp only [List.length_drop]
    omega

/-- The code does not keep C35 for `Slice` on a slice: its arguments count from the start of the whole store, so the slice
`[10, 20)` can be cut to the slice `[0, 5)` outside it. -/
theorem C35_slice_of_slice_violated : ∃ f0 : Fam Nat, Fam.new 1 20 0 = some f0 ∧
    let f1 := (f0.step (.slice 0 10 20)).1
    f1.hs[1]? = some ⟨10, 10, 10, 20⟩ ∧ (f1.step (.slice 1 0 5)).2 = .ok (.slice ⟨0, 5, 0, 5⟩) := by
  refine ⟨⟨1, List.replicate 20 0, [⟨0, 20, 0, 20⟩]⟩, by decide, by decide, by decide⟩

/-- Nor for `ResetSlice` on a slice: it widens the slice `[10, 20)` to `[0, 20)`. -/
theorem C35_resetSlice_violated : ∃ f0 : Fam Nat, Fam.new 1 30 0 = some f0 ∧
    let f1 := (f0.step (.slice 0 10 20)).1
    f1.hs[1]? = some ⟨10, 10, 10, 20⟩ ∧ (f1.step (.resetSlice 1)).1.hs[1]? = some ⟨0, 20, 0, 20⟩ := by
  refine ⟨⟨1, List.replicate 30 0, [⟨0, 30, 0, 30⟩]⟩, by decide, by decide, by decide⟩

/-- Nor for absurdly large requests to a sender in normal mode: the doubling wraps, and a request for 2^63 + 1 OTs from a store of
two returns a slice of one. -/
theorem C35_huge_request_violated : ∃ f0 : Fam Nat, Fam.new 2 2 0 = some f0 ∧
    (f0.step (.next 0 9223372036854775809)).2 = .ok (.slice ⟨0, 2, 0, 2⟩) := by
  refine ⟨⟨2, List.replicate 4 0, [⟨0, 4, 0, 4⟩]⟩, by decide, by decide⟩

/-- Non-vacuity: two `NextSlice` calls, one refused, one nested. -/
example : ∃ f0 : Fam Nat, Fam.new 2 10 7 = some f0 ∧
    nextWindows 0 f0 [.next 0 3, .next 0 20, .set 1 2 9, .next 1 1, .next 0 4] = [(0, 6), (6, 8)] ∧
    (f0.run [.next 0 3, .next 0 20, .set 1 2 9, .next 1 1, .next 0 4]).hs[2]? = some ⟨0, 2, 0, 2⟩ ∧
    ((f0.run [.next 0 3, .next 0 20, .set 1 2 9, .next 1 1]).step (.get 0 2)).2 = .ok (.val 9) := by
  refine ⟨⟨2, List.replicate 20 7, [⟨0, 20, 0, 20⟩]⟩, by decide, by decide, by decide, by decide⟩

/-! ### C36 -/

/-- C36, in part. On a store or slice from which nothing has been handed out by `NextSlice` yet, `CopyCotBlkBuf` returns exactly the
blocks of its window. Missing: stores and slices on which `NextSlice` has been called, see `C36_copy_violated`. -/
theorem C36_copy_partial {β : Type} {num0 : Nat} {x : β} {f0 : Fam β} (h0 : Fam.new 1 num0 x = some f0)
    (ops : List (Op β)) (ho : ∀ o ∈ ops, o.u64) {h : Nat} {c : Ctrs} (hc : (f0.run ops).hs[h]? = some c) (hn : c.bufCtr = c.useCtr) :
    copyCotBlkBuf (f0.run ops).buf c = .ok (((f0.run ops).buf.drop c.useCtr).take c.useSize) := by
  have hi := run_inv (new_inv (Or.inl rfl) h0) ops ho
  generalize f0.run ops = f at *
  obtain ⟨g1, g2, g3, g4, g5, g6, g7, g8⟩ := hi.good c (List.mem_of_getElem? hc)
  unfold copyCotBlkBuf copyRange
  rw [hn, if_pos (by omega)]

/-- The two situations in which `C36_copy_partial` applies: a fresh store, and any slice just returned by `Slice` or `NextSlice`. -/
theorem C36_fresh {β : Type} (f : Fam β) (h b e num : Nat) (s : Ctrs)
    (hs : (f.step (.slice h b e)).2 = .ok (.slice s) ∨ (f.step (.next h num)).2 = .ok (.slice s)) : s.bufCtr = s.useCtr := by
  have key : ∀ m len b e s, mkSlice m len b e = some s → s.bufCtr = s.useCtr := by
    intro m len b e s h
    unfold mkSlice at h
    simp only at h
    split at h
    · simp only [Option.some.injEq] at h
      rw [← h]
    · simp at h
  rcases hs with hs | hs
  · simp only [Fam.step] at hs
    split at hs
    · simp at hs
    · split at hs
      · simp at hs
      · rename_i t ht
        simp only [Out.ok.injEq, Ret.slice.injEq] at hs
        subst hs
        exact key _ _ _ _ _ ht
  · simp only [Fam.step] at hs
    split at hs
    · simp at hs
    · split at hs
      · simp at hs
      · rename_i t c' ht
        simp only [Out.ok.injEq, Ret.slice.injEq] at hs
        subst hs
        unfold nextSlice at ht
        split at ht
        · simp at ht
        · rename_i u hu
          split at ht
          · simp at ht
          · simp only [Option.some.injEq, Prod.mk.injEq] at ht
            rw [← ht.1]
            exact key _ _ _ _ _ hu

/-- The code does not keep C36: once `NextSlice` has handed out part of a store or slice, `CopyCotBlkBuf` on it starts at the first
block not handed out. On a slice it then returns blocks of its neighbour; on the store itself it reads past the end of the buffer. -/
theorem C36_copy_violated : ∃ f0 f1 f2 : Fam Nat, Fam.new 1 4 0 = some f0 ∧
    f1 = f0.run [.set 0 0 10, .set 0 1 11, .set 0 2 12, .set 0 3 13, .slice 0 0 2, .next 1 1] ∧
    f1.hs[1]? = some ⟨0, 2, 1, 2⟩ ∧ copyCotBlkBuf f1.buf ⟨0, 2, 1, 2⟩ = .ok [11, 12] ∧
    f2 = f0.run [.next 0 1] ∧ f2.hs[0]? = some ⟨0, 4, 1, 4⟩ ∧ copyCotBlkBuf f2.buf ⟨0, 4, 1, 4⟩ = .ub := by
  refine ⟨⟨1, List.replicate 4 0, [⟨0, 4, 0, 4⟩]⟩, _, _, by decide, rfl, by decide, by decide, rfl, by decide, by decide⟩

/-- Non-vacuity of `C36_copy_partial`. -/
example : ∃ f0 : Fam Nat, Fam.new 1 4 0 = some f0 ∧
    (f0.run [.set 0 1 11, .set 0 2 12, .slice 0 1 3]).hs[1]? = some ⟨1, 2, 1, 3⟩ ∧
    copyCotBlkBuf (f0.run [.set 0 1 11, .set 0 2 12, .slice 0 1 3]).buf ⟨1, 2, 1, 3⟩ = .ok [11, 12] := by
  refine ⟨⟨1, List.replicate 4 0, [⟨0, 4, 0, 4⟩]⟩, by decide, by decide, by decide⟩

/-! ### C72 -/

/-- The code does not keep C72: `StealBlkBuf` never returns the blocks. It always throws, whatever the store holds, because the
counters it clears fail the consistency check that follows; the blocks, already moved out, are lost. -/
theorem C72_steal_violated {β : Type} (buf : List β) (c : Ctrs) : steal buf c = .throw := by
  simp [steal, Ctrs.reset, Ctrs.consistent]

end Yacl.OtStore
