import Verif.Kernel.Ggm
import Mathlib.Algebra.BigOperators.Group.List.Basic
import Mathlib.Algebra.GroupWithZero.Action.Defs
import Mathlib.Algebra.Ring.Nat
import Mathlib.Tactic.Abel

/-! Multi-point functional secret sharing: yacl/kernel/algorithms/mpfss.{h,cc}. Properties C61, C78.

The tree hash `h` and the correlation-robust hash `crh` are arbitrary functions. -/
namespace Yacl.Mpfss
open Ggm

/-! ### Model -/

/-- mpfss.h L123-147 `MpfssOp`: the operations of the value type. -/
structure Op (K : Type) where
  add : K → K → K
  sub : K → K → K
  zero : K

/-- The default operations (exclusive or). -/
def xorOp (w : Nat) : Op (BitVec w) := ⟨(· ^^^ ·), (· ^^^ ·), 0⟩

/-- mpfss.h L45-60 `MpFssParam`. -/
structure Param where
  baseNum : Nat
  noise : Nat
  sp : Nat
  last : Nat
  size : Nat
  otNum : Nat
  idx : List Nat
deriving DecidableEq

/-- mpfss.h L62-89: the constructors. Arguments are `uint64_t`; no operation wraps for accepted arguments. -/
def mkParam (noise size : Nat) (mal : Bool) : Option Param :=
  if noise > 0 then
    let sp := size / noise
    let last := size - (noise - 1) * sp
    if sp > 1 then
      some { baseNum := if mal then noise + 1 else noise, noise := noise, sp := sp, last := last, size := size,
             otNum := height sp * (noise - 1) + height last, idx := [] }
    else none
  else none

/-- mpfss.h L92-98 `GenIndexes`, from the random 32-bit values drawn. -/
def genIndexes (p : Param) (rnd : List Nat) : Param :=
  { p with idx := (List.range p.noise).map fun i => rnd.getD i 0 % (if i = p.noise - 1 then p.last else p.sp) }

/-- mpfss.h L100-106 `SetIndexes`: `none` for a failed check or an access outside `indexes_`. -/
def setIndexes (p : Param) (indexes : List Nat) : Option Param :=
  if indexes.length ≥ p.noise then
    if p.idx.length ≥ p.noise then
      some { p with idx := (List.range p.idx.length).map fun i =>
        if i < p.noise - 1 then indexes.getD i 0 % p.sp
        else if i = p.noise - 1 then p.idx.getD i 0 % p.last
        else p.idx.getD i 0 }
    else none
  else none

/-- The size of block `i` (mpfss.cc L57, L99; the loops over super batches use the equivalent test L255-258). -/
def Param.blk (p : Param) (i : Nat) : Nat := if i = p.noise - 1 then p.last else p.sp

/-- mpfss.h L109-127 `GenChoices`: the bits of each index, lowest first; a block of size `n` has `Log2Ceil(n)` bits. -/
def genChoices (p : Param) : Option (List Bool) :=
  if p.idx.length = p.noise then
    some ((List.range p.noise).flatMap fun i => (List.range (height (p.blk i))).map fun j => (p.idx.getD i 0).testBit j)
  else none

/-- `OtStore::Slice(begin, end)` on the base OTs. -/
def slice (b : Base) (begin : Nat) : Base := ⟨fun i => b.blk (begin + i), fun i => b.c (begin + i)⟩

/-- `std::reduce(begin, end, init, op.add)`; the order of summation is unspecified in C++ and immaterial for the operations allowed here. -/
def reduce {K : Type} (op : Op K) (init : K) (l : List K) : K := l.foldl op.add init

/-- mpfss.cc L35-75, L129-175 `MpfssSend`: tree messages per block, the sums sent last, and the output. `conv` is the identity (128 bit) or the
truncation to 64 bit. `masks i` is what block `i` received from the peer. -/
def mpfssSend {K : Type} (op : Op K) (conv : B → K) (h crh : B → B) (b : Base) (delta : B) (seeds : Nat → B) (p : Param) (w : List K) (masks : Nat → Nat → Bool) :
    Option (List (List B) × List K × List K) :=
  if w.length ≥ p.noise then
    match (List.range p.noise).mapM fun i => gywzSend h (slice b (i * height p.sp)) delta (seeds i) (p.blk i) (masks i) with
    | none => none
    | some r =>
      let blocks := r.map fun x => x.2.map fun y => conv (crh y)
      some (r.map (·.1), (List.range p.noise).map fun i => reduce op (op.sub op.zero (w.getD i op.zero)) (blocks.getD i []), blocks.flatten)
  else none

/-- mpfss.cc L115-127 (and the ends of the other receivers): the last message corrects the punctured positions. -/
def fixup {K : Type} (op : Op K) (p : Param) (idx : Nat → Nat) (sums msgs : List K) (out : List K) : List K :=
  (List.range p.noise).foldl (fun o i =>
    o.set (i * p.sp + idx i) (op.add (o.getD (i * p.sp + idx i) op.zero) (op.sub (msgs.getD i op.zero) (sums.getD i op.zero)))) out

/-- mpfss.cc L77-127, L177-231 `MpfssRecv`. -/
def mpfssRecv {K : Type} (op : Op K) (conv : B → K) (h crh : B → B) (b : Base) (p : Param) (gm : List (List B)) (msgs : List K) : Option (List K) :=
  match (List.range p.noise).mapM fun i => gywzRecv h (slice b (i * height p.sp)) (p.blk i) (p.idx.getD i 0) (gm.getD i []) with
  | none => none
  | some r =>
    let blocks := r.map fun x => x.map fun y => conv (crh y)
    if msgs.length ≥ p.noise then
      some (fixup op p (fun i => p.idx.getD i 0) (blocks.map fun l => reduce op op.zero l) msgs blocks.flatten)
    else none

/-- The loops `for s < super_batch_num, i < bound` (mpfss.cc L262-292, L330-376, L425-470, L508-560): block `s * 16 + i` is the last one iff
`s = super_batch_num - 1` and `i = bound - 1`. -/
def superBatch (noise : Nat) : Nat := (noise + 15) / 16
def superBound (noise s : Nat) : Nat := min 16 (noise - s * 16)
def superSize (p : Param) (s i : Nat) : Nat := if s = superBatch p.noise - 1 ∧ i = superBound p.noise s - 1 then p.last else p.sp

/-- The tree size used for a block: the 64-bit variant expands a full tree (mpfss.cc L444, L540) and uses its first leaves. -/
def treeSize (full : Bool) (n : Nat) : Nat := if full then 2 ^ height n else n

/-- mpfss.cc L233-306, L396-484 `MpfssSend_fixed_index`: one tree message per super batch (the 128-bit variant sends their concatenation). -/
def mpfssFixedSend {K : Type} (op : Op K) (conv : B → K) (full : Bool) (h crh : B → B) (b : Base) (delta : B) (seeds : Nat → B) (p : Param) (w : List K) :
    Option (List (List B) × List K × List K) :=
  if w.length ≥ p.noise then
    match (List.range (superBatch p.noise)).mapM fun s => (List.range (superBound p.noise s)).mapM fun i =>
        gywzFixedSend h (slice b ((s * 16 + i) * height p.sp)) delta (seeds (s * 16 + i)) (treeSize full (superSize p s i)) with
    | none => none
    | some r =>
      let blocks := ((List.range (superBatch p.noise)).map fun s => (List.range (superBound p.noise s)).map fun i =>
        (((r.getD s []).getD i ([], [])).2.take (superSize p s i)).map fun y => conv (crh y)).flatten
      some (r.map fun x => (x.map (·.1)).flatten, (List.range p.noise).map fun i => reduce op (op.sub op.zero (w.getD i op.zero)) (blocks.getD i []), blocks.flatten)
  else none

/-- mpfss.cc L308-394, L486-587 `MpfssRecv_fixed_index`: the output and the indexes written back to the parameters. -/
def mpfssFixedRecv {K : Type} (op : Op K) (conv : B → K) (full : Bool) (h crh : B → B) (b : Base) (p : Param) (gm : List (List B)) (msgs : List K) :
    Option (List K × List Nat) :=
  match (List.range (superBatch p.noise)).mapM fun s => (List.range (superBound p.noise s)).mapM fun i =>
      gywzFixedRecv h (slice b ((s * 16 + i) * height p.sp)) (treeSize full (superSize p s i))
        (((gm.getD s []).drop (i * height p.sp)).take (height (superSize p s i))) with
  | none => none
  | some r =>
    let blocks := ((List.range (superBatch p.noise)).map fun s => (List.range (superBound p.noise s)).map fun i =>
      (((r.getD s []).getD i []).take (superSize p s i)).map fun y => conv (crh y)).flatten
    let idx := ((List.range (superBatch p.noise)).map fun s => (List.range (superBound p.noise s)).map fun i =>
      choiceIndex (slice b ((s * 16 + i) * height p.sp)).c (height (superSize p s i))).flatten
    if msgs.length = p.noise then
      some (fixup op p (fun i => idx.getD i 0) (blocks.map fun l => reduce op op.zero l) msgs blocks.flatten, idx)
    else none

/-- mpfss.cc L319-326, L341-344: the 128-bit receiver cuts the single message into super batches. -/
def cutSuper (p : Param) (all : List B) : List (List B) :=
  (List.range (superBatch p.noise)).map fun s =>
    let len := if s = superBatch p.noise - 1 then (superBound p.noise s - 1) * height p.sp + height p.last else 16 * height p.sp
    (all.drop (s * (16 * height p.sp))).take len

/-! ### Specification -/

/-- The sender's vector equals the receiver's, plus `w[i]` at the chosen position of block `i`. -/
def MultiPoint {K : Type} (add : K → K → K) (size noise sp : Nat) (idx : Nat → Nat) (w : Nat → K) (send recv : List K) : Prop :=
  send.length = size ∧ recv.length = size ∧
  (∀ i < noise, ∃ x y, send[i * sp + idx i]? = some x ∧ recv[i * sp + idx i]? = some y ∧ x = add y (w i)) ∧
  ∀ k, (∀ i < noise, k ≠ i * sp + idx i) → send[k]? = recv[k]?

/-- `d` is the number of levels of a tree with `n` leaves. -/
def IsDepth (n d : Nat) : Prop := n ≤ 2 ^ d ∧ ∀ k, n ≤ 2 ^ k → d ≤ k

/-! ### Lemmas -/

theorem mapM_some {α β : Type} (l : List α) (f : α → Option β) (g : α → β) (h : ∀ a ∈ l, f a = some (g a)) : l.mapM f = some (l.map g) := by
  induction l with
  | nil => rfl
  | cons a l ih =>
    rw [List.mapM_cons, h a (by simp), ih (fun x hx => h x (by simp [hx]))]
    rfl

theorem getD_map_range {α : Type} (f : Nat → α) (n i : Nat) (d : α) (h : i < n) : ((List.range n).map f).getD i d = f i := by
  rw [List.getD_eq_getElem?_getD, List.getElem?_map, List.getElem?_range h]
  rfl

/-- Blocks `0 … t-2` of length `m`: where an element of the concatenation lies. -/
theorem prefix_length {α : Type} (f : Nat → List α) (m n : Nat) (h : ∀ i < n, (f i).length = m) : ((List.range n).map f).flatten.length = n * m := by
  induction n with
  | zero => simp
  | succ n ih =>
    rw [List.range_succ, List.map_append, List.flatten_append, List.length_append, ih (fun i hi => h i (by omega))]
    simp [h n (by omega), Nat.succ_mul]

theorem flatten_get {α : Type} (f : Nat → List α) (m t i j : Nat) (hi : i < t) (h : ∀ k < t - 1, (f k).length = m) (hj : j < (f i).length) :
    ((List.range t).map f).flatten[i * m + j]? = (f i)[j]? := by
  have hp := prefix_length f m i (fun k hk => h k (by omega))
  have e : (List.range t).map f = (List.range i).map f ++ f i :: (List.range (t - i - 1)).map fun k => f (i + 1 + k) := by
    conv_lhs => rw [show t = i + 1 + (t - i - 1) by omega, List.range_add, List.map_append, List.range_succ, List.map_append, List.map_map]
    simp [Function.comp_def]
  rw [e, List.flatten_append, List.flatten_cons, List.getElem?_append_right (by omega), hp, Nat.add_sub_cancel_left, List.getElem?_append_left hj]

theorem flatten_length {α : Type} (f : Nat → List α) (m t : Nat) (ht : 0 < t) (h : ∀ k < t - 1, (f k).length = m) :
    ((List.range t).map f).flatten.length = (t - 1) * m + (f (t - 1)).length := by
  conv_lhs => rw [show t = (t - 1) + 1 by omega, List.range_succ, List.map_append, List.flatten_append, List.length_append, prefix_length f m (t - 1) h]
  simp

/-- Distinct blocks, distinct positions. -/
theorem pos_inj (m t : Nat) (idx : Nat → Nat) (h : ∀ i < t - 1, idx i < m) (i j : Nat) (hi : i < t) (hj : j < t) (e : i * m + idx i = j * m + idx j) : i = j := by
  by_contra hne
  rcases Nat.lt_or_gt_of_ne hne with hlt | hlt
  · have h1 := h i (by omega)
    have h2 : (i + 1) * m ≤ j * m := Nat.mul_le_mul_right m (by omega)
    rw [Nat.succ_mul] at h2
    omega
  · have h1 := h j (by omega)
    have h2 : (j + 1) * m ≤ i * m := Nat.mul_le_mul_right m (by omega)
    rw [Nat.succ_mul] at h2
    omega

theorem fixup_get {K : Type} (op : Op K) (p : Param) (idx : Nat → Nat) (sums msgs : List K) (out : List K) (hidx : ∀ i < p.noise - 1, idx i < p.sp)
    (hb : ∀ i < p.noise, i * p.sp + idx i < out.length) :
    (fixup op p idx sums msgs out).length = out.length ∧
    (∀ i < p.noise, (fixup op p idx sums msgs out)[i * p.sp + idx i]? =
      some (op.add (out.getD (i * p.sp + idx i) op.zero) (op.sub (msgs.getD i op.zero) (sums.getD i op.zero)))) ∧
    ∀ k, (∀ i < p.noise, k ≠ i * p.sp + idx i) → (fixup op p idx sums msgs out)[k]? = out[k]? := by
  unfold fixup
  have key : ∀ n, n ≤ p.noise → ∀ F, F = (List.range n).foldl (fun o i =>
      o.set (i * p.sp + idx i) (op.add (o.getD (i * p.sp + idx i) op.zero) (op.sub (msgs.getD i op.zero) (sums.getD i op.zero)))) out →
      F.length = out.length ∧
      (∀ i < n, F[i * p.sp + idx i]? = some (op.add (out.getD (i * p.sp + idx i) op.zero) (op.sub (msgs.getD i op.zero) (sums.getD i op.zero)))) ∧
      ∀ k, (∀ i < n, k ≠ i * p.sp + idx i) → F[k]? = out[k]? := by
    intro n hn
    induction n with
    | zero =>
      rintro F rfl
      exact ⟨rfl, fun i hi => by omega, fun k _ => rfl⟩
    | succ n ih =>
      rintro F rfl
      obtain ⟨h1, h2, h3⟩ := ih (by omega) _ rfl
      rw [List.range_succ, List.foldl_append]
      simp only [List.foldl_cons, List.foldl_nil]
      generalize (List.range n).foldl (fun o i =>
        o.set (i * p.sp + idx i) (op.add (o.getD (i * p.sp + idx i) op.zero) (op.sub (msgs.getD i op.zero) (sums.getD i op.zero)))) out = F at *
      have hn' := hb n (by omega)
      have hold : F[n * p.sp + idx n]? = out[n * p.sp + idx n]? := h3 _ (fun i hi e => by
        have := pos_inj p.sp p.noise idx hidx n i (by omega) (by omega) e
        omega)
      refine ⟨by rw [List.length_set]; exact h1, ?_, ?_⟩
      · intro i hi
        by_cases he : i = n
        · subst he
          rw [List.getElem?_set_self (by omega), List.getD_eq_getElem?_getD, hold, ← List.getD_eq_getElem?_getD]
        · rw [List.getElem?_set_ne (fun e => he (pos_inj p.sp p.noise idx hidx n i (by omega) (by omega) e).symm)]
          exact h2 i (by omega)
      · intro k hk
        rw [List.getElem?_set_ne (fun e => hk n (by omega) e.symm)]
        exact h3 k (fun i hi => hk i (by omega))
  exact key p.noise (le_refl _) _ rfl

section Group
variable {K : Type} [AddCommGroup K]

/-- The operations of an abelian group. -/
def grpOp : Op K := ⟨(· + ·), (· - ·), 0⟩

theorem reduce_eq (init : K) (l : List K) : reduce grpOp init l = init + l.sum := by
  unfold reduce
  induction l generalizing init with
  | nil => simp
  | cons a l ih =>
    rw [List.foldl_cons, ih, List.sum_cons, ← add_assoc]
    rfl

/-- Two lists that differ in one place: the difference of the sums is the difference there. -/
theorem sum_differ (s r : List K) (i : Nat) (x y : K) (hl : s.length = r.length) (hx : s[i]? = some x) (hy : r[i]? = some y)
    (h : ∀ j, j ≠ i → s[j]? = r[j]?) : s.sum - r.sum = x - y := by
  induction s generalizing r i with
  | nil => simp at hx
  | cons a s ih =>
    cases r with
    | nil => simp at hy
    | cons c r =>
      cases i with
      | zero =>
        have hsr : s = r := by
          apply List.ext_getElem?
          intro j
          have := h (j + 1) (by omega)
          simpa using this
        simp only [List.getElem?_cons_zero, Option.some.injEq] at hx hy
        subst hx hy hsr
        simp
      | succ i =>
        have h0 := h 0 (by omega)
        simp only [List.getElem?_cons_zero, Option.some.injEq] at h0
        subst h0
        have := ih r i (by simpa using hl) (by simpa using hx) (by simpa using hy) (fun j hj => by
          have := h (j + 1) (by omega)
          simpa using this)
        simp only [List.sum_cons]
        rw [← this]
        abel

/-- The arithmetic core: blocks that agree but for one position each, corrected with the sums, form a multi-point function sharing. -/
theorem core (p : Param) (hn : 0 < p.noise) (S R : Nat → List K) (idx : Nat → Nat) (w msgs : List K)
    (hS : ∀ i < p.noise, (S i).length = p.blk i) (hR : ∀ i < p.noise, (R i).length = p.blk i) (hidx : ∀ i < p.noise, idx i < p.blk i)
    (hsize : (p.noise - 1) * p.sp + p.last = p.size)
    (hSR : ∀ i < p.noise, ∀ j, j ≠ idx i → (S i)[j]? = (R i)[j]?)
    (hm : ∀ i < p.noise, msgs.getD i 0 = (0 - w.getD i 0) + (S i).sum) :
    MultiPoint (· + ·) p.size p.noise p.sp idx (fun i => w.getD i 0) ((List.range p.noise).map S).flatten
      (fixup grpOp p idx (((List.range p.noise).map R).map fun l => reduce grpOp (grpOp (K := K)).zero l) msgs ((List.range p.noise).map R).flatten) := by
  have hbl : ∀ i < p.noise - 1, p.blk i = p.sp := fun i hi => by unfold Param.blk; rw [if_neg (by omega)]
  have hlast : p.blk (p.noise - 1) = p.last := by unfold Param.blk; rw [if_pos rfl]
  have hSm : ∀ k < p.noise - 1, (S k).length = p.sp := fun k hk => by rw [hS k (by omega), hbl k hk]
  have hRm : ∀ k < p.noise - 1, (R k).length = p.sp := fun k hk => by rw [hR k (by omega), hbl k hk]
  have hSl : ((List.range p.noise).map S).flatten.length = p.size := by
    rw [flatten_length S p.sp p.noise hn hSm, hS _ (by omega), hlast, hsize]
  have hRl : ((List.range p.noise).map R).flatten.length = p.size := by
    rw [flatten_length R p.sp p.noise hn hRm, hR _ (by omega), hlast, hsize]
  have hpos : ∀ i < p.noise, i * p.sp + idx i < p.size := by
    intro i hi
    have := hidx i hi
    by_cases hl : i = p.noise - 1
    · subst hl
      rw [hlast] at this
      omega
    · rw [hbl i (by omega)] at this
      have h2 : (i + 1) * p.sp ≤ (p.noise - 1) * p.sp := Nat.mul_le_mul_right _ (by omega)
      rw [Nat.succ_mul] at h2
      omega
  obtain ⟨f1, f2, f3⟩ := fixup_get (grpOp (K := K)) p idx (((List.range p.noise).map R).map fun l => reduce grpOp (grpOp (K := K)).zero l) msgs
    ((List.range p.noise).map R).flatten (fun i hi => by have := hidx i (by omega); rwa [hbl i hi] at this) (fun i hi => by rw [hRl]; exact hpos i hi)
  refine ⟨hSl, by rw [f1, hRl], ?_, ?_⟩
  · intro i hi
    have hx : (S i)[idx i]? = some ((S i)[idx i]'(by rw [hS i hi]; exact hidx i hi)) := List.getElem?_eq_getElem _
    have hy : (R i)[idx i]? = some ((R i)[idx i]'(by rw [hR i hi]; exact hidx i hi)) := List.getElem?_eq_getElem _
    refine ⟨_, _, (flatten_get S p.sp p.noise i (idx i) hi hSm (by rw [hS i hi]; exact hidx i hi)).trans hx, f2 i hi, ?_⟩
    have e1 : ((List.range p.noise).map R).flatten.getD (i * p.sp + idx i) (grpOp (K := K)).zero = (R i)[idx i]'(by rw [hR i hi]; exact hidx i hi) := by
      rw [List.getD_eq_getElem?_getD, flatten_get R p.sp p.noise i (idx i) hi hRm (by rw [hR i hi]; exact hidx i hi), hy]
      rfl
    have e2 : (((List.range p.noise).map R).map fun l => reduce grpOp (grpOp (K := K)).zero l).getD i (grpOp (K := K)).zero = (R i).sum := by
      rw [List.map_map, getD_map_range _ _ _ _ hi]
      simp only [Function.comp]
      rw [reduce_eq]
      show 0 + _ = _
      rw [zero_add]
    have hd := sum_differ (S i) (R i) (idx i) _ _ (by rw [hS i hi, hR i hi]) hx hy (hSR i hi)
    have e3 : msgs.getD i (grpOp (K := K)).zero = (0 - w.getD i 0) + (S i).sum := hm i hi
    rw [e1, e2, e3]
    show _ = _ + (_ - _) + w.getD i 0
    have : (S i).sum = (R i).sum + ((S i)[idx i]'(by rw [hS i hi]; exact hidx i hi) - (R i)[idx i]'(by rw [hR i hi]; exact hidx i hi)) := by
      rw [← hd]
      abel
    rw [this]
    abel
  · intro k hk
    rw [f3 k hk]
    by_cases hks : k < p.size
    · -- block of k
      obtain ⟨i, j, hi, hj, rfl⟩ : ∃ i j, i < p.noise ∧ j < p.blk i ∧ k = i * p.sp + j := by
        by_cases hl : (p.noise - 1) * p.sp ≤ k
        · exact ⟨p.noise - 1, k - (p.noise - 1) * p.sp, by omega, by rw [hlast]; omega, by omega⟩
        · have hsp : 0 < p.sp := by
            by_contra hcon
            have : p.sp = 0 := by omega
            rw [this] at hl
            omega
          have hlt : k / p.sp < p.noise - 1 := by
            rw [Nat.div_lt_iff_lt_mul hsp]
            omega
          refine ⟨k / p.sp, k % p.sp, by omega, by rw [hbl _ hlt]; exact Nat.mod_lt _ hsp, ?_⟩
          rw [Nat.mul_comm, Nat.div_add_mod]
      rw [flatten_get S p.sp p.noise i j hi hSm (by rw [hS i hi]; exact hj), flatten_get R p.sp p.noise i j hi hRm (by rw [hR i hi]; exact hj)]
      exact hSR i hi j (fun e => hk i hi (by rw [e]))
    · rw [List.getElem?_eq_none (by omega), List.getElem?_eq_none (by omega)]

end Group

/-- Exclusive or as a group. -/
def xorGroup (w : Nat) : AddCommGroup (BitVec w) where
  add := (· ^^^ ·)
  add_assoc := BitVec.xor_assoc
  zero := 0#w
  zero_add := fun _ => BitVec.zero_xor
  add_zero := fun _ => BitVec.xor_zero
  nsmul := @nsmulRec _ ⟨0#w⟩ ⟨(· ^^^ ·)⟩
  neg := id
  sub := (· ^^^ ·)
  sub_eq_add_neg := fun _ _ => rfl
  zsmul := @zsmulRec _ ⟨0#w⟩ ⟨(· ^^^ ·)⟩ ⟨id⟩ (@nsmulRec _ ⟨0#w⟩ ⟨(· ^^^ ·)⟩)
  neg_add_cancel := fun _ => BitVec.xor_self
  add_comm := BitVec.xor_comm

theorem xorOp_eq (w : Nat) : @grpOp (BitVec w) (xorGroup w) = xorOp w := rfl

/-! ### C61 -/

theorem height_depth (n : Nat) (h0 : n ≠ 0) (h : n < 2 ^ 64) : IsDepth n (height n) := by
  have hn : (BitVec.ofNat 64 n).toNat = n := by
    rw [BitVec.toNat_ofNat]
    exact Nat.mod_eq_of_lt h
  have hne : BitVec.ofNat 64 n ≠ 0 := by
    intro e
    rw [e] at hn
    simp at hn
    omega
  obtain ⟨r, hr, ha, hb⟩ := (Gadget.C60_log2Ceil (BitVec.ofNat 64 n)).2 hne
  rw [hn] at ha hb
  have hh : height n = r.toNat := by simp [height, hr]
  rw [hh]
  exact ⟨ha, hb⟩

theorem mkParam_some (noise size : Nat) (mal : Bool) (p : Param) (hp : mkParam noise size mal = some p) :
    p.noise = noise ∧ 0 < noise ∧ p.sp = size / noise ∧ 1 < p.sp ∧ p.size = size ∧ p.sp ≤ p.last ∧ (p.noise - 1) * p.sp + p.last = size ∧
    p.last = p.sp + size % noise ∧ p.otNum = height p.sp * (p.noise - 1) + height p.last ∧ p.baseNum = noise + (if mal then 1 else 0) := by
  unfold mkParam at hp
  split at hp
  · next hpos =>
    simp only at hp
    split at hp
    · next hsp =>
      simp only [Option.some.injEq] at hp
      subst hp
      have hle : noise * (size / noise) ≤ size := Nat.mul_div_le _ _
      have hmod := Nat.div_add_mod size noise
      have hexp : noise * (size / noise) = (noise - 1) * (size / noise) + size / noise := by
        obtain ⟨k, rfl⟩ : ∃ k, noise = k + 1 := ⟨noise - 1, by omega⟩
        rw [Nat.succ_mul]
        rfl
      refine ⟨rfl, hpos, rfl, hsp, rfl, ?_, ?_, ?_, rfl, by cases mal <;> rfl⟩
      · show size / noise ≤ size - (noise - 1) * (size / noise)
        omega
      · show (noise - 1) * (size / noise) + (size - (noise - 1) * (size / noise)) = size
        omega
      · show size - (noise - 1) * (size / noise) = size / noise + size % noise
        omega
    · simp at hp
  · simp at hp

theorem sum_heights (p : Param) (hn : 0 < p.noise) :
    ((List.range p.noise).map fun i => height (p.blk i)).sum = height p.sp * (p.noise - 1) + height p.last := by
  conv_lhs => rw [show p.noise = (p.noise - 1) + 1 by omega, List.range_succ, List.map_append, List.sum_append]
  have e : (List.range (p.noise - 1)).map (fun i => height (p.blk i)) = (List.range (p.noise - 1)).map fun _ => height p.sp := by
    apply List.map_congr_left
    intro i hi
    rw [List.mem_range] at hi
    unfold Param.blk
    rw [if_neg (by omega)]
  rw [e]
  simp only [Param.blk, List.map_cons, List.map_nil, List.sum_cons, List.sum_nil, if_true, List.map_const', List.length_range, List.sum_replicate, smul_eq_mul]
  rw [Nat.mul_comm]
  rfl

/-- C61, sizes. The constructor accepts exactly when every block has at least two elements. Then there are `noise` blocks whose sizes sum to the total, all but
the last equal, and `require_ot_num_` is the sum of the depths of the blocks' trees. -/
theorem C61_param (noise size : Nat) (mal : Bool) (h64 : size < 2 ^ 64) :
    ((∃ p, mkParam noise size mal = some p) ↔ 0 < noise ∧ 2 * noise ≤ size) ∧
    ∀ p, mkParam noise size mal = some p → p.size = size ∧ p.noise = noise ∧ p.baseNum = noise + (if mal then 1 else 0) ∧
      ∃ sizes : List Nat, sizes.length = noise ∧ sizes.sum = size ∧ (∀ n ∈ sizes, 2 ≤ n) ∧ (∀ (i n : Nat), i + 1 < noise → sizes[i]? = some n → n = p.sp) ∧
        sizes.getLast? = some p.last ∧ ∃ depths : List Nat, List.Forall₂ IsDepth sizes depths ∧ p.otNum = depths.sum := by
  refine ⟨⟨?_, ?_⟩, ?_⟩
  · rintro ⟨p, hp⟩
    obtain ⟨h1, h2, h3, h4, -⟩ := mkParam_some _ _ _ _ hp
    refine ⟨h2, ?_⟩
    rw [h3] at h4
    have := (Nat.le_div_iff_mul_le h2).mp h4
    omega
  · rintro ⟨h1, h2⟩
    have : 1 < size / noise := (Nat.le_div_iff_mul_le h1).mpr (by omega)
    unfold mkParam
    rw [if_pos h1]
    simp only
    rw [if_pos this]
    exact ⟨_, rfl⟩
  · intro p hp
    obtain ⟨h1, h2, h3, h4, h5, h6, h7, h8, h9, h10⟩ := mkParam_some _ _ _ _ hp
    refine ⟨h5, h1, h10, (List.range noise).map p.blk, by simp, ?_, ?_, ?_, ?_, (List.range noise).map (fun i => height (p.blk i)), ?_, ?_⟩
    · have e : (List.range noise).map p.blk = (List.range (noise - 1)).map (fun _ => p.sp) ++ [p.last] := by
        conv_lhs => rw [show noise = (noise - 1) + 1 by omega, List.range_succ, List.map_append]
        congr 1
        · apply List.map_congr_left
          intro i hi
          rw [List.mem_range] at hi
          unfold Param.blk
          rw [if_neg (by omega)]
        · simp [Param.blk, h1]
      rw [e, List.sum_append]
      simp only [List.map_const', List.length_range, List.sum_replicate, smul_eq_mul, List.sum_cons, List.sum_nil]
      rw [h1] at h7
      omega
    · intro n hn
      rw [List.mem_map] at hn
      obtain ⟨i, _, rfl⟩ := hn
      unfold Param.blk
      split <;> omega
    · intro i n hi hn
      rw [List.getElem?_map, List.getElem?_range (by omega)] at hn
      simp only [Option.map_some, Option.some.injEq] at hn
      rw [← hn]
      unfold Param.blk
      rw [if_neg (by omega)]
    · rw [List.getLast?_eq_getElem?, List.length_map, List.length_range, List.getElem?_map, List.getElem?_range (by omega)]
      simp [Param.blk, h1]
    · rw [List.forall₂_map_left_iff, List.forall₂_map_right_iff, List.forall₂_same]
      intro i _
      apply height_depth
      · unfold Param.blk
        split <;> omega
      · unfold Param.blk
        have : p.last ≤ size := by omega
        split <;> omega
    · rw [h9, ← sum_heights p (by omega), h1]

/-- C61, choices. For indexes inside their blocks, `GenChoices` produces `require_ot_num_` bits, and the bits of the slice of OTs used for block `i` spell index `i`. -/
theorem C61_choices (noise size : Nat) (mal : Bool) (h64 : size < 2 ^ 64) (p : Param) (hp : mkParam noise size mal = some p) (idx : List Nat)
    (hl : idx.length = noise) (hidx : ∀ i < noise, idx.getD i 0 < p.blk i) :
    ∃ cs, genChoices { p with idx := idx } = some cs ∧ cs.length = p.otNum ∧
      ∀ i < noise, choiceIndex (fun j => cs.getD (i * height p.sp + j) false) (height (p.blk i)) = idx.getD i 0 := by
  obtain ⟨h1, h2, h3, h4, h5, h6, h7, h8, h9, h10⟩ := mkParam_some _ _ _ _ hp
  refine ⟨_, by unfold genChoices; rw [if_pos (by simp only; omega)], ?_, ?_⟩
  · rw [List.flatMap_def, flatten_length _ (height p.sp) p.noise (by omega)]
    · simp only [List.length_map, List.length_range]
      rw [h9, Nat.mul_comm]
      simp [Param.blk]
    · intro k hk
      simp only [List.length_map, List.length_range, Param.blk]
      rw [if_neg (by omega)]
  · intro i hi
    have hd := height_depth (p.blk i) (by have := hidx i hi; omega) (by
      unfold Param.blk
      have : p.last ≤ size := by omega
      split <;> omega)
    apply Nat.eq_of_testBit_eq
    intro j
    rw [choiceIndex_testBit]
    by_cases hj : j < height (p.blk i)
    · rw [List.flatMap_def, List.getD_eq_getElem?_getD, flatten_get _ (height p.sp) p.noise i j (by omega)]
      · have hb : ({ p with idx := idx } : Param).blk i = p.blk i := rfl
        rw [List.getElem?_map, hb, List.getElem?_range hj]
        simp [hj]
      · intro k hk
        simp only [List.length_map, List.length_range, Param.blk]
        rw [if_neg (by omega)]
      · simp only [List.length_map, List.length_range]
        exact hj
    · have : (idx.getD i 0).testBit j = false := by
        apply Nat.testBit_eq_false_of_lt
        have h1 := hidx i hi
        have h2 : 2 ^ height (p.blk i) ≤ 2 ^ j := Nat.pow_le_pow_right (by omega) (by omega)
        have := hd.1
        omega
      rw [this]
      simp [hj]

/-- C61, generated indexes lie inside their blocks, whatever was drawn. -/
theorem C61_genIndexes (noise size : Nat) (mal : Bool) (p : Param) (hp : mkParam noise size mal = some p) (rnd : List Nat) :
    (genIndexes p rnd).idx.length = noise ∧ ∀ i < noise, (genIndexes p rnd).idx.getD i 0 < p.blk i := by
  obtain ⟨h1, h2, h3, h4, h5, h6, h7, h8, h9, h10⟩ := mkParam_some _ _ _ _ hp
  refine ⟨by simp [genIndexes, h1], ?_⟩
  intro i hi
  simp only [genIndexes]
  rw [getD_map_range _ _ _ _ (by omega)]
  unfold Param.blk
  split
  · exact Nat.mod_lt _ (by omega)
  · exact Nat.mod_lt _ (by omega)

/-- C61, in part. `SetIndexes` after `GenIndexes` installs the given indexes except the last. Missing: the last index, and calling it on fresh parameters. -/
theorem C61_setIndexes_partial (noise size : Nat) (mal : Bool) (p : Param) (hp : mkParam noise size mal = some p) (rnd indexes : List Nat)
    (hl : noise ≤ indexes.length) :
    ∃ q, setIndexes (genIndexes p rnd) indexes = some q ∧ ∀ i, i + 1 < noise → q.idx.getD i 0 = indexes.getD i 0 % p.sp := by
  obtain ⟨h1, h2, -⟩ := mkParam_some _ _ _ _ hp
  have hg := C61_genIndexes noise size mal p hp rnd
  have hn : (genIndexes p rnd).noise = noise := h1
  refine ⟨_, by unfold setIndexes; rw [if_pos (by omega), if_pos (by omega)], ?_⟩
  intro i hi
  simp only
  rw [getD_map_range _ _ _ _ (by omega), if_pos (by omega)]
  rfl

/-- The code does not keep C61 for `SetIndexes`: on fresh parameters it writes outside the (empty) vector, and after `GenIndexes` the last index is the random one,
not the given one. -/
theorem C61_setIndexes_violated :
    (∃ p, mkParam 2 8 false = some p ∧ setIndexes p [1, 3] = none) ∧
    ∃ p q, mkParam 2 8 false = some p ∧ setIndexes (genIndexes p [0, 2]) [1, 3] = some q ∧ q.idx = [1, 2] := by
  refine ⟨⟨_, rfl, rfl⟩, _, _, rfl, rfl, by decide⟩

/-! ### C78 -/

theorem blocks_agree {K : Type} (g : B → K) (n index : Nat) (delta : B) (send recv : List B) (h : SinglePoint n index delta send recv) (m : Nat) (j : Nat) (hj : j ≠ index) :
    ((send.take m).map g)[j]? = ((recv.take m).map g)[j]? := by
  obtain ⟨h1, h2, h3⟩ := h
  rw [List.getElem?_map, List.getElem?_map]
  congr 1
  by_cases hjm : j < m
  · rw [List.getElem?_take_of_lt hjm, List.getElem?_take_of_lt hjm]
    by_cases hjn : j < n
    · have := h3 j (send[j]'(by omega)) (recv[j]'(by omega)) (List.getElem?_eq_getElem _) (List.getElem?_eq_getElem _)
      rw [if_neg hj] at this
      rw [List.getElem?_eq_getElem (by omega : j < send.length), List.getElem?_eq_getElem (by omega : j < recv.length), this]
    · rw [List.getElem?_eq_none (by omega), List.getElem?_eq_none (by omega)]
  · rw [List.getElem?_eq_none (by rw [List.length_take]; omega), List.getElem?_eq_none (by rw [List.length_take]; omega)]

/-- C78. For every parameter set, block values `w`, indexes inside their blocks, base COTs, seeds and hashes, and for the operations of any abelian group: the
sender's output equals the receiver's everywhere, except that at the chosen position of block `i` it is larger by `w[i]`. -/
theorem C78_mpfss {K : Type} [AddCommGroup K] (conv : B → K) (h crh : B → B) (b : Base) (delta : B) (hcot : ∀ i, b.blk i true = b.blk i false ^^^ delta)
    (seeds : Nat → B) (noise size : Nat) (mal : Bool) (p0 : Param) (hp : mkParam noise size mal = some p0) (h31 : p0.last ≤ 2 ^ 31) (idx : List Nat)
    (hidx : ∀ i < noise, idx.getD i 0 < p0.blk i) (w : List K) (hw : noise ≤ w.length) :
    ∃ gm msgs send recv,
      mpfssSend grpOp conv h crh b delta seeds { p0 with idx := idx } w (fun i => gywzMask (slice b (i * height p0.sp)) (idx.getD i 0)) = some (gm, msgs, send) ∧
      mpfssRecv grpOp conv h crh b { p0 with idx := idx } gm msgs = some recv ∧
      MultiPoint (· + ·) size noise p0.sp (fun i => idx.getD i 0) (fun i => w.getD i 0) send recv := by
  obtain ⟨h1, h2, h3, h4, h5, h6, h7, h8, h9, h10⟩ := mkParam_some _ _ _ _ hp
  have hblk : ∀ i, 2 ≤ p0.blk i ∧ p0.blk i ≤ 2 ^ 31 := by
    intro i
    unfold Param.blk
    split <;> omega
  have hg : ∀ i, i < noise → ∃ ms send recv, gywzSend h (slice b (i * height p0.sp)) delta (seeds i) (p0.blk i) (gywzMask (slice b (i * height p0.sp)) (idx.getD i 0)) =
      some (ms, send) ∧ gywzRecv h (slice b (i * height p0.sp)) (p0.blk i) (idx.getD i 0) ms = some recv ∧ SinglePoint (p0.blk i) (idx.getD i 0) delta send recv :=
    fun i hi => C40_gywz h (slice b (i * height p0.sp)) delta (seeds i) (fun j => hcot _) (p0.blk i) (idx.getD i 0) (hblk i).1 (hblk i).2 (hidx i hi)
  choose! MS SE RE hs hr hsp using hg
  generalize hP : ({ p0 with idx := idx } : Param) = p
  have e1 : p.noise = noise := by rw [← hP]; exact h1
  have e2 : p.sp = p0.sp := by rw [← hP]
  have e3 : p.blk = p0.blk := by rw [← hP]; rfl
  have e4 : p.idx = idx := by rw [← hP]
  have e5 : p.size = size := by rw [← hP]; exact h5
  have e6 : p.last = p0.last := by rw [← hP]
  have ms : (List.range p.noise).mapM (fun i => gywzSend h (slice b (i * height p.sp)) delta (seeds i) (p.blk i) (gywzMask (slice b (i * height p0.sp)) (idx.getD i 0))) =
      some ((List.range p.noise).map fun i => (MS i, SE i)) := by
    apply mapM_some
    intro i hi
    rw [List.mem_range, e1] at hi
    rw [e2, e3]
    exact hs i hi
  have mr : (List.range p.noise).mapM (fun i => gywzRecv h (slice b (i * height p.sp)) (p.blk i) (p.idx.getD i 0)
      ((((List.range p.noise).map fun i => (MS i, SE i)).map (·.1)).getD i [])) = some ((List.range p.noise).map RE) := by
    apply mapM_some
    intro i hi
    rw [List.mem_range] at hi
    rw [List.map_map, getD_map_range _ _ _ _ hi, e2, e3, e4]
    exact hr i (by omega)
  have eS : (((List.range p.noise).map fun i => (MS i, SE i)).map fun x => x.2.map fun y => conv (crh y)) =
      (List.range p.noise).map fun i => (SE i).map fun y => conv (crh y) := by rw [List.map_map]; rfl
  have eR : (((List.range p.noise).map RE).map fun x => x.map fun y => conv (crh y)) = (List.range p.noise).map fun i => (RE i).map fun y => conv (crh y) := by
    rw [List.map_map]; rfl
  refine ⟨_, _, _, fixup grpOp p (fun i => p.idx.getD i 0) _ _ _, by unfold mpfssSend; rw [if_pos (by omega), ms], by unfold mpfssRecv; rw [mr]; simp only; rw [if_pos (by simp)], ?_⟩
  · simp only [eS, eR, e4]
    have := core p (by omega) (fun i => (SE i).map fun y => conv (crh y)) (fun i => (RE i).map fun y => conv (crh y)) (fun i => idx.getD i 0) w
      ((List.range p.noise).map fun i => reduce grpOp (grpOp.sub grpOp.zero (w.getD i grpOp.zero)) (((List.range p.noise).map fun i => (SE i).map fun y => conv (crh y)).getD i []))
      (fun i hi => by rw [List.length_map, e3]; exact (hsp i (by omega)).1) (fun i hi => by rw [List.length_map, e3]; exact (hsp i (by omega)).2.1)
      (fun i hi => by rw [e3]; exact hidx i (by omega)) (by rw [e2, e6, e5, e1, ← h1]; exact h7)
      (fun i hi j hj => by
        have := blocks_agree (fun y => conv (crh y)) _ _ _ _ _ (hsp i (by omega)) (p0.blk i) j hj
        rwa [List.take_of_length_le (by rw [(hsp i (by omega)).1]), List.take_of_length_le (by rw [(hsp i (by omega)).2.1])] at this)
      (fun i hi => by
        rw [getD_map_range _ _ _ _ hi, reduce_eq, getD_map_range _ _ _ _ hi]
        rfl)
    rw [e1, e2, e5] at this
    rw [e1]
    exact this

theorem super_lt (n q : Nat) (hq : q < n) : q / 16 < superBatch n ∧ q % 16 < superBound n (q / 16) := by
  unfold superBatch superBound
  omega

theorem super_block (n s i : Nat) (hs : s < superBatch n) (hi : i < superBound n s) :
    s * 16 + i < n ∧ ((s = superBatch n - 1 ∧ i = superBound n s - 1) ↔ s * 16 + i = n - 1) := by
  unfold superBatch superBound at *
  omega

theorem super_size (p : Param) (s i : Nat) (hs : s < superBatch p.noise) (hi : i < superBound p.noise s) : superSize p s i = p.blk (s * 16 + i) := by
  unfold superSize Param.blk
  have := (super_block p.noise s i hs hi).2
  by_cases hc : s = superBatch p.noise - 1 ∧ i = superBound p.noise s - 1
  · rw [if_pos hc, if_pos (this.mp hc)]
  · rw [if_neg hc, if_neg (fun e => hc (this.mpr e))]

theorem super_flatten {α : Type} (n : Nat) (hn : 0 < n) (G : Nat → Nat → α) (F : Nat → α)
    (h : ∀ s < superBatch n, ∀ i < superBound n s, G s i = F (s * 16 + i)) :
    ((List.range (superBatch n)).map fun s => (List.range (superBound n s)).map fun i => G s i).flatten = (List.range n).map F := by
  have hm : ∀ k < superBatch n - 1, ((List.range (superBound n k)).map fun i => G k i).length = 16 := by
    intro k hk
    rw [List.length_map, List.length_range]
    unfold superBatch superBound at *
    omega
  have hl : ((List.range (superBatch n)).map fun s => (List.range (superBound n s)).map fun i => G s i).flatten.length = n := by
    rw [flatten_length _ 16 _ (by unfold superBatch; omega) hm, List.length_map, List.length_range]
    unfold superBatch superBound
    omega
  apply List.ext_getElem?
  intro q
  by_cases hq : q < n
  · obtain ⟨h1, h2⟩ := super_lt n q hq
    have hd : q / 16 * 16 + q % 16 = q := by omega
    conv_lhs => rw [← hd]
    rw [flatten_get (fun s => (List.range (superBound n s)).map fun i => G s i) 16 _ (q / 16) (q % 16) h1 hm (by rw [List.length_map, List.length_range]; exact h2), List.getElem?_map, List.getElem?_map,
      List.getElem?_range h2, List.getElem?_range hq]
    simp only [Option.map_some]
    rw [h _ h1 _ h2, hd]
  · rw [List.getElem?_eq_none (by omega), List.getElem?_eq_none (by simp; omega)]

/-- Cutting piece `i` out of a concatenation. -/
theorem flatten_slice {α : Type} (f : Nat → List α) (m t i n : Nat) (hi : i < t) (h : ∀ k < t - 1, (f k).length = m) (hn : (f i).length = n) :
    ((((List.range t).map f).flatten.drop (i * m)).take n) = f i := by
  have hp := prefix_length f m i (fun k hk => h k (by omega))
  have e : (List.range t).map f = (List.range i).map f ++ f i :: (List.range (t - i - 1)).map fun k => f (i + 1 + k) := by
    conv_lhs => rw [show t = i + 1 + (t - i - 1) by omega, List.range_add, List.map_append, List.range_succ, List.map_append, List.map_map]
    simp [Function.comp_def]
  rw [e, List.flatten_append, List.flatten_cons, List.drop_append_of_le_length (by omega), List.drop_of_length_le (by omega), List.nil_append, ← hn,
    List.take_append_of_le_length (le_refl _), List.take_length]

theorem height_treeSize (full : Bool) (n : Nat) (h1 : 2 ≤ n) (h2 : n ≤ 2 ^ 30) :
    height (treeSize full n) = height n ∧ n ≤ treeSize full n ∧ treeSize full n ≤ 2 ^ 31 := by
  obtain ⟨ha, hb⟩ := height_depth n (by omega) (by omega)
  have h30 : height n ≤ 30 := hb 30 h2
  have hpow : 2 ^ height n ≤ 2 ^ 30 := Nat.pow_le_pow_right (by omega) h30
  cases full
  · exact ⟨rfl, le_refl _, show n ≤ 2 ^ 31 by omega⟩
  · refine ⟨?_, ha, show 2 ^ height n ≤ 2 ^ 31 by omega⟩
    show height (2 ^ height n) = height n
    obtain ⟨hc, hd⟩ := height_depth (2 ^ height n) (by omega) (by omega)
    have h1 := hd (height n) (le_refl _)
    have h2 : height n ≤ height (2 ^ height n) := by
      by_contra hcon
      have := Nat.pow_lt_pow_right (a := 2) (by omega) (show height (2 ^ height n) < height n by omega)
      omega
    omega

theorem index_unique (c : Nat → Bool) (l idx : Nat) (hb : ∀ j < l, idx.testBit j = c j) (hlt : idx < 2 ^ l) : idx = choiceIndex c l := by
  apply Nat.eq_of_testBit_eq
  intro j
  rw [choiceIndex_testBit]
  by_cases hj : j < l
  · simp [hj, hb j hj]
  · rw [Nat.testBit_eq_false_of_lt (lt_of_lt_of_le hlt (Nat.pow_le_pow_right (by omega) (by omega)))]
    simp [hj]

/-- C78, with the indexes fixed by the choice bits of the base OTs (both the 128-bit variant, `full = false`, and the 64-bit variant, `full = true`): if the bits of
each block's slice spell a position inside the block, the receiver recovers these positions and the outputs form a multi-point sharing. The messages survive
being sent in one piece. -/
theorem C78_mpfss_fixed {K : Type} [AddCommGroup K] (conv : B → K) (full : Bool) (h crh : B → B) (b : Base) (delta : B)
    (hcot : ∀ i, b.blk i true = b.blk i false ^^^ delta) (seeds : Nat → B) (noise size : Nat) (mal : Bool) (p : Param) (p0 : Param)
    (hp : mkParam noise size mal = some p0) (hpp : p = { p0 with idx := p.idx }) (h30 : p0.last ≤ 2 ^ 30) (idx : Nat → Nat)
    (hidx : ∀ i < noise, idx i < p0.blk i ∧ ∀ j < height (p0.blk i), (idx i).testBit j = b.c (i * height p0.sp + j)) (w : List K) (hw : noise ≤ w.length) :
    ∃ gm msgs send recv,
      mpfssFixedSend grpOp conv full h crh b delta seeds p w = some (gm, msgs, send) ∧
      mpfssFixedRecv grpOp conv full h crh b p gm msgs = some (recv, (List.range noise).map idx) ∧
      cutSuper p gm.flatten = gm ∧ gm.flatten.length = p0.otNum ∧
      MultiPoint (· + ·) size noise p0.sp idx (fun i => w.getD i 0) send recv := by
  obtain ⟨h1, h2, h3, h4, h5, h6, h7, h8, h9, h10⟩ := mkParam_some _ _ _ _ hp
  have hblk : ∀ i, 2 ≤ p0.blk i ∧ p0.blk i ≤ 2 ^ 30 := by
    intro i
    unfold Param.blk
    split <;> omega
  have hix : ∀ i < noise, idx i = choiceIndex (slice b (i * height p0.sp)).c (height (p0.blk i)) := by
    intro i hi
    apply index_unique _ _ _ (hidx i hi).2
    have := (height_depth (p0.blk i) (by have := hblk i; omega) (by have := hblk i; omega)).1
    exact lt_of_lt_of_le (hidx i hi).1 this
  have hg : ∀ i, i < noise → ∃ ms send recv, gywzFixedSend h (slice b (i * height p0.sp)) delta (seeds i) (treeSize full (p0.blk i)) = some (ms, send) ∧
      gywzFixedRecv h (slice b (i * height p0.sp)) (treeSize full (p0.blk i)) ms = some recv ∧ SinglePoint (treeSize full (p0.blk i)) (idx i) delta send recv ∧
      ms.length = height (p0.blk i) := by
    intro i hi
    obtain ⟨t1, t2, t3⟩ := height_treeSize full (p0.blk i) (hblk i).1 (hblk i).2
    obtain ⟨ms, se, re, ix, g1, g2, g3, g4, g5⟩ := C40_gywz_fixed h (slice b (i * height p0.sp)) delta (seeds i) (fun j => hcot _) (treeSize full (p0.blk i))
      (by have := hblk i; omega) t3
    rw [t1] at g3 g4
    have : ix = idx i := by rw [hix i hi]; exact index_unique _ _ _ g3 g4
    subst this
    refine ⟨ms, se, re, g1, g2, g5, ?_⟩
    unfold gywzFixedSend at g1
    rw [if_pos (by have := hblk i; omega)] at g1
    simp only [Option.some.injEq, Prod.mk.injEq] at g1
    rw [← g1.1, List.length_map, List.length_range, t1]
  choose! MS SE RE hs hr hsp hml using hg
  have e1 : p.noise = noise := by rw [hpp]; exact h1
  have e2 : p.sp = p0.sp := by rw [hpp]
  have e3 : p.blk = p0.blk := by rw [hpp]; rfl
  have e5 : p.size = size := by rw [hpp]; exact h5
  have e6 : p.last = p0.last := by rw [hpp]
  have hsz : ∀ s < superBatch p.noise, ∀ i < superBound p.noise s, superSize p s i = p0.blk (s * 16 + i) := by
    intro s hs i hi
    rw [super_size p s i hs hi, e3]
  have ms : ((List.range (superBatch p.noise)).mapM fun s => (List.range (superBound p.noise s)).mapM fun i =>
        gywzFixedSend h (slice b ((s * 16 + i) * height p.sp)) delta (seeds (s * 16 + i)) (treeSize full (superSize p s i))) =
      some ((List.range (superBatch p.noise)).map fun s => (List.range (superBound p.noise s)).map fun i => (MS (s * 16 + i), SE (s * 16 + i))) := by
    apply mapM_some
    intro s hs'
    rw [List.mem_range] at hs'
    apply mapM_some
    intro i hi
    rw [List.mem_range] at hi
    rw [hsz s hs' i hi, e2]
    exact hs _ (by have := (super_block p.noise s i hs' hi).1; omega)
  -- messages of a super batch
  have hpiece : ∀ s < superBatch p.noise, ∀ i < superBound p.noise s,
      ((((List.range (superBound p.noise s)).map fun i => MS (s * 16 + i)).flatten.drop (i * height p.sp)).take (height (superSize p s i))) = MS (s * 16 + i) := by
    intro s hs' i hi
    apply flatten_slice (fun i => MS (s * 16 + i)) (height p.sp) _ i _ hi
    · intro k hk
      have hb := super_block p.noise s k hs' (by omega)
      rw [hml _ (by omega), ← e3]
      unfold Param.blk
      rw [if_neg (by intro e; have := hb.2.mpr e; omega)]
    · have hb := super_block p.noise s i hs' hi
      rw [hml _ (by omega), hsz s hs' i hi]
  generalize hGM : (((List.range (superBatch p.noise)).map fun s => (List.range (superBound p.noise s)).map fun i => (MS (s * 16 + i), SE (s * 16 + i))).map
    fun x => (x.map (·.1)).flatten) = GM
  have hGM' : GM = (List.range (superBatch p.noise)).map fun s => ((List.range (superBound p.noise s)).map fun i => MS (s * 16 + i)).flatten := by
    rw [← hGM, List.map_map]
    apply List.map_congr_left
    intro s _
    simp [Function.comp_def, List.map_map]
  have hGs : ∀ s < superBatch p.noise, GM.getD s [] = ((List.range (superBound p.noise s)).map fun i => MS (s * 16 + i)).flatten := by
    intro s hs'
    rw [hGM', getD_map_range _ _ _ _ hs']
  have mr : ((List.range (superBatch p.noise)).mapM fun s => (List.range (superBound p.noise s)).mapM fun i =>
      gywzFixedRecv h (slice b ((s * 16 + i) * height p.sp)) (treeSize full (superSize p s i))
        (((GM.getD s []).drop (i * height p.sp)).take (height (superSize p s i)))) =
      some ((List.range (superBatch p.noise)).map fun s => (List.range (superBound p.noise s)).map fun i => RE (s * 16 + i)) := by
    apply mapM_some
    intro s hs'
    rw [List.mem_range] at hs'
    apply mapM_some
    intro i hi
    rw [List.mem_range] at hi
    rw [hGs s hs', hpiece s hs' i hi, hsz s hs' i hi, e2]
    exact hr _ (by have := (super_block p.noise s i hs' hi).1; omega)
  have hGlen : ∀ s < superBatch p.noise, (GM.getD s []).length =
      if s = superBatch p.noise - 1 then (superBound p.noise s - 1) * height p.sp + height p.last else 16 * height p.sp := by
    intro s hs'
    have hb0 : 0 < superBound p.noise s := by unfold superBatch superBound at *; omega
    have hb1 := super_block p.noise s (superBound p.noise s - 1) hs' (by omega)
    rw [hGs s hs', flatten_length (fun i => MS (s * 16 + i)) (height p.sp) _ hb0]
    · rw [hml _ (by omega), ← e3]
      by_cases hl : s = superBatch p.noise - 1
      · rw [if_pos hl]
        unfold Param.blk
        rw [if_pos (hb1.2.mp ⟨hl, rfl⟩)]
      · rw [if_neg hl]
        unfold Param.blk
        rw [if_neg (fun e => hl (hb1.2.mpr e).1)]
        have : superBound p.noise s = 16 := by unfold superBatch superBound at *; omega
        rw [this]
        omega
    · intro k hk
      have hb := super_block p.noise s k hs' (by omega)
      rw [hml _ (by omega), ← e3]
      unfold Param.blk
      rw [if_neg (by intro e; have := hb.2.mpr e; omega)]
  have hsb : 0 < superBatch p.noise := by unfold superBatch; omega
  have hGR : GM = (List.range (superBatch p.noise)).map fun s => GM.getD s [] := by
    conv_lhs => rw [hGM']
    apply List.map_congr_left
    intro s hs'
    rw [List.mem_range] at hs'
    rw [hGs s hs']
  have eS : ((List.range (superBatch p.noise)).map fun s => (List.range (superBound p.noise s)).map fun i =>
        (((((List.range (superBatch p.noise)).map fun s => (List.range (superBound p.noise s)).map fun i => (MS (s * 16 + i), SE (s * 16 + i))).getD s []).getD i ([], [])).2.take
          (superSize p s i)).map fun y => conv (crh y)).flatten = (List.range p.noise).map fun q => ((SE q).take (p0.blk q)).map fun y => conv (crh y) := by
    apply super_flatten _ (by omega)
    intro s hs' i hi
    rw [getD_map_range _ _ _ _ hs', getD_map_range _ _ _ _ hi, hsz s hs' i hi]
  have eR : ((List.range (superBatch p.noise)).map fun s => (List.range (superBound p.noise s)).map fun i =>
        (((((List.range (superBatch p.noise)).map fun s => (List.range (superBound p.noise s)).map fun i => RE (s * 16 + i)).getD s []).getD i []).take
          (superSize p s i)).map fun y => conv (crh y)).flatten = (List.range p.noise).map fun q => ((RE q).take (p0.blk q)).map fun y => conv (crh y) := by
    apply super_flatten _ (by omega)
    intro s hs' i hi
    rw [getD_map_range _ _ _ _ hs', getD_map_range _ _ _ _ hi, hsz s hs' i hi]
  have eI : ((List.range (superBatch p.noise)).map fun s => (List.range (superBound p.noise s)).map fun i =>
      choiceIndex (slice b ((s * 16 + i) * height p.sp)).c (height (superSize p s i))).flatten = (List.range p.noise).map idx := by
    apply super_flatten _ (by omega)
    intro s hs' i hi
    rw [hsz s hs' i hi, e2, hix _ (by have := (super_block p.noise s i hs' hi).1; omega)]
  refine ⟨GM, _, _, _, by unfold mpfssFixedSend; rw [if_pos (by omega), ms]; simp only [eS, hGM]; rfl,
    by unfold mpfssFixedRecv; rw [mr]; simp only [eR, eI]; rw [if_pos (by simp), e1], ?_, ?_, ?_⟩
  · unfold cutSuper
    conv_rhs => rw [hGR]
    apply List.map_congr_left
    intro s hs'
    rw [List.mem_range] at hs'
    simp only
    conv_lhs => rw [hGR]
    apply flatten_slice (fun s => GM.getD s []) (16 * height p.sp) _ s _ hs'
    · intro k hk
      rw [hGlen k (by omega), if_neg (by omega)]
    · exact hGlen s hs'
  · rw [hGR, flatten_length (fun s => GM.getD s []) (16 * height p.sp) _ hsb (fun k hk => by rw [hGlen k (by omega), if_neg (by omega)]),
      hGlen _ (by omega), if_pos rfl, h9, e2, e6, ← Nat.add_assoc]
    congr 1
    have hx : (superBatch p.noise - 1) * 16 + (superBound p.noise (superBatch p.noise - 1) - 1) = p0.noise - 1 := by
      rw [← h1] at e1
      rw [← e1]
      unfold superBatch superBound
      omega
    rw [← hx, Nat.mul_comm (height p0.sp), Nat.add_mul, Nat.mul_assoc]
  · have := core p (by omega) (fun i => ((SE i).take (p0.blk i)).map fun y => conv (crh y)) (fun i => ((RE i).take (p0.blk i)).map fun y => conv (crh y))
      (fun i => ((List.range p.noise).map idx).getD i 0) w
      ((List.range p.noise).map fun i => reduce grpOp (grpOp.sub grpOp.zero (w.getD i grpOp.zero))
        (((List.range p.noise).map fun i => ((SE i).take (p0.blk i)).map fun y => conv (crh y)).getD i []))
      (fun i hi => by
        have hl := (hsp i (by omega)).1
        have := (height_treeSize full (p0.blk i) (hblk i).1 (hblk i).2).2.1
        rw [List.length_map, List.length_take, hl, e3]
        omega)
      (fun i hi => by
        have hl := (hsp i (by omega)).2.1
        have := (height_treeSize full (p0.blk i) (hblk i).1 (hblk i).2).2.1
        rw [List.length_map, List.length_take, hl, e3]
        omega)
      (fun i hi => by rw [getD_map_range _ _ _ _ hi, e3]; exact (hidx i (by omega)).1) (by rw [e2, e6, e5, e1, ← h1]; exact h7)
      (fun i hi j hj => by
        rw [getD_map_range _ _ _ _ hi] at hj
        exact blocks_agree (fun y => conv (crh y)) _ _ _ _ _ (hsp i (by omega)) (p0.blk i) j hj)
      (fun i hi => by
        rw [getD_map_range _ _ _ _ hi, reduce_eq, getD_map_range _ _ _ _ hi]
        rfl)
    rw [e1, e2, e5] at this
    rw [e1]
    obtain ⟨m1, m2, m3, m4⟩ := this
    refine ⟨m1, m2, ?_, ?_⟩
    · intro i hi
      have := m3 i hi
      simp only at this
      rwa [getD_map_range _ _ _ _ hi] at this
    · intro k hk
      apply m4
      intro i hi
      simp only
      rw [getD_map_range _ _ _ _ hi]
      exact hk i hi

/-- The default operations: exclusive or on 128 bits and on 64 bits. -/
theorem C78_mpfss_xor (w' : Nat) (conv : B → BitVec w') (h crh : B → B) (b : Base) (delta : B) (hcot : ∀ i, b.blk i true = b.blk i false ^^^ delta)
    (seeds : Nat → B) (noise size : Nat) (mal : Bool) (p0 : Param) (hp : mkParam noise size mal = some p0) (h31 : p0.last ≤ 2 ^ 31) (idx : List Nat)
    (hidx : ∀ i < noise, idx.getD i 0 < p0.blk i) (w : List (BitVec w')) (hw : noise ≤ w.length) :
    ∃ gm msgs send recv,
      mpfssSend (xorOp w') conv h crh b delta seeds { p0 with idx := idx } w (fun i => gywzMask (slice b (i * height p0.sp)) (idx.getD i 0)) = some (gm, msgs, send) ∧
      mpfssRecv (xorOp w') conv h crh b { p0 with idx := idx } gm msgs = some recv ∧
      MultiPoint (· ^^^ ·) size noise p0.sp (fun i => idx.getD i 0) (fun i => w.getD i 0) send recv := by
  letI := xorGroup w'
  exact C78_mpfss conv h crh b delta hcot seeds noise size mal p0 hp h31 idx hidx w hw

/-- The hypotheses hold for a real case: three blocks of sizes 5, 5, 7 with the bits chosen by `GenChoices`. -/
example : ∃ (p : Param) (cs : List Bool), mkParam 3 17 false = some p ∧ genChoices { p with idx := [4, 0, 6] } = some cs ∧
    ∀ i < 3, [4, 0, 6].getD i 0 < p.blk i ∧ ∀ j < height (p.blk i), ([4, 0, 6].getD i 0).testBit j = cs.getD (i * height p.sp + j) false :=
  ⟨⟨3, 3, 5, 7, 17, 9, []⟩, [false, false, true, false, false, false, false, true, true], by decide +kernel, by decide +kernel, by decide +kernel⟩

example : ∃ p, mkParam 3 17 true = some p ∧ p.sp = 5 ∧ p.last = 7 ∧ p.otNum = 9 ∧ p.baseNum = 4 := ⟨_, rfl, rfl, rfl, by decide +kernel, rfl⟩
example : (genChoices { (⟨3, 3, 5, 7, 17, 9, []⟩ : Param) with idx := [4, 0, 6] }) =
    some [false, false, true, false, false, false, false, true, true] := by decide +kernel

end Yacl.Mpfss
