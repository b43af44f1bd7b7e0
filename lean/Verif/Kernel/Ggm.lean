import Verif.Math.Gadget
import Mathlib.Tactic.Ring
import Mathlib.Data.Nat.Bitwise

/-! Tree-based single-point protocols: yacl/kernel/algorithms/{sgrr_ote,gywz_ote}.cc. Properties C39, C40.

The random permutations and hashes are arbitrary functions. Arrays are functions of the index; every loop writes exactly the
positions the code writes. -/
namespace Yacl.Ggm

abbrev B := BitVec 128

/-- XOR of `f 0 … f (n-1)`, as accumulated by the loops. -/
def xsum (f : Nat → B) (n : Nat) : B := (List.range n).foldl (fun t i => t ^^^ f i) 0

/-- `math::Log2Ceil(n)` for a `uint32_t` n. -/
def height (n : Nat) : Nat := ((Gadget.log2Ceil (BitVec.ofNat 64 n)).getD 0).toNat

/-- Base OTs: the sender's block pairs, the receiver's choices; the receiver's block `i` is the chosen one. -/
structure Base where
  blk : Nat → Bool → B
  c : Nat → Bool

/-! ### GYWZ model -/

/-- gywz_ote.cc L57-76, L110-129: one doubling step on `sz` seeds. -/
def cggmStep (h : B → B) (one : B) (sz : Nat) (w : Nat → B) : Nat → B := fun j =>
  if j < sz then h (w j) &&& one else w (j - sz) ^^^ (h (w (j - sz)) &&& one)

/-- gywz_ote.cc L44-76 `CggmFullEval`: the seeds after `l + 1` levels and the left sums so far. -/
def fullLevels (h : B → B) (one delta seed : B) : Nat → (Nat → B) × List B
  | 0 => (fun j => if j = 0 then seed &&& one else (seed &&& one) ^^^ (delta &&& one), [seed &&& one])
  | l + 1 =>
    let r := fullLevels h one delta seed l
    let w := cggmStep h one (2 ^ (l + 1)) r.1
    (w, r.2 ++ [xsum w (2 ^ (l + 1))])

/-- gywz_ote.cc L40, L61-65, L77-81 (and L137-141): the leaves: all in place when `n` is a power of two, otherwise the right half is computed in an
extra buffer of `prev_size = 2^(height-1)` and its first `n - prev_size` elements are copied back. -/
def leaves (n : Nat) (w : Nat → B) : List B :=
  let prev := 2 ^ (height n - 1)
  if n = 2 ^ height n then (List.range n).map w
  else (List.range prev).map w ++ ((List.range prev).map fun j => w (prev + j)).take (n - prev)

/-- gywz_ote.cc L84-142 `CggmPuncFullEval`: the seeds and the punctured index after `l + 1` levels. -/
def puncLevels (h : B → B) (one : B) (index : Nat) (sib : Nat → B) : Nat → (Nat → B) × Nat
  | 0 => (fun _ => sib 0 &&& one, index &&& 1)
  | l + 1 =>
    let r := puncLevels h one index sib l
    let sz := 2 ^ (l + 1)
    let w := cggmStep h one sz r.1
    let s := sib (l + 1) ^^^ xsum w sz
    (fun j => if j = r.2 ∨ j = sz + r.2 then w j ^^^ s else w j, r.2 ||| (index &&& sz))

/-- gywz_ote.cc L145-176 `GywzOtExtRecv`, first message: the masked choices. -/
def gywzMask (b : Base) (index i : Nat) : Bool := index.testBit i ^^ b.c i

/-- gywz_ote.cc L178-203 `GywzOtExtSend`: messages and output; `none` when an `ENFORCE` fails. -/
def gywzSend (h : B → B) (b : Base) (delta seed : B) (n : Nat) (mask : Nat → Bool) : Option (List B × List B) :=
  if n > 1 then
    let r := fullLevels h (BitVec.allOnes 128) delta seed (height n - 1)
    some ((List.range (height n)).map (fun i => r.2.getD i 0 ^^^ b.blk i (!mask i)), leaves n r.1)
  else none

/-- gywz_ote.cc L145-176 `GywzOtExtRecv`, after the message arrived. -/
def gywzRecv (h : B → B) (b : Base) (n index : Nat) (msgs : List B) : Option (List B) :=
  if n > 1 ∧ n > index then
    some (leaves n (puncLevels h (BitVec.allOnes 128) index (fun i => msgs.getD i 0 ^^^ b.blk i (b.c i)) (height n - 1)).1)
  else none

/-- The index spelled by the base choices (gywz_ote.cc L213-216, L306-309). -/
def choiceIndex (c : Nat → Bool) : Nat → Nat
  | 0 => 0
  | i + 1 => choiceIndex c i ||| ((if c i then 1 else 0) <<< i)

/-- gywz_ote.cc L315-330 `GywzOtExtSend_fixed_index`. -/
def gywzFixedSend (h : B → B) (b : Base) (delta seed : B) (n : Nat) : Option (List B × List B) :=
  if n > 1 then
    let r := fullLevels h (BitVec.allOnes 128) delta seed (height n - 1)
    some ((List.range (height n)).map (fun i => r.2.getD i 0 ^^^ b.blk i true), leaves n r.1)
  else none

/-- gywz_ote.cc L295-313 `GywzOtExtRecv_fixed_index`. -/
def gywzFixedRecv (h : B → B) (b : Base) (n : Nat) (msgs : List B) : Option (List B) :=
  if n > 1 then
    let index := choiceIndex b.c (height n)
    some (leaves n (puncLevels h (BitVec.allOnes 128) index (fun i => msgs.getD i 0 ^^^ b.blk i (b.c i)) (height n - 1)).1)
  else none

/-- `MakeUint128(0xffffffffffffffff, 0xfffffffffffffffe)`. -/
def maskOne : B := BitVec.allOnes 128 ^^^ 1

/-- gywz_ote.cc L236-262 `GywzOtExtSend_ferret`. -/
def ferretSend (h : B → B) (b : Base) (delta seed : B) (n : Nat) : Option (List B × List B) :=
  if n > 1 then
    let r := fullLevels h maskOne (delta &&& maskOne) (seed &&& maskOne) (height n - 1)
    some ((List.range (height n)).map (fun i => r.2.getD i 0 ^^^ (b.blk i true &&& maskOne)), leaves n r.1)
  else none

/-- gywz_ote.cc L205-234 `GywzOtExtRecv_ferret`. -/
def ferretRecv (h : B → B) (b : Base) (n : Nat) (msgs : List B) : Option (List B) :=
  if n > 1 then
    let index := choiceIndex b.c (height n)
    let out := leaves n (puncLevels h maskOne index (fun i => msgs.getD i 0 ^^^ (b.blk i (b.c i) &&& maskOne)) (height n - 1)).1
    some (if n > index then out.set index (out.getD index 0 ||| ~~~maskOne) else out)
  else none

/-! ### SGRR model -/

/-- sgrr_ote.cc L81-92 `SplitAllSeeds` on `iter` seeds: two fixed-key permutations. -/
def splitAll (p0 p1 : B → B) (iter : Nat) (o : Nat → B) : Nat → B := fun j => if j < iter then p0 (o j) else p1 (o (j - iter))

/-- sgrr_ote.cc L228-240: the sender's array after `i` levels, with the messages of those levels. -/
def sgrrSendLevels (p0 p1 : B → B) (n : Nat) (seed : B) : Nat → (Nat → B) × List (B × B)
  | 0 => (fun j => if j = 0 then seed else 0, [])
  | i + 1 =>
    let r := sgrrSendLevels p0 p1 n seed i
    let iter := 2 ^ i
    let m := min iter n
    let sp := splitAll p0 p1 iter r.1
    let splits := fun j => if j < m then sp j ^^^ r.1 j else if iter ≤ j ∧ j - iter < m then sp j ^^^ r.1 (j - iter) else sp j
    (fun j => if j < min (2 * iter) n then splits j else r.1 j,
     r.2 ++ [(xsum splits m, xsum (fun j => splits (j + iter)) m)])

/-- sgrr_ote.cc L60-79: index bits below the level, and the same with the level's bit flipped. -/
def puncturedIdx (index level : Nat) : Nat := index % 2 ^ (level + 1)
def insertedIdx (index level : Nat) : Nat := puncturedIdx index level ^^^ 2 ^ level

/-- sgrr_ote.cc L175-204: the receiver's array after `i` levels; `ins i` is the unmasked message of level `i`. -/
def sgrrRecvLevels (p0 p1 : B → B) (n index : Nat) (ins : Nat → B) : Nat → (Nat → B)
  | 0 => fun _ => 0
  | i + 1 =>
    let o := sgrrRecvLevels p0 p1 n index ins i
    let p := puncturedIdx index i
    let q := insertedIdx index i
    let iter := 2 ^ i
    let m := min iter n
    let skip := fun j => j = p ∨ j = q
    let sp := splitAll p0 p1 iter o
    let splits := fun j =>
      if j < m then (if skip j then sp j else sp j ^^^ o j)
      else if iter ≤ j ∧ j - iter < m then (if skip (j - iter) then sp j else sp j ^^^ o (j - iter)) else sp j
    let ins' := if i ≠ 0 then
        ins i ^^^ xsum (fun j => if skip j then 0 else if index.testBit i then splits j else splits (j + iter)) m
      else ins i
    let o' := if i ≠ 0 then (fun j => if j < min (2 * iter) n then splits j else o j) else o
    fun j => if q < n ∧ j = q then ins' else if j = p then 0 else o' j

/-- sgrr_ote.cc L113-128 `GenCheckMsg`; `hb` is Blake3 of a block, `hs` Blake3 of the concatenated digests. -/
def genCheck (hb : B → BitVec 256) (hs : List (BitVec 256) → BitVec 256) (out : List B) : BitVec 256 × BitVec 256 :=
  let tmp := out.map hb
  (tmp.foldl (fun t x => x ^^^ t) 0, hs tmp)

/-- sgrr_ote.cc L130-151 `VerifyCheckMsg`. -/
def verifyCheck (hb : B → BitVec 256) (hs : List (BitVec 256) → BitVec 256) (index : Nat) (out : List B)
    (proof : BitVec 256 × BitVec 256) : Bool :=
  let tmp := out.map hb
  let t := tmp.foldl (fun t x => x ^^^ t) proof.1
  decide (hs (tmp.set index (t ^^^ tmp.getD index 0)) = proof.2)

/-- sgrr_ote.cc L159-171, the masked choices `~choice ^ base choices`. -/
def sgrrMask (b : Base) (index i : Nat) : Bool := !(index.testBit i) ^^ b.c i

/-- sgrr_ote.cc L220-266 `SgrrOtExtSend`: messages, proof and output. `crh` is the correlation-robust hash. -/
def sgrrSend (p0 p1 crh : B → B) (hb : B → BitVec 256) (hs : List (BitVec 256) → BitVec 256) (b : Base) (seed : B) (n : Nat) (mal : Bool)
    (mask : Nat → Bool) : Option (List (B × B) × (BitVec 256 × BitVec 256) × List B) :=
  if n > 1 then
    let r := sgrrSendLevels p0 p1 n seed (height n)
    let msgs := (List.range (height n)).map fun i =>
      ((r.2.getD i (0, 0)).1 ^^^ b.blk i (mask i), (r.2.getD i (0, 0)).2 ^^^ b.blk i (!mask i))
    let out := (List.range n).map r.1
    some (msgs, genCheck hb hs out, if mal then out.map crh else out)
  else none

/-- sgrr_ote.cc L153-218 `SgrrOtExtRecv`; `none` when an `ENFORCE` fails, in particular the consistency check. -/
def sgrrRecv (p0 p1 crh : B → B) (hb : B → BitVec 256) (hs : List (BitVec 256) → BitVec 256) (b : Base) (n index : Nat) (mal : Bool)
    (msgs : List (B × B)) (proof : BitVec 256 × BitVec 256) : Option (List B) :=
  if n > 1 ∧ index < n then
    let ins := fun i => (if index.testBit i then (msgs.getD i (0, 0)).1 else (msgs.getD i (0, 0)).2) ^^^ b.blk i (b.c i)
    let out := (List.range n).map (sgrrRecvLevels p0 p1 n index ins (height n))
    if mal then
      if verifyCheck hb hs index out proof then some ((out.map crh).set index 0) else none
    else some out
  else none

/-- sgrr_ote.cc L360-398 `SgrrOtExtSend_fixed_index`. -/
def sgrrFixedSend (p0 p1 crh : B → B) (hb : B → BitVec 256) (hs : List (BitVec 256) → BitVec 256) (b : Base) (seed : B) (n : Nat)
    (mal : Bool) : Option (List (B × B) × (BitVec 256 × BitVec 256) × List B) :=
  if n > 1 then
    let r := sgrrSendLevels p0 p1 n seed (height n)
    let msgs := (List.range (height n)).map fun i =>
      (b.blk i true ^^^ (r.2.getD i (0, 0)).1, b.blk i false ^^^ (r.2.getD i (0, 0)).2)
    let out := (List.range n).map r.1
    some (msgs, genCheck hb hs out, if mal then out.map crh else out)
  else none

/-- sgrr_ote.cc L299-358 `SgrrOtExtRecv_fixed_index`: the index is spelled by the base choices. -/
def sgrrFixedRecv (p0 p1 crh : B → B) (hb : B → BitVec 256) (hs : List (BitVec 256) → BitVec 256) (b : Base) (n : Nat) (mal : Bool)
    (msgs : List (B × B)) (proof : BitVec 256 × BitVec 256) : Option (List B) :=
  sgrrRecv p0 p1 crh hb hs b n (choiceIndex b.c (height n)) mal msgs proof

/-! ### Lemmas -/

theorem xor_and (x y m : B) : (x ^^^ y) &&& m = (x &&& m) ^^^ (y &&& m) := by
  apply BitVec.eq_of_getLsbD_eq
  intro i _
  simp only [BitVec.getLsbD_xor, BitVec.getLsbD_and]
  cases x.getLsbD i <;> cases y.getLsbD i <;> cases m.getLsbD i <;> rfl

theorem xor_l1 (a b : B) : a ^^^ (b ^^^ a) = b := by
  rw [BitVec.xor_comm b, ← BitVec.xor_assoc, BitVec.xor_self, BitVec.zero_xor]

theorem xor_l2 (a b : B) : a ^^^ (a ^^^ b) = b := by
  rw [← BitVec.xor_assoc, BitVec.xor_self, BitVec.zero_xor]

theorem xsum_succ (f : Nat → B) (n : Nat) : xsum f (n + 1) = xsum f n ^^^ f n := by
  unfold xsum
  rw [List.range_succ, List.foldl_append]
  rfl

theorem xsum_congr {f g : Nat → B} {n : Nat} (h : ∀ j < n, f j = g j) : xsum f n = xsum g n := by
  induction n with
  | zero => rfl
  | succ n ih => rw [xsum_succ, xsum_succ, ih (fun j hj => h j (by omega)), h n (by omega)]

theorem xsum_xor (f g : Nat → B) (n : Nat) : xsum (fun j => f j ^^^ g j) n = xsum f n ^^^ xsum g n := by
  induction n with
  | zero => exact (BitVec.xor_zero (x := (0 : B))).symm
  | succ n ih =>
    rw [xsum_succ, xsum_succ, xsum_succ, ih]
    ac_rfl

theorem xsum_add (f : Nat → B) (n m : Nat) : xsum f (n + m) = xsum f n ^^^ xsum (fun j => f (n + j)) m := by
  induction m with
  | zero =>
    rw [Nat.add_zero]
    exact (BitVec.xor_zero).symm
  | succ m ih => rw [← Nat.add_assoc, xsum_succ, ih, xsum_succ, BitVec.xor_assoc]

theorem xsum_zero (n : Nat) : xsum (fun _ => 0) n = 0 := by
  induction n with
  | zero => rfl
  | succ n ih =>
    rw [xsum_succ, ih]
    rfl

theorem xsum_single (a : Nat) (v : B) (n : Nat) (h : a < n) : xsum (fun j => if j = a then v else 0) n = v := by
  induction n with
  | zero => omega
  | succ n ih =>
    rw [xsum_succ]
    by_cases h' : a < n
    · rw [ih h', if_neg (by omega)]
      exact BitVec.xor_zero
    · have : a = n := by omega
      subst this
      rw [xsum_congr (g := fun _ => 0) (fun j hj => if_neg (by omega)), xsum_zero, if_pos rfl]
      exact BitVec.zero_xor

/-- Summing all but one term. -/
theorem xsum_except (f : Nat → B) (a n : Nat) (h : a < n) : xsum (fun j => if j = a then 0 else f j) n = xsum f n ^^^ f a := by
  have e : xsum f n = xsum (fun j => (if j = a then 0 else f j) ^^^ (if j = a then f a else 0)) n := by
    apply xsum_congr
    intro j _
    by_cases hj : j = a
    · subst hj
      simp
    · simp [hj]
  rw [e, xsum_xor, xsum_single a _ n h, BitVec.xor_assoc, BitVec.xor_self]
  exact (BitVec.xor_zero).symm

theorem height_spec (n : Nat) (h1 : 2 ≤ n) (h2 : n ≤ 2 ^ 31) : 1 ≤ height n ∧ n ≤ 2 ^ height n ∧ 2 ^ (height n - 1) < n := by
  have hn : (BitVec.ofNat 64 n).toNat = n := by
    rw [BitVec.toNat_ofNat]
    exact Nat.mod_eq_of_lt (by omega)
  have hne : BitVec.ofNat 64 n ≠ 0 := by
    intro h
    rw [h] at hn
    simp at hn
    omega
  obtain ⟨r, hr, ha, hb⟩ := (Gadget.C60_log2Ceil (BitVec.ofNat 64 n)).2 hne
  rw [hn] at ha hb
  have hh : height n = r.toNat := by simp [height, hr]
  rw [hh]
  have h1' : 1 ≤ r.toNat := by
    by_contra hcon
    have : r.toNat = 0 := by omega
    rw [this] at ha
    omega
  refine ⟨h1', ha, ?_⟩
  by_contra hcon
  have := hb (r.toNat - 1) (by omega)
  omega

theorem leaves_eq (n : Nat) (h1 : 2 ≤ n) (h2 : n ≤ 2 ^ 31) (w : Nat → B) : leaves n w = (List.range n).map w := by
  obtain ⟨a, b, c⟩ := height_spec n h1 h2
  unfold leaves
  simp only
  split
  · rfl
  · have hp : 2 ^ height n = 2 * 2 ^ (height n - 1) := by
      conv_lhs => rw [show height n = height n - 1 + 1 by omega, Nat.pow_succ, Nat.mul_comm]
    generalize 2 ^ (height n - 1) = P at *
    conv_rhs => rw [show n = P + (n - P) by omega, List.range_add, List.map_append, List.map_map]
    congr 1
    rw [← List.map_take, List.take_range, min_eq_left (by omega)]
    rfl

theorem punct_step (index l : Nat) : (index % 2 ^ (l + 1)) ||| (index &&& 2 ^ (l + 1)) = index % 2 ^ (l + 2) := by
  apply Nat.eq_of_testBit_eq
  intro i
  simp only [Nat.testBit_or, Nat.testBit_and, Nat.testBit_mod_two_pow, Nat.testBit_two_pow]
  by_cases h1 : i < l + 1
  · simp [h1, show i < l + 2 by omega, show ¬ l + 1 = i by omega]
  · by_cases h2 : i = l + 1
    · subst h2
      simp
    · simp [h1, show ¬ i < l + 2 by omega, show ¬ l + 1 = i by omega]

theorem punc_idx (h : B → B) (one : B) (index : Nat) (sib : Nat → B) (l : Nat) :
    (puncLevels h one index sib l).2 = index % 2 ^ (l + 1) := by
  induction l with
  | zero => simp [puncLevels, Nat.and_one_is_mod]
  | succ l ih =>
    simp only [puncLevels]
    rw [ih]
    exact punct_step index l

theorem full_sums_length (h : B → B) (one delta seed : B) (l : Nat) : (fullLevels h one delta seed l).2.length = l + 1 := by
  induction l with
  | zero => rfl
  | succ l ih => simp [fullLevels, ih]

/-- The left sum of level `i`. -/
def leftSum (h : B → B) (one delta seed : B) : Nat → B
  | 0 => seed &&& one
  | i + 1 => xsum (fullLevels h one delta seed (i + 1)).1 (2 ^ (i + 1))

theorem full_sums_get (h : B → B) (one delta seed : B) (l i : Nat) (hi : i ≤ l) :
    (fullLevels h one delta seed l).2.getD i 0 = leftSum h one delta seed i := by
  induction l with
  | zero =>
    have : i = 0 := by omega
    subst this
    rfl
  | succ l ih =>
    have hl := full_sums_length h one delta seed l
    simp only [fullLevels]
    rw [List.getD_eq_getElem?_getD]
    by_cases hil : i ≤ l
    · rw [List.getElem?_append_left (by omega), ← List.getD_eq_getElem?_getD]
      exact ih hil
    · have : i = l + 1 := by omega
      subst this
      rw [List.getElem?_append_right (by omega), hl]
      simp [leftSum, fullLevels]

/-- At every level the sender's seeds sum to `delta` (masked). -/
theorem full_total (h : B → B) (one delta seed : B) (l : Nat) : xsum (fullLevels h one delta seed l).1 (2 ^ (l + 1)) = delta &&& one := by
  induction l with
  | zero =>
    show xsum _ (1 + 1) = _
    rw [xsum_succ, xsum_succ]
    simp only [xsum, List.range_zero, List.foldl_nil, fullLevels]
    simp
    rw [← BitVec.xor_assoc, BitVec.xor_self, BitVec.zero_xor]
  | succ l ih =>
    rw [show 2 ^ (l + 1 + 1) = 2 ^ (l + 1) + 2 ^ (l + 1) by rw [Nat.pow_succ]; omega, xsum_add]
    simp only [fullLevels]
    generalize (fullLevels h one delta seed l).1 = w at *
    rw [← ih, ← xsum_xor]
    apply xsum_congr
    intro j hj
    simp only [cggmStep, if_pos hj, show ¬ 2 ^ (l + 1) + j < 2 ^ (l + 1) by omega, if_false, Nat.add_sub_cancel_left]
    rw [BitVec.xor_comm (w j), ← BitVec.xor_assoc, BitVec.xor_self, BitVec.zero_xor]

theorem full_masked (h : B → B) (one delta seed : B) (l j : Nat) :
    (fullLevels h one delta seed l).1 j &&& one = (fullLevels h one delta seed l).1 j := by
  induction l generalizing j with
  | zero =>
    simp only [fullLevels]
    split
    · rw [BitVec.and_assoc, BitVec.and_self]
    · rw [xor_and]
      simp only [BitVec.and_assoc, BitVec.and_self]
  | succ l ih =>
    simp only [fullLevels, cggmStep]
    split
    · rw [BitVec.and_assoc, BitVec.and_self]
    · rw [xor_and, ih, BitVec.and_assoc, BitVec.and_self]

/-- The half-tree invariant: the receiver's seeds are the sender's, shifted by delta at the punctured position. -/
theorem half_tree (h : B → B) (one delta seed : B) (index : Nat) (sib : Nat → B) (l : Nat)
    (hs : ∀ i ≤ l, sib i = leftSum h one delta seed i ^^^ (if index.testBit i then 0 else delta &&& one)) (j : Nat) (hj : j < 2 ^ (l + 1)) :
    (puncLevels h one index sib l).1 j =
      (fullLevels h one delta seed l).1 j ^^^ (if j = index % 2 ^ (l + 1) then delta &&& one else 0) := by
  induction l generalizing j with
  | zero =>
    have h0 := hs 0 (le_refl _)
    have hbit : index.testBit 0 = decide (index % 2 = 1) := by simp [Nat.testBit_zero]
    simp only [puncLevels, fullLevels, h0, leftSum, hbit]
    have hj2 : j = 0 ∨ j = 1 := by omega
    have hx2 : index % 2 = 0 ∨ index % 2 = 1 := by omega
    simp only [Nat.zero_add, Nat.pow_one]
    rcases hj2 with rfl | rfl <;> rcases hx2 with hx | hx <;>
      simp [hx, xor_and, BitVec.and_assoc, BitVec.xor_assoc]
  | succ l ih =>
    have ih' := ih (fun i hi => hs i (by omega))
    have hidx := punc_idx h one index sib l
    have hsl := hs (l + 1) (le_refl _)
    have htot := full_total h one delta seed (l + 1)
    simp only [puncLevels, hidx, hsl]
    simp only [leftSum]
    generalize hd : delta &&& one = d at *
    generalize hv : (puncLevels h one index sib l).1 = v at *
    simp only [fullLevels] at *
    generalize hw : (fullLevels h one delta seed l).1 = w at *
    have hp2 : 2 ^ (l + 1 + 1) = 2 ^ (l + 1) + 2 ^ (l + 1) := by rw [Nat.pow_succ]; omega
    have hpm : index % 2 ^ (l + 1 + 1) = index % 2 ^ (l + 1) + (if index.testBit (l + 1) then 2 ^ (l + 1) else 0) := by
      rw [Nat.mod_pow_succ, Nat.testBit_eq_decide_div_mod_eq]
      have : index / 2 ^ (l + 1) % 2 = 0 ∨ index / 2 ^ (l + 1) % 2 = 1 := by omega
      rcases this with h | h <;> simp [h]
    have hplt : index % 2 ^ (l + 1) < 2 ^ (l + 1) := Nat.mod_lt _ (Nat.two_pow_pos _)
    generalize index % 2 ^ (l + 1) = p at *
    rw [hpm]
    rw [hp2] at hj
    generalize 2 ^ (l + 1) = sz at *
    -- the sum of the receiver's left values, except at the punctured position
    have hsum : xsum (cggmStep h one sz v) sz = xsum (cggmStep h one sz w) sz ^^^ cggmStep h one sz w p ^^^ cggmStep h one sz v p := by
      have e : ∀ f : Nat → B, xsum f sz = xsum (fun j => if j = p then 0 else f j) sz ^^^ f p := by
        intro f
        rw [xsum_except f p sz hplt, BitVec.xor_assoc, BitVec.xor_self, BitVec.xor_zero]
      rw [e (cggmStep h one sz v), ← xsum_except _ p sz hplt]
      congr 1
      apply xsum_congr
      intro j hj
      by_cases hjp : j = p
      · simp [hjp]
      · simp only [hjp, if_false, cggmStep, hj, if_true]
        rw [ih' j hj, if_neg hjp]
        simp
    rw [hsum]
    have hvp := ih' p hplt
    rw [if_pos rfl] at hvp
    generalize xsum (cggmStep h one sz w) sz = S
    have hcancel : ∀ a b c x y : B, x ^^^ (a ^^^ b ^^^ (a ^^^ c ^^^ x)) = c ^^^ b := by
      intro a b c x y
      apply BitVec.eq_of_getLsbD_eq
      intro i _
      simp only [BitVec.getLsbD_xor]
      cases a.getLsbD i <;> cases b.getLsbD i <;> cases c.getLsbD i <;> cases x.getLsbD i <;> rfl
    by_cases hjl : j < sz
    · by_cases hjp : j = p
      · subst hjp
        rw [if_pos (.inl rfl), hcancel _ _ _ _ 0]
        cases hb : index.testBit (l + 1) with
        | true => simp [show ¬ sz = 0 by omega]
        | false => simp
      · rw [if_neg (by omega)]
        have hne : ¬ j = p + (if index.testBit (l + 1) = true then sz else 0) := by split <;> omega
        rw [if_neg hne]
        simp only [cggmStep, hjl, if_true]
        rw [ih' j hjl, if_neg hjp]
        simp
    · have hnl : ¬ j < sz := hjl
      by_cases hjp : j = sz + p
      · subst hjp
        rw [if_pos (.inr rfl)]
        have hr : ∀ u : Nat → B, cggmStep h one sz u (sz + p) = u p ^^^ cggmStep h one sz u p := by
          intro u
          simp only [cggmStep, hnl, if_false, hplt, if_true, Nat.add_sub_cancel_left]
        rw [hr v, hr w, BitVec.xor_assoc, hcancel _ _ _ _ 0, hvp]
        cases hb : index.testBit (l + 1) with
        | true =>
          simp [show sz + p = p + sz by omega]
          ac_rfl
        | false =>
          have hsz : sz ≠ 0 := by omega
          simp [hsz]
          rw [BitVec.xor_assoc, BitVec.xor_comm d, BitVec.xor_assoc, BitVec.xor_self, BitVec.xor_zero]
      · rw [if_neg (by omega)]
        have hne : ¬ j = p + (if index.testBit (l + 1) = true then sz else 0) := by split <;> omega
        rw [if_neg hne]
        simp only [cggmStep, hnl, if_false]
        rw [ih' (j - sz) (by omega), if_neg (by omega)]
        simp

/-! ### C40 -/

/-- The receiver's vector equals the sender's except at `index`, where they differ by `delta`. -/
def SinglePoint (n index : Nat) (delta : B) (send recv : List B) : Prop :=
  send.length = n ∧ recv.length = n ∧
  ∀ (j : Nat) (x y : B), send[j]? = some x → recv[j]? = some y → y = if j = index then x ^^^ delta else x

theorem and_allOnes (x : B) : x &&& BitVec.allOnes 128 = x := BitVec.and_allOnes

theorem single_point_core (h : B → B) (one delta seed : B) (n index : Nat) (h1 : 2 ≤ n) (h2 : n ≤ 2 ^ 31) (hix : index < 2 ^ height n) (sib : Nat → B)
    (hs : ∀ i < height n, sib i = leftSum h one delta seed i ^^^ (if index.testBit i then 0 else delta &&& one)) :
    SinglePoint n index (delta &&& one) (leaves n (fullLevels h one delta seed (height n - 1)).1)
      (leaves n (puncLevels h one index sib (height n - 1)).1) := by
  obtain ⟨a, b, c⟩ := height_spec n h1 h2
  rw [leaves_eq n h1 h2, leaves_eq n h1 h2]
  refine ⟨by simp, by simp, ?_⟩
  intro j x y hx hy
  have hj : j < n := by
    rcases Nat.lt_or_ge j n with h' | h'
    · exact h'
    · rw [List.getElem?_eq_none (by simpa using h')] at hx
      simp at hx
  rw [List.getElem?_map, List.getElem?_range hj] at hx hy
  simp only [Option.map_some, Option.some.injEq] at hx hy
  have hh := half_tree h one delta seed index sib (height n - 1) (fun i hi => hs i (by omega)) j
    (by rw [show height n - 1 + 1 = height n by omega]; omega)
  rw [show height n - 1 + 1 = height n by omega, Nat.mod_eq_of_lt hix] at hh
  rw [hx, hy] at hh
  rw [hh]
  split
  · rfl
  · exact BitVec.xor_zero

theorem range_getD {f : Nat → B} {n i : Nat} (h : i < n) : ((List.range n).map f).getD i 0 = f i := by
  rw [List.getD_eq_getElem?_getD, List.getElem?_map, List.getElem?_range h]
  rfl

/-- C40. For every hash, seed, `n` and `index < n`, and every correlated base OT with any base choices: after GYWZ the two vectors agree everywhere
except at `index`, where they differ by delta. -/
theorem C40_gywz (h : B → B) (b : Base) (delta seed : B) (hcot : ∀ i, b.blk i true = b.blk i false ^^^ delta) (n index : Nat) (h1 : 2 ≤ n)
    (h2 : n ≤ 2 ^ 31) (hix : index < n) :
    ∃ msgs send recv, gywzSend h b delta seed n (gywzMask b index) = some (msgs, send) ∧ gywzRecv h b n index msgs = some recv ∧
      SinglePoint n index delta send recv := by
  obtain ⟨ha, hb, hc⟩ := height_spec n h1 h2
  refine ⟨_, _, _, by simp only [gywzSend]; rw [if_pos (by omega)], by simp only [gywzRecv]; rw [if_pos ⟨by omega, hix⟩], ?_⟩
  have hcore := single_point_core h (BitVec.allOnes 128) delta seed n index h1 h2 (by omega)
  rw [and_allOnes] at hcore
  apply hcore
  intro i hi
  rw [range_getD hi, full_sums_get _ _ _ _ _ _ (by omega)]
  unfold gywzMask
  cases hbit : index.testBit i <;> cases hci : b.c i <;> simp [hcot, BitVec.xor_assoc, xor_l1, xor_l2]

theorem choiceIndex_testBit (c : Nat → Bool) (m i : Nat) : (choiceIndex c m).testBit i = (decide (i < m) && c i) := by
  induction m with
  | zero => simp [choiceIndex]
  | succ m ih =>
    simp only [choiceIndex, Nat.testBit_or, ih, Nat.testBit_shiftLeft]
    by_cases h : i = m
    · subst h
      cases hc : c i <;> simp
    · by_cases h2 : i < m
      · simp [h2, show ¬ i ≥ m by omega, show i < m + 1 by omega]
      · have hd : i - m ≠ 0 := by omega
        have ht : (if c m = true then 1 else 0).testBit (i - m) = false := by
          cases c m
          · simp
          · simp only [if_true]
            exact Nat.testBit_eq_false_of_lt (Nat.one_lt_two_pow hd)
        simp [h2, ht, show ¬ i < m + 1 by omega]

theorem choiceIndex_lt (c : Nat → Bool) (m : Nat) : choiceIndex c m < 2 ^ m := by
  apply Nat.lt_pow_two_of_testBit
  intro i hi
  rw [choiceIndex_testBit]
  simp [show ¬ i < m by omega]

/-- C40, fixed-index variant: the punctured index is the one spelled by the base choices. (When it is not below `n` the vectors agree everywhere.) -/
theorem C40_gywz_fixed (h : B → B) (b : Base) (delta seed : B) (hcot : ∀ i, b.blk i true = b.blk i false ^^^ delta) (n : Nat) (h1 : 2 ≤ n)
    (h2 : n ≤ 2 ^ 31) :
    ∃ msgs send recv index, gywzFixedSend h b delta seed n = some (msgs, send) ∧ gywzFixedRecv h b n msgs = some recv ∧
      (∀ i < height n, index.testBit i = b.c i) ∧ index < 2 ^ height n ∧ SinglePoint n index delta send recv := by
  obtain ⟨ha, hb, hc⟩ := height_spec n h1 h2
  refine ⟨_, _, _, choiceIndex b.c (height n), by simp only [gywzFixedSend]; rw [if_pos (by omega)],
    by simp only [gywzFixedRecv]; rw [if_pos (by omega)], fun i hi => by rw [choiceIndex_testBit]; simp [hi], choiceIndex_lt _ _, ?_⟩
  have hcore := single_point_core h (BitVec.allOnes 128) delta seed n _ h1 h2 (choiceIndex_lt b.c (height n))
  rw [and_allOnes] at hcore
  apply hcore
  intro i hi
  rw [range_getD hi, full_sums_get _ _ _ _ _ _ (by omega), choiceIndex_testBit]
  cases hci : b.c i <;> simp [hi, hcot, BitVec.xor_assoc, xor_l1, xor_l2]

theorem maskOne_bit (i : Nat) (hi : i < 128) : maskOne.getLsbD i = decide (i ≠ 0) := by
  unfold maskOne
  rw [BitVec.getLsbD_xor, BitVec.getLsbD_allOnes]
  by_cases h : i = 0
  · subst h
    simp
  · have : (1 : B).getLsbD i = false := by
      show (1#128).getLsbD i = false
      rw [BitVec.getLsbD_one]
      simp [h]
    rw [this]
    simp [hi, h]

/-- C40, ferret variant. With a compact base COT (delta odd, choice bits in the lowest bit) the receiver's lowest bits mark exactly the punctured
index, the sender's lowest bits are zero, and at every position the vectors differ by delta times that bit. -/
theorem C40_gywz_ferret (h : B → B) (b : Base) (delta seed : B) (hcot : ∀ i, b.blk i true = b.blk i false ^^^ delta)
    (hodd : delta.getLsbD 0 = true) (n : Nat) (h1 : 2 ≤ n) (h2 : n ≤ 2 ^ 31) :
    ∃ msgs send recv index, ferretSend h b delta seed n = some (msgs, send) ∧ ferretRecv h b n msgs = some recv ∧
      (∀ i < height n, index.testBit i = b.c i) ∧ index < 2 ^ height n ∧ send.length = n ∧ recv.length = n ∧
      ∀ (j : Nat) (x y : B), send[j]? = some x → recv[j]? = some y →
        x.getLsbD 0 = false ∧ y.getLsbD 0 = decide (j = index) ∧ y = if y.getLsbD 0 then x ^^^ delta else x := by
  obtain ⟨ha, hb, hc⟩ := height_spec n h1 h2
  have hcore := single_point_core h maskOne (delta &&& maskOne) (seed &&& maskOne) n _ h1 h2 (choiceIndex_lt b.c (height n))
    (fun i => ((List.range (height n)).map fun i => (fullLevels h maskOne (delta &&& maskOne) (seed &&& maskOne) (height n - 1)).2.getD i 0 ^^^
      (b.blk i true &&& maskOne)).getD i 0 ^^^ (b.blk i (b.c i) &&& maskOne)) (by
      intro i hi
      rw [range_getD hi, full_sums_get _ _ _ _ _ _ (by omega), choiceIndex_testBit]
      rw [BitVec.and_assoc delta, BitVec.and_self]
      cases hci : b.c i with
      | true => simp [hi, BitVec.xor_assoc]
      | false =>
        simp only [hi, decide_true, Bool.true_and, Bool.false_eq_true, if_false, hcot, xor_and]
        rw [BitVec.xor_assoc]
        congr 1
        rw [BitVec.xor_comm (b.blk i false &&& maskOne), BitVec.xor_assoc, BitVec.xor_self, BitVec.xor_zero])
  rw [BitVec.and_assoc delta, BitVec.and_self] at hcore
  refine ⟨_, _, _, choiceIndex b.c (height n), by simp only [ferretSend]; rw [if_pos (by omega)],
    by simp only [ferretRecv]; rw [if_pos (by omega)], fun i hi => by rw [choiceIndex_testBit]; simp [hi], choiceIndex_lt _ _, ?_⟩
  have hsendmask : ∀ x ∈ leaves n (fullLevels h maskOne (delta &&& maskOne) (seed &&& maskOne) (height n - 1)).1, x.getLsbD 0 = false := by
    intro x hx
    rw [leaves_eq n h1 h2, List.mem_map] at hx
    obtain ⟨j, -, rfl⟩ := hx
    rw [← full_masked, BitVec.getLsbD_and, maskOne_bit 0 (by omega)]
    simp
  generalize hS : leaves n (fullLevels h maskOne (delta &&& maskOne) (seed &&& maskOne) (height n - 1)).1 = S at *
  generalize hR : leaves n (puncLevels h maskOne (choiceIndex b.c (height n)) _ (height n - 1)).1 = R at *
  generalize choiceIndex b.c (height n) = index at *
  obtain ⟨hSl, hRl, hSR⟩ := hcore
  have hdm : (delta &&& maskOne).getLsbD 0 = false := by
    rw [BitVec.getLsbD_and, maskOne_bit 0 (by omega)]
    simp
  have hfix : ∀ x : B, x.getLsbD 0 = false → (x ^^^ (delta &&& maskOne)) ||| ~~~maskOne = x ^^^ delta := by
    intro x hx
    apply BitVec.eq_of_getLsbD_eq
    intro i hi
    simp only [BitVec.getLsbD_or, BitVec.getLsbD_xor, BitVec.getLsbD_and, BitVec.getLsbD_not, maskOne_bit i hi]
    by_cases h0 : i = 0
    · subst h0
      rw [hx, hodd]
      rfl
    · simp [h0, hi]
  refine ⟨hSl, by split <;> simp [hRl], ?_⟩
  intro j x y hx hy
  have hx0 := hsendmask x (List.mem_of_getElem? hx)
  have hj : j < n := by
    rcases Nat.lt_or_ge j n with h' | h'
    · exact h'
    · rw [List.getElem?_eq_none (by omega)] at hx
      simp at hx
  refine ⟨hx0, ?_⟩
  by_cases hji : j = index
  · subst hji
    rw [if_pos hj, List.getElem?_set_self (by omega)] at hy
    have hRj : R[j]? = some (R[j]'(by omega)) := List.getElem?_eq_getElem (by omega)
    have hval := hSR j x _ hx hRj
    rw [if_pos rfl] at hval
    rw [List.getD_eq_getElem?_getD, hRj, Option.getD_some, hval, hfix x hx0, Option.some.injEq] at hy
    subst hy
    have hb0 : (x ^^^ delta).getLsbD 0 = true := by rw [BitVec.getLsbD_xor, hx0, hodd]; rfl
    rw [hb0]
    simp
  · have hy' : R[j]? = some y := by
      split at hy
      · rw [List.getElem?_set_ne (fun e => hji e.symm)] at hy
        exact hy
      · exact hy
    have hval := hSR j x y hx hy'
    rw [if_neg hji] at hval
    subst hval
    rw [hx0]
    simp [hji]

/-- Base OTs used in the examples. -/
def exBase (delta : B) : Base :=
  ⟨fun i v => BitVec.ofNat 128 (i + 3) ^^^ (if v then delta else 0), fun i => i % 2 == 1⟩

example : (∀ i, (exBase 7).blk i true = (exBase 7).blk i false ^^^ 7) ∧ (7 : B).getLsbD 0 = true ∧ 2 ≤ 5 ∧ 5 ≤ 2 ^ 31 ∧ 3 < 5 := by
  refine ⟨fun i => by simp [exBase], by decide, by omega, by omega, by omega⟩
example : (gywzRecv (fun x => x * x + 1) (exBase 7) 5 3
    ((gywzSend (fun x => x * x + 1) (exBase 7) 7 9 5 (gywzMask (exBase 7) 3)).getD ([], [])).1).map (·.length) = some 5 := by decide +kernel

end Yacl.Ggm
