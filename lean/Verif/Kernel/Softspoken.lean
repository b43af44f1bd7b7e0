import Verif.Kernel.Sgrr
import Verif.Kernel.OtExt

/-! SoftSpoken OT extension: yacl/kernel/algorithms/softspoken_ote.{h,cc}. Property C98.

The permutations, the correlation-robust hash and the digests are arbitrary functions. Buffers are functions from positions; the persistent
`xor_buff` is threaded through all batches of a call, as in the code. The byte layout of the setup message is not modelled: the messages of the
individual trees are elements of a list. -/
namespace Yacl.Softspoken
open Yacl.Ggm (B Base xsum)
open Yacl.OtExt (word choiceWord extendChoice Junk OtCorrect Correlated)
open Yacl.Matrix (Mat matrixTranspose128)

/-! ### Model -/

/-- softspoken_ote.cc L189, L220: number of trees. -/
def pprfNum (k : Nat) : Nat := (128 + k - 1) / k
/-- softspoken_ote.cc L277, L346: depth of tree `i`. -/
def kLimit (k i : Nat) : Nat := min k (128 - i * k)
/-- softspoken_ote.cc L191-193, L222-224. -/
def totalSize (k : Nat) : Nat := pprfNum k * 2 ^ k - (2 ^ k - 2 ^ (128 - (pprfNum k - 1) * k))
/-- softspoken_ote.cc L200: size of the compressed leaves. -/
def hashSize (k : Nat) : Nat := totalSize k - pprfNum k
/-- softspoken_ote.cc L205, L228: default super batch. -/
def stepOf (k step : Nat) : Nat := if step = 0 then (if k ≤ 2 then 64 else if k ≤ 4 then 32 else 16) else step

/-- A flat buffer holding list `i` at positions `i * w ...`. -/
def flat (w : Nat) (l : List (List B)) (pos : Nat) : B := (l.getD (pos / w) []).getD (pos % w) 0

/-- softspoken_ote.cc L262-265, L334-337: in compact mode base OT 0 is replaced: both blocks zero, choice one. -/
def compactBase (compact : Bool) (b : Base) : Base :=
  if compact then ⟨fun i m => if i = 0 then 0 else b.blk i m, fun i => if i = 0 then true else b.c i⟩ else b

/-- softspoken_ote.cc L280, L349 `NextSlice`: the base OTs of tree `i`. -/
def sub (b : Base) (k i : Nat) : Base := ⟨fun j m => b.blk (i * k + j) m, fun j => b.c (i * k + j)⟩

abbrev TreeMsg := List (B × B) × (BitVec 256 × BitVec 256)

/-- The public functions: two permutations (rp.h), the correlation-robust hash (crhash.h), the two digests of the SGRR check. -/
structure Fns where
  p0 : B → B
  p1 : B → B
  crh : B → B
  hb : B → BitVec 256
  hs : List (BitVec 256) → BitVec 256

/-- softspoken_ote.cc L326-362 `SoftspokenOtExtReceiver::OneTimeSetup`: the message and the leaves of all trees. -/
def setupRecv (f : Fns) (base : Base) (seeds : Nat → B) (k : Nat) (mal compact : Bool) : Option (List TreeMsg × List (List B)) :=
  let b := compactBase compact base
  ((List.range (pprfNum k)).mapM fun i => Ggm.sgrrFixedSend f.p0 f.p1 f.crh f.hb f.hs (sub b k i) (seeds i) (2 ^ kLimit k i) mal).map fun l =>
    (l.map fun r => (r.1, r.2.1), l.map fun r => r.2.2)

/-- softspoken_ote.cc L252-313 `SoftspokenOtExtSender::OneTimeSetup`: per tree the punctured index and the compressed leaves (leaf 0 moved to
the punctured position, then position 0 dropped). -/
def setupSend (f : Fns) (base : Base) (k : Nat) (mal compact : Bool) (msgs : List TreeMsg) : Option (List (Nat × List B)) :=
  let b := compactBase compact base
  (List.range (pprfNum k)).mapM fun i =>
    let a := Ggm.choiceIndex (sub b k i).c (kLimit k i)
    let m := msgs.getD i ([], (0, 0))
    (Ggm.sgrrFixedRecv f.p0 f.p1 f.crh f.hb f.hs (sub b k i) (2 ^ kLimit k i) mal m.1 m.2).map fun l => (a, (l.set a (l.getD 0 0)).drop 1)

/-- softspoken_ote.cc L267: the correlation, the word of base choices. -/
def deltaOf (base : Base) (compact : Bool) : B := word (compactBase compact base).c

/-- softspoken_ote.cc L294-299: `p_idx_mask_`. -/
def maskAt (k : Nat) (idx : List Nat) (pos : Nat) : B := if (idx.getD (pos / k) 0).testBit (pos % k) then BitVec.allOnes 128 else 0

/-- softspoken_ote.cc L105-121, L123-136 `XorReduce`: one block at one depth. -/
def xrBlock (depth stride i : Nat) (a : Nat → B) : Nat → B :=
  let a1 := (List.range depth).foldl (fun (a : Nat → B) j => Function.update a (i + j) (a (i + j) ^^^ a (i + j + stride))) a
  Function.update a1 (i + depth) (a1 (i + stride))

/-- softspoken_ote.cc L105-121, L123-136: all blocks at one depth. -/
def xrDepth (size depth : Nat) (a : Nat → B) : Nat → B :=
  let stride := 2 ^ (depth - 1)
  (List.range ((size + 2 * stride - 1) / (2 * stride))).foldl (fun a b => xrBlock depth stride (b * (2 * stride)) a) a

/-- softspoken_ote.cc L138-160 `XorReduceImpl`. The recursive templates and the loop perform the same depths in the same order. -/
def xorReduce (k size : Nat) (a : Nat → B) : Nat → B := (List.range k).foldl (fun a d => xrDepth size (d + 1) a) a

/-- softspoken_ote.cc L525-545: the hashed leaves go to their real positions, zero to the punctured one. The copy loop writes distinct positions,
it is written as one function. -/
def scatter (k : Nat) (idx : List Nat) (hash xb : Nat → B) : Nat → B := fun pos =>
  let i := pos / 2 ^ k
  let x := pos % 2 ^ k
  let limit := min (2 ^ k - 1) (hashSize k - i * (2 ^ k - 1))
  let y := fun x => if x = 0 then 0 else if x - 1 < limit then hash (i * (2 ^ k - 1) + (x - 1)) else xb (i * 2 ^ k + x)
  if i < pprfNum k then
    if x = 0 then y (idx.getD i 0) else if x = idx.getD i 0 then y 0 else y x
  else xb pos

/-- softspoken_ote.cc L512-571 `SoftspokenOtExtSender::GenSfVole`: the buffer and `V`. -/
def genSend (crh : B → B) (k : Nat) (compact : Bool) (st : List (Nat × List B)) (ctr : B) (xb : Nat → B) (u : List B) : (Nat → B) × Mat :=
  let idx := st.map (·.1)
  let hash := fun pos => crh (flat (2 ^ k - 1) (st.map (·.2)) pos ^^^ ctr)
  let xb2 := xorReduce k (pprfNum k * 2 ^ k) (scatter k idx hash xb)
  let u' := fun i => u.getD i 0 ^^^ xb2 (i * 2 ^ k)
  let V : Mat := fun pos => xb2 (pos / k * 2 ^ k + 1 + pos % k) ^^^ (u' (pos / k) &&& maskAt k idx pos)
  (xb2, if compact then fun pos => if pos = 0 then 0 else V pos else V)

/-- softspoken_ote.cc L576-613 `SoftspokenOtExtReceiver::GenSfVole`: the buffer, `u` and `W`. -/
def genRecv (crh : B → B) (k : Nat) (compact : Bool) (leaves : List (List B)) (ctr : B) (xb : Nat → B) (choice : B) : (Nat → B) × List B × Mat :=
  let xb1 := fun pos => if pos < totalSize k then crh (flat (2 ^ k) leaves pos ^^^ ctr) else xb pos
  let xb2 := xorReduce k (pprfNum k * 2 ^ k) xb1
  let u := (List.range (pprfNum k)).map fun i => choice ^^^ xb2 (i * 2 ^ k)
  let W : Mat := fun pos => xb2 (pos / k * 2 ^ k + 1 + pos % k)
  (xb2, u, if compact then fun pos => if pos = 0 then choice else W pos else W)

/-- All batches of the receiver, in order; the counter grows by one per batch. -/
def recvRun (crh : B → B) (k : Nat) (compact : Bool) (leaves : List (List B)) : B → (Nat → B) → List B → List (List B × Mat)
  | _, _, [] => []
  | ctr, xb, c :: cs =>
    let r := genRecv crh k compact leaves ctr xb c
    (r.2.1, r.2.2) :: recvRun crh k compact leaves (ctr + 1) r.1 cs

/-- All batches of the sender, in order. -/
def sendRun (crh : B → B) (k : Nat) (compact : Bool) (st : List (Nat × List B)) : B → (Nat → B) → List (List B) → List Mat
  | _, _, [] => []
  | ctr, xb, u :: us =>
    let r := genSend crh k compact st ctr xb u
    r.2 :: sendRun crh k compact st (ctr + 1) r.1 us

/-- softspoken_ote.cc L628-633: batch arithmetic. -/
def expandNum (n : Nat) : Nat := (n + 64 + 128 - 1) / 128 * 128
def superNum (n step : Nat) : Nat := n / (step * 128)
def batchOff (n step : Nat) : Nat := superNum n step * (step * 128)
def batchNum (n step : Nat) : Nat := (expandNum n - batchOff n step + 128 - 1) / 128
def allBatch (n step : Nat) : Nat := superNum n step * step + batchNum n step

/-- softspoken_ote.cc L905-945: one message per super batch, then one per batch. -/
def pack (step : Nat) : Nat → List (List B) → List (List B)
  | 0, us => us
  | t + 1, us => (us.take step).flatten :: pack step t (us.drop step)

/-- softspoken_ote.cc L653-663: subspan `s` of a super batch. -/
def spans (w : Nat) : Nat → List B → List (List B)
  | 0, _ => []
  | s + 1, l => l.take w :: spans w s (l.drop w)

/-- softspoken_ote.cc L651-696: the sender's receives, with the size checks; `m` single batches after `t` super batches. -/
def unpack (step w : Nat) : Nat → Nat → List (List B) → Option (List (List B))
  | 0, 0, _ => some []
  | 0, m + 1, u :: ms => if u.length = w then (unpack step w 0 m ms).map (u :: ·) else none
  | t + 1, m, u :: ms => if u.length = step * w then (unpack step w t m ms).map (spans w step u ++ ·) else none
  | _, _, [] => none

/-- softspoken_ote.cc L674-678, L703-718: the output loops of the super batches and of the batches. -/
def outputs {α : Type} (n step : Nat) (g : Nat → Nat → α) : List α :=
  ((List.range (superNum n step)).flatMap fun t => (List.range step).flatMap fun s => (List.range 128).map (g (t * step + s))) ++
  (List.range (batchNum n step)).flatMap fun t =>
    if n > batchOff n step + t * 128 then (List.range (min 128 (n - batchOff n step - t * 128))).map (g (superNum n step * step + t)) else []

/-- softspoken_ote.cc L728-741, L960-985: the combination of row values `f 0, f 1, ...` with the challenge words. -/
def checkVal (chi : List (BitVec 64)) (f : Nat → B) (n : Nat) : BitVec 64 :=
  Gf.gf64Reduce ((List.range n).foldl (fun t i =>
    t ^^^ Gf.gf64ClMulSpan [chi.getD (2 * i) 0, chi.getD (2 * i + 1) 0] [Gf.lo (f i), Gf.hi (f i)] 0) 0)

/-- softspoken_ote.cc L874-987 and L989-1095 `SoftspokenOtExtReceiver::Recv`: the messages, the answer to a challenge, the blocks and the new counter.
The store variant is the one with `cot = true`. -/
def recv (crh : B → B) (k step : Nat) (compact cot sse2 : Bool) (junk : Junk) (leaves : List (List B)) (ctr : B) (choices rnd : List Bool) :
    Option (List (List B) × (List (BitVec 64) → BitVec 64 × (Nat → BitVec 64)) × List B × B) :=
  let n := choices.length
  let st := stepOf k step
  if allBatch n st * 128 = expandNum n then
    let ext := extendChoice choices rnd
    let run := recvRun crh k compact leaves ctr (fun _ => 0) ((List.range (allBatch n st)).map (choiceWord ext))
    let W := fun i => (run.getD i ([], fun _ => 0)).2
    some (pack st (superNum n st) (run.map (·.1)),
      fun chi => (Gf.gf64Reduce (Gf.gf64ClMulSpan chi (OtExt.words64 (choiceWord ext) (allBatch n st)) 0),
        fun r => checkVal chi (fun i => W i r) (allBatch n st)),
      outputs n st fun i j => if cot then matrixTranspose128 sse2 junk (W i) j else crh (matrixTranspose128 sse2 junk (W i) j),
      ctr + BitVec.ofNat 128 (allBatch n st))
  else none

/-- softspoken_ote.cc L616-749 and L751-872 `SoftspokenOtExtSender::Send`: the block pairs and the new counter; `none` when a size check or the
consistency check fails. -/
def send (crh : B → B) (k step : Nat) (mal compact cot sse2 : Bool) (junk : Junk) (st : List (Nat × List B)) (delta ctr : B) (n : Nat)
    (msgs : List (List B)) (chi : List (BitVec 64)) (ans : BitVec 64 × (Nat → BitVec 64)) : Option (List (B × B) × B) :=
  let sp := stepOf k step
  if allBatch n sp * 128 = expandNum n then
    (unpack sp (pprfNum k) (superNum n sp) (batchNum n sp) msgs).bind fun us =>
      let run := sendRun crh k compact st ctr (fun _ => 0) us
      let V := fun i => run.getD i fun _ => 0
      if !mal || (List.range 128).all (fun r => decide ((ans.2 r).setWidth 128 ^^^ (maskAt k (st.map (·.1)) r &&& ans.1.setWidth 128) =
          (checkVal chi (fun i => V i r) (allBatch n sp)).setWidth 128)) then
        some (outputs n sp fun i j =>
          let v := matrixTranspose128 sse2 junk (V i) j
          if cot then (v, v ^^^ delta) else (crh v, crh (v ^^^ delta)),
          ctr + BitVec.ofNat 128 (allBatch n sp))
      else none
  else none

end Yacl.Softspoken
