import Verif.Kernel.Mpfss
import Verif.Kernel.LinearCode
import Verif.Kernel.OtExt

/-! Ferret OT extension with regular noise: yacl/kernel/algorithms/ferret_ote.{h,cc}, ferret_ote_rn.h. Property C99.

The tree hash, the permutation of the linear code and Blake3 are arbitrary functions. Both parties' functions only take their own state and the
messages of the other; `batch` connects them. Sizes are natural numbers: 64-bit wrap-around is excluded by the hypotheses of the theorems. -/
namespace Yacl.Ferret
open Yacl.Ggm (B Base height ferretSend ferretRecv)
open Yacl.Gf (gf128Mul gf128Pack universalHash extractHashCoef)

/-! ### Model -/

/-- ot_store.cc, slice_base.h: a compact store or slice of one: the shared buffer and the window in use. -/
structure St where
  buf : List B
  off : Nat
  len : Nat

/-- ot_store.cc L76-94, L235-254 `Slice` with slice_base.cc L24-37: positions are those of the shared buffer, not of the window. `none`: it throws. -/
def St.slice (s : St) (b e : Nat) : Option St := if b < e ∧ e ≤ s.buf.length then some ⟨s.buf, b, e - b⟩ else none

/-- ot_store.cc L104-107 `GetBlock(i)`, L305-314 `GetBlock(i, 0)`: positions of the window. -/
def St.get (s : St) (i : Nat) : Option B := if i < s.len then s.buf[s.off + i]? else none

/-- What a sender's slice gives: `GetBlock(i, m)`, ot_store.cc L305-314, with `delta`. -/
def sendBase (s : St) (delta : B) : Base := ⟨fun i m => s.buf.getD (s.off + i) 0 ^^^ (if m then delta else 0), fun _ => false⟩

/-- What a receiver's compact slice gives: block `i`, and its lowest bit as choice, ot_store.cc L104-107, L135-144. -/
def recvBase (s : St) : Base := ⟨fun i _ => s.buf.getD (s.off + i) 0, fun i => (s.buf.getD (s.off + i) 0).getLsbD 0⟩

/-- gywz_ote.cc L228-252: the size check, then the tree. -/
def treeSend (h : B → B) (s : St) (delta seed : B) (n : Nat) : Option (List B × List B) :=
  if s.len = height n then ferretSend h (sendBase s delta) delta seed n else none

/-- gywz_ote.cc L199-226. -/
def treeRecv (h : B → B) (s : St) (n : Nat) (msgs : List B) : Option (List B) :=
  if s.len = height n then ferretRecv h (recvBase s) n msgs else none

/-- ferret_ote_rn.h L34-42 `MpCotRNHelper`. -/
def mpNum (num range : Nat) (mal : Bool) : Nat :=
  let bs := (range + num - 1) / num
  let last := range - bs * (num - 1)
  height bs * (num - 1) + height last + (if mal then 128 else 0)

/-- ferret_ote_rn.h L48-57, L101-110: number of trees, and the size of tree `i`. -/
def treeNum (range s : Nat) : Nat := (range + s - 1) / s
def lastSize (range s : Nat) : Nat := range - (treeNum range s - 1) * s
def treeSize (range s i : Nat) : Nat := if i = treeNum range s - 1 then lastSize range s else s

/-- ferret_ote_rn.h L44-77 `MpCotRNSend`: the messages of the trees and the output. A last tree of size one is one COT and needs no message (the
empty list stands for it). The trees fill consecutive spans of the output, which is written as their concatenation. -/
def mpSend (h : B → B) (cot : St) (delta : B) (seeds : Nat → B) (range num s : Nat) : Option (List (List B) × List B) :=
  if s ≠ 0 ∧ treeNum range s ≤ num ∧ 1 ≤ treeNum range s then
    let bl := height s
    ((List.range (treeNum range s)).mapM fun i =>
      if i = treeNum range s - 1 ∧ lastSize range s = 1 then (cot.get (i * bl)).map fun x => ([], [x])
      else (cot.slice (i * bl) (i * bl + height (treeSize range s i))).bind fun c => treeSend h c delta (seeds i) (treeSize range s i)).map
      fun l => (l.map (·.1), (l.map (·.2)).flatten)
  else none

/-- ferret_ote_rn.h L97-130 `MpCotRNRecv`. -/
def mpRecv (h : B → B) (cot : St) (range num s : Nat) (msgs : List (List B)) : Option (List B) :=
  if s ≠ 0 ∧ treeNum range s ≤ num ∧ 1 ≤ treeNum range s then
    let bl := height s
    ((List.range (treeNum range s)).mapM fun i =>
      if i = treeNum range s - 1 ∧ lastSize range s = 1 then (cot.get (i * bl)).map fun x => [x]
      else (cot.slice (i * bl) (i * bl + height (treeSize range s i))).bind fun c => treeRecv h c (treeSize range s i) (msgs.getD i [])).map
      fun l => l.flatten
  else none

/-- ferret_ote_rn.h L81-83, L134-136: the COTs of the consistency check. -/
def checkCot (cot : St) (range s : Nat) : Option St :=
  let o := height s * (treeNum range s - 1) + height (lastSize range s)
  cot.slice o (o + 128)

/-- ferret_ote_rn.h L79-103: the sender's part of the check, given the masked choices. -/
def sendCheck (blake : B → BitVec 256) (cot : St) (delta : B) (range s : Nat) (seed : B) (out : List B) (choices : B) : Option (BitVec 256) :=
  (checkCot cot range s).bind fun c =>
    (gf128Pack ((List.range 128).map fun i => (sendBase c delta).blk i (choices.getLsbD i))).map fun diff =>
      blake (universalHash gf128Mul seed out ^^^ diff)

/-- ferret_ote_rn.h L146-152: the marked positions. -/
def marked (out : List B) : List (BitVec 64) :=
  ((List.range out.length).filter fun i => (out.getD i 0).getLsbD 0).map fun i => BitVec.ofNat 64 i

/-- ferret_ote_rn.h L132-165: the receiver's part: the masked choices and the hash it expects. -/
def recvCheck (blake : B → BitVec 256) (cot : St) (range s : Nat) (seed : B) (out : List B) : Option (B × BitVec 256) :=
  (checkCot cot range s).bind fun c =>
    (gf128Pack ((List.range 128).map fun i => (recvBase c).blk i true)).bind fun diff =>
      (extractHashCoef gf128Mul seed (marked out)).map fun coef =>
        (coef.foldl (· ^^^ ·) (OtExt.word (recvBase c).c), blake (universalHash gf128Mul seed out ^^^ diff))

/-- secparam.h L146-160. -/
structure Prm where
  n : Nat
  k : Nat
  t : Nat

/-- The functions both parties use: the tree hash, Blake3, the permutation of the linear code; and the sender's randomness: the seed of tree `j` of batch
`i`, the seed of the check of batch `i`. -/
structure Env where
  h : B → B
  blake : B → BitVec 256
  rp : B → B
  seeds : Nat → Nat → B
  useed : Nat → B

/-- ferret_ote.cc L69-72, L157-160. -/
def batchSize (p : Prm) (mal : Bool) : Nat := p.n - (p.k + mpNum p.t p.n mal)
def batchNum (p : Prm) (mal : Bool) (otNum : Nat) : Nat := (otNum + batchSize p mal - 1) / batchSize p mal

/-- ferret_ote.cc L100-101, L188-189: number of OTs of batch `i`. -/
def batchOts (p : Prm) (mal : Bool) (otNum i : Nat) : Nat := min p.n (otNum - i * batchSize p mal)

/-- ferret_ote.cc L98-117, L186-207: one batch of both parties: multi-point COT, its check, LPN encoding of the seeds `v`, `w` on top. -/
def batch (E : Env) (p : Prm) (mal : Bool) (delta : B) (otNum i : Nat) (cotS cotR : St) (v w : List B) : Option (List B × List B) :=
  let range := batchOts p mal otNum i
  let s := p.n / p.t
  (mpSend E.h cotS delta (E.seeds i) range p.t s).bind fun ms =>
    (mpRecv E.h cotR range p.t s ms.1).bind fun ro =>
      (if mal then (recvCheck E.blake cotR range s (E.useed i) ro).bind fun a =>
          (sendCheck E.blake cotS delta range s (E.useed i) ms.2 a.1).bind fun hv => if a.2 = hv then some () else none
        else some ()).bind fun _ =>
        (Code.encode 10 E.rp p.k v ms.2).bind fun so => (Code.encode 10 E.rp p.k w ro).map fun ro' => (so, ro')

/-- Writing a span into a buffer. -/
def splice (out : List B) (off : Nat) (x : List B) : List B := out.take off ++ x ++ out.drop (off + x.length)

/-- ferret_ote.cc L119-135, L209-222: the seeds and COTs of the next batch, cut from the end of this one. -/
def nextSeed (p : Prm) (mal : Bool) (x : List B) : List B := (x.drop (batchSize p mal)).take p.k
def nextCot (p : Prm) (mal : Bool) (x : List B) : St :=
  ⟨(x.drop (batchSize p mal + p.k)).take (mpNum p.t p.n mal), 0, mpNum p.t p.n mal⟩

/-- ferret_ote.cc L97-136, L185-223: the loop, from batch `i` on, with `fuel` batches left. -/
def loop (E : Env) (p : Prm) (mal : Bool) (delta : B) (otNum : Nat) : Nat → Nat → St → St → List B → List B → List B → List B → Option (List B × List B)
  | 0, _, _, _, _, _, outS, outR => some (outS, outR)
  | fuel + 1, i, cotS, cotR, v, w, outS, outR =>
    (batch E p mal delta otNum i cotS cotR v w).bind fun o =>
      let outS' := splice outS (i * batchSize p mal) o.1
      let outR' := splice outR (i * batchSize p mal) o.2
      if otNum - i * batchSize p mal > batchOts p mal otNum i then
        loop E p mal delta otNum fuel (i + 1) (nextCot p mal o.1) (nextCot p mal o.2) (nextSeed p mal o.1) (nextSeed p mal o.2) outS' outR'
      else some (outS', outR')

/-- ferret_ote.cc L79-81, L169-171 and, for the cheetah variant, L431-433, L513-515: the two slices of the base COTs, and the copy of the seeds. -/
def init (p : Prm) (mal cheetah : Bool) (base : List B) : Option (St × List B) :=
  let st : St := ⟨base, 0, base.length⟩
  let m := mpNum p.t p.n mal
  (st.slice (if cheetah then p.k else 0) ((if cheetah then p.k else 0) + m)).bind fun cot =>
    (st.slice (if cheetah then 0 else m) ((if cheetah then 0 else m) + p.k)).map fun seed => (cot, (base.drop seed.off).take seed.len)

/-- ferret_ote.cc L52-226 `FerretOtExtSend` and `FerretOtExtRecv` connected by a link; L228-408 are the same with a buffer of their own, L410-574 are the
cheetah variants. `bs`, `br`: the base COTs, `js`, `jr`: the previous contents of the outputs. The size check of the base forgets `mal`, as in the code. -/
def run (E : Env) (p : Prm) (mal cheetah : Bool) (delta : B) (bs br : List B) (otNum : Nat) (js jr : List B) : Option (List B × List B) :=
  let need := p.k + mpNum p.t p.n false
  if need ≤ bs.length ∧ need ≤ br.length ∧ (cheetah = true ∨ 2 * p.t ≤ otNum) ∧ js.length = otNum ∧ jr.length = otNum then
    (init p mal cheetah bs).bind fun s => (init p mal cheetah br).bind fun r =>
      loop E p mal delta otNum (batchNum p mal otNum) 0 s.1 r.1 s.2 r.2 js jr
  else none

/-! ### Specification -/

/-- A correlated OT in compact form: sender block and receiver block differ by `delta` exactly when the lowest bit of the receiver block, its choice, is one. -/
def Cot (delta : B) (S R : List B) : Prop :=
  S.length = R.length ∧ ∀ i < S.length, R.getD i 0 = S.getD i 0 ^^^ (if (R.getD i 0).getLsbD 0 then delta else 0)

/-- The noise of a batch, as given by the choice bits of the COTs it consumes: in tree `q` the position whose binary digits are the next choice bits
(none when that position lies beyond the tree); a last tree of size one is the choice of one COT. -/
def noise (R : St) (range s j : Nat) : Bool :=
  let q := j / s
  if q = treeNum range s - 1 ∧ lastSize range s = 1 then (R.buf.getD (R.off + q * height s) 0).getLsbD 0
  else decide (j % s = Ggm.choiceIndex (fun i => (R.buf.getD (q * height s + i) 0).getLsbD 0) (height (treeSize range s q)))

end Yacl.Ferret
