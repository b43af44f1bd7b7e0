/-
Model of the aggregated range proof.

/repo/yacl/crypto/experimental/zkp/bulletproofs/range_proof/range_proof.cc and the
polynomial helpers of util.cc.

As in `Model.lean` scalars are a field `F` and points a module `M`.  `none` is an
exception or an error result.  The values `CreateRandomScalar` returns are arguments.
The generators are two functions from party and index to points with two capacities.
-/
import Verif.Zkp.Bp.Model
import Mathlib.Data.Nat.Cast.Basic

namespace Yacl.Bp

variable {F M : Type} [Field F] [DecidableEq F] [AddCommGroup M] [Module F M] [DecidableEq M]

/-- `SimpleTranscript::RangeProofDomainSep` (simple_transcript.cc L33-37). -/
def rangeDomainSep (E : Env F M) (n m : Nat) (st : List Nat) : List Nat :=
  appendU64 E "m" m (appendU64 E "n" n (appendMessage E "dom-sep" (lbl "rangeproof v1") st))

/-- Loop of `ExpIterVector` (util.cc L160-165). -/
def expLoop (base : F) : Nat → F → List F
  | 0, _ => []
  | n + 1, cur => cur :: expLoop base n (cur * base)

/-- `ExpIterVector` (util.cc L150-168). -/
def expIter (base : F) (n : Nat) : List F := expLoop base n 1

/-- `SumOfPowers` (util.cc L170-192). -/
def sumOfPowers (base : F) (n : Nat) : Option F :=
  if n = 0 then some 0
  else if base = 1 then some (n : F)
  else do
    let inv ← invert (base - 1)
    some ((base ^ n - 1) * inv)

/-- `NextPowerOfTwo` (util.cc L235-259), below the overflow. -/
def nextPowerOfTwo (n : Nat) : Nat :=
  if n = 0 then 1 else if n &&& (n - 1) = 0 then n else 1 <<< (Nat.log2 n + 1)

/-- `AddVec` (util.cc L133-148). -/
def addVec (a b : List F) : Option (List F) :=
  if a.length = b.length then some (List.zipWith (· + ·) a b) else none

/-- `VecPoly1::InnerProduct` (util.cc L72-98): `t0`, `t1`, `t2`. -/
def polyInner (l0 l1 r0 r1 : List F) : Option (F × F × F) := do
  let t0 ← innerProduct l0 r0
  let t2 ← innerProduct l1 r1
  let ls ← addVec l0 l1
  let rs ← addVec r0 r1
  let s ← innerProduct ls rs
  some (t0, s - t0 - t2, t2)

/-- `Poly2::Eval` (util.cc L33-43). -/
def poly2Eval (t0 t1 t2 x : F) : F := t0 + t1 * x + t2 * (x * x)

/-- `VecPoly1::Eval` (util.cc L100-112). -/
def vecPolyEval (v0 v1 : List F) (x : F) : List F := List.zipWith (fun a b => a + b * x) v0 v1

/-- `PedersenGens::Commit` (generators.cc L37-40). -/
def pedersen (B Bb : M) (v b : F) : M := msmLoop [v, b] [B, Bb] 0

/-- `BulletproofGens` (generators.cc L78-205). -/
structure Gens (M : Type) where
  gensCapacity : Nat
  partyCapacity : Nat
  G : Nat → Nat → M
  H : Nat → Nat → M

/-- `BulletproofGensShare::G`/`H` (generators.cc L209-225). -/
def share (g : Nat → Nat → M) (j n : Nat) : List M := (List.range n).map (g j)

/-- `BulletproofGens::GetAllG`/`GetAllH` (generators.cc L157-203). -/
def getAll (g : Nat → Nat → M) (n m : Nat) : List M :=
  (List.range m).flatMap fun j => share g j n

/-- The random scalars of one party. -/
structure PartyRand (F : Type) where
  aBlinding : F
  sBlinding : F
  sL : Nat → F
  sR : Nat → F
  t1Blinding : F
  t2Blinding : F

/-- Bit `i` of `v` as a scalar (range_proof.cc L76, L140). -/
def bitF (v i : Nat) : F := ((v >>> i &&& 1 : Nat) : F)

/-- The point `A_j` (range_proof.cc L68-82). -/
def bitCommitA (Bb : M) (alpha : F) (v n : Nat) (G H : List M) : M :=
  (List.range n).foldl
    (fun A i => if v >>> i &&& 1 = 0 then A - H.getD i 0 else A + G.getD i 0) (alpha • Bb)

/-- The point `S_j` (range_proof.cc L84-103). -/
def bitCommitS (Bb : M) (rho : F) (sL sR : List F) (G H : List M) : Option M :=
  msm (rho :: (sL ++ sR)) (Bb :: (G ++ H))

/-- The vectors of `l(X)` and `r(X)` (range_proof.cc L124-158). -/
def lrVectors (n j v : Nat) (y z : F) (sL sR : Nat → F) : (List F × List F) × List F × List F :=
  let yjn := y ^ (j * n)
  let offsetZZ := z * z * z ^ j
  let yPows := expIter y n
  let twoPows := expIter (2 : F) n
  let l0 := (List.range n).map fun i => bitF v i - z
  let l1 := (List.range n).map sL
  let r0 := (List.range n).map fun i =>
    yPows.getD i 0 * (bitF v i - 1 + z) * yjn + offsetZZ * twoPows.getD i 0
  let r1 := (List.range n).map fun i => yPows.getD i 0 * sR i * yjn
  ((l0, l1), r0, r1)

/-- A `RangeProof` (range_proof.h). -/
structure RangeProof (F M : Type) where
  A : M
  S : M
  T1 : M
  T2 : M
  tx : F
  txBlinding : F
  eBlinding : F
  ipp : Ipp F M

/-- A `ProofShare` (range_proof_internal.h). -/
structure ProofShare (F : Type) where
  tx : F
  txBlinding : F
  eBlinding : F
  l : List F
  r : List F

/-- `PartyAwaitingBitChallenge::ApplyChallenge` (range_proof.cc L124-171): the coefficients
    of `t(X)` and the commitments to `t1`, `t2`. -/
def partyPoly (B Bb : M) (n j v : Nat) (y z : F) (r : PartyRand F) :
    Option ((F × F × F) × M × M) := do
  let p := lrVectors n j v y z r.sL r.sR
  let t ← polyInner p.1.1 p.1.2 p.2.1 p.2.2
  some (t, pedersen B Bb t.2.1 r.t1Blinding, pedersen B Bb t.2.2 r.t2Blinding)

/-- `PartyAwaitingPolyChallenge::ApplyChallenge` (range_proof.cc L188-208). -/
def partyShare (n j v : Nat) (blinding : F) (y z x : F) (r : PartyRand F) (t : F × F × F) :
    Option (ProofShare F) :=
  if x = 0 then none
  else
    let p := lrVectors n j v y z r.sL r.sR
    some { tx := poly2Eval t.1 t.2.1 t.2.2 x
           txBlinding := poly2Eval (z * z * z ^ j * blinding) r.t1Blinding r.t2Blinding x
           eBlinding := r.aBlinding + r.sBlinding * x
           l := vecPolyEval p.1.1 p.1.2 x
           r := vecPolyEval p.2.1 p.2.2 x }

/-- `RangeProof::ProveMultiple` (range_proof.cc L453-552) with `Party::New` (L28-45),
    `AssignPosition` (L57-109), `Dealer::New` (L211-233), `ReceiveBitCommitments`
    (L243-275), `ReceivePolyCommitments` (L293-322) and `AssembleShares` (L345-391). -/
def proveMultiple (E : Env F M) (B Bb : M) (gens : Gens M) (values : List Nat)
    (blindings : List F) (rand : Nat → PartyRand F) (n : Nat) (st : List Nat) :
    Option ((RangeProof F M × List M) × List Nat) :=
  if values.length ≠ blindings.length then none
  else
    let m := values.length
    if ¬ (n = 8 ∨ n = 16 ∨ n = 32 ∨ n = 64) then none
    else if m = 0 ∨ m ≠ nextPowerOfTwo m then none
    else if gens.gensCapacity < n ∨ gens.partyCapacity < m then none
    else do
      let st := rangeDomainSep E n m st
      let Vs := (List.range m).map fun j =>
        pedersen B Bb ((values.getD j 0 : Nat) : F) (blindings.getD j 0)
      let As := (List.range m).map fun j =>
        bitCommitA Bb (rand j).aBlinding (values.getD j 0) n (share gens.G j n) (share gens.H j n)
      let Ss ← (List.range m).mapM fun j =>
        bitCommitS Bb (rand j).sBlinding ((List.range n).map (rand j).sL)
          ((List.range n).map (rand j).sR) (share gens.G j n) (share gens.H j n)
      let st := Vs.foldl (fun st V => appendPoint E "V" V st) st
      let A := As.foldl (· + ·) 0
      let S := Ss.foldl (· + ·) 0
      let st := appendPoint E "S" S (appendPoint E "A" A st)
      let cy := challengeScalar E "y" st
      let cz := challengeScalar E "z" cy.2
      let y := cy.1
      let z := cz.1
      let polys ← (List.range m).mapM fun j => partyPoly B Bb n j (values.getD j 0) y z (rand j)
      let T1 := (polys.map fun p => p.2.1).foldl (· + ·) 0
      let T2 := (polys.map fun p => p.2.2).foldl (· + ·) 0
      let st := appendPoint E "T_2" T2 (appendPoint E "T_1" T1 cz.2)
      let cx := challengeScalar E "x" st
      let x := cx.1
      let shares ← (List.range m).mapM fun j =>
        partyShare n j (values.getD j 0) (blindings.getD j 0) y z x (rand j) (polys.getD j (0, 0, 0)).1
      let tx := (shares.map fun s => s.tx).foldl (· + ·) 0
      let txBlinding := (shares.map fun s => s.txBlinding).foldl (· + ·) 0
      let eBlinding := (shares.map fun s => s.eBlinding).foldl (· + ·) 0
      let st := appendScalar E "e_blinding" eBlinding
        (appendScalar E "t_x_blinding" txBlinding (appendScalar E "t_x" tx cx.2))
      let cw := challengeScalar E "w" st
      let Q := cw.1 • B
      let yInv ← invert y
      let Hf := expIter yInv (n * m)
      let l := shares.flatMap fun s => s.l
      let r := shares.flatMap fun s => s.r
      let ipp ← create E Q (List.replicate (n * m) 1) Hf (getAll gens.G n m) (getAll gens.H n m) l r cw.2
      some (({ A, S, T1, T2, tx, txBlinding, eBlinding, ipp := ipp.1 }, Vs), ipp.2)

/-- `RangeProof::Delta` (range_proof.cc L408-425). -/
def delta (n m : Nat) (y z : F) : Option F := do
  let sumY ← sumOfPowers y (n * m)
  let sum2 ← sumOfPowers (2 : F) n
  let sumZ ← sumOfPowers z m
  some ((z - z * z) * sumY - z * (z * z) * sum2 * sumZ)

/-- `RangeProof::VerifyMultiple` (range_proof.cc L554-684). -/
def verifyMultiple (E : Env F M) (B Bb : M) (gens : Gens M) (pf : RangeProof F M) (Vs : List M)
    (n : Nat) (st : List Nat) : Option Bool :=
  let m := Vs.length
  if ¬ (n = 8 ∨ n = 16 ∨ n = 32 ∨ n = 64) then some false
  else if gens.gensCapacity < n then some false
  else if gens.partyCapacity < m then some false
  else do
    let st := rangeDomainSep E n m st
    let st := Vs.foldl (fun st V => appendPoint E "V" V st) st
    let st ← validateAndAppendPoint E "A" pf.A st
    let st ← validateAndAppendPoint E "S" pf.S st
    let cy := challengeScalar E "y" st
    let cz := challengeScalar E "z" cy.2
    let y := cy.1
    let z := cz.1
    let st ← validateAndAppendPoint E "T_1" pf.T1 cz.2
    let st ← validateAndAppendPoint E "T_2" pf.T2 st
    let cx := challengeScalar E "x" st
    let x := cx.1
    let st := appendScalar E "e_blinding" pf.eBlinding
      (appendScalar E "t_x_blinding" pf.txBlinding (appendScalar E "t_x" pf.tx cx.2))
    let cw := challengeScalar E "w" st
    let w := cw.1
    let v ← verificationScalars E pf.ipp (n * m) cw.2
    let s := v.1.2.2
    let a := pf.ipp.a
    let b := pf.ipp.b
    let powersOf2 := expIter (2 : F) n
    let powersOfZ := expIter z m
    let concat := powersOfZ.flatMap fun ez => powersOf2.map fun e2 => ez * e2
    let yInv ← invert y
    let yInvPows := expIter yInv (n * m)
    let zz := z * z
    let gScalars := s.map fun si => (0 - z) - a * si
    let hScalars := (List.range (n * m)).map fun i =>
      z + yInvPows.getD i 0 * (zz * concat.getD i 0 - b * s.reverse.getD i 0)
    let vcScalars := powersOfZ.map fun pz => w * zz * pz
    let d ← delta n m y z
    let basepoint := w * (pf.tx - a * b) + w * (d - pf.tx)
    let mega ← msm
      ([1, x, w * x, w * (x * x)] ++ v.1.1 ++ v.1.2.1
        ++ [0 - (pf.eBlinding + w * pf.txBlinding), basepoint] ++ gScalars ++ hScalars ++ vcScalars)
      ([pf.A, pf.S, pf.T1, pf.T2] ++ pf.ipp.L ++ pf.ipp.R
        ++ [Bb, B] ++ getAll gens.G n m ++ getAll gens.H n m ++ Vs)
    some (decide (mega = 0))

end Yacl.Bp
