/-
Model of the Bulletproofs inner product argument and what it shares with the range
proof and the R1CS proof: transcript, scalar vectors, multi-scalar multiplication.

/repo/yacl/crypto/experimental/zkp/bulletproofs/{simple_transcript.cc,util.cc,
ipa/inner_product_proof.cc}.

Scalars (`MPInt` modulo the group order) are a field `F`, curve points an `F`-module
`M`; `MulMod`, `AddMod`, `SubMod`, `InvertMod` are the field operations, `Mul`, `Add`,
`IsInfinity`, `PointEqual` the module operations.  The hash functions, the point and
scalar encodings and the reduction of 64 bytes to a scalar are arbitrary functions.
`none` is an exception.
-/
import Mathlib.Algebra.Module.Basic
import Mathlib.Algebra.Field.Basic
import Mathlib.Algebra.BigOperators.Group.List.Basic

namespace Yacl.Bp

/-- The functions the protocol takes from elsewhere: SHA-256, SHAKE-256, the encodings of
    points and scalars and the reduction of challenge bytes modulo the order. -/
structure Env (F M : Type) where
  sha : List Nat → List Nat
  shake : List Nat → Nat → List Nat
  serPoint : M → List Nat
  serScalar : F → List Nat
  reduce : List Nat → F

/-- Bytes of a label. -/
def lbl (s : String) : List Nat := s.toList.map Char.toNat

variable {F M : Type} [Field F] [DecidableEq F] [AddCommGroup M] [Module F M] [DecidableEq M]

/-- `SimpleTranscript::UpdateState` (simple_transcript.cc L164-175). -/
def updateState (E : Env F M) (data st : List Nat) : List Nat := E.sha (st ++ data)

/-- `SimpleTranscript::AppendMessage` (simple_transcript.cc L94-110). -/
def appendMessage (E : Env F M) (label : String) (msg st : List Nat) : List Nat :=
  updateState E (((lbl label).length % 256) :: lbl label ++ msg) st

/-- `SimpleTranscript::AppendU64` (simple_transcript.cc L112-129). -/
def appendU64 (E : Env F M) (label : String) (v : Nat) (st : List Nat) : List Nat :=
  appendMessage E label ((List.range 8).map fun i => v >>> (8 * i) &&& 0xFF) st

/-- `SimpleTranscript::AppendPoint` (simple_transcript.cc L55-66). -/
def appendPoint (E : Env F M) (label : String) (p : M) (st : List Nat) : List Nat :=
  appendMessage E label (E.serPoint p) st

/-- `SimpleTranscript::AppendScalar` (simple_transcript.cc L44-53). -/
def appendScalar (E : Env F M) (label : String) (x : F) (st : List Nat) : List Nat :=
  appendMessage E label (E.serScalar x) st

/-- `SimpleTranscript::ValidateAndAppendPoint` (simple_transcript.cc L68-79). -/
def validateAndAppendPoint (E : Env F M) (label : String) (p : M) (st : List Nat) :
    Option (List Nat) :=
  if p = 0 then none else some (appendPoint E label p st)

/-- `SimpleTranscript::ChallengeBytes`, `ChallengeScalar` (simple_transcript.cc L81-92,
    L131-162). -/
def challengeScalar (E : Env F M) (label : String) (st : List Nat) : F × List Nat :=
  let st := updateState E
    (lbl "challenge" ++ ((lbl label).length % 256) :: lbl label ++ [64 % 256]) st
  (E.reduce (E.shake st 64), st)

/-- `SimpleTranscript::InnerproductDomainSep` (simple_transcript.cc L39-42). -/
def innerproductDomainSep (E : Env F M) (n : Nat) (st : List Nat) : List Nat :=
  appendU64 E "n" n (appendMessage E "dom-sep" (lbl "ipp v1") st)

/-- Loop of `MultiScalarMul` (util.cc L215-226): zero scalars are skipped. -/
def msmLoop : List F → List M → M → M
  | s :: ss, p :: ps, acc => msmLoop ss ps (if s = 0 then acc else acc + s • p)
  | _, _, acc => acc

/-- `MultiScalarMul` (util.cc L202-227). -/
def msm (scalars : List F) (points : List M) : Option M :=
  if scalars.length = points.length then some (msmLoop scalars points 0) else none

/-- Loop of `InnerProduct` (util.cc L125-129). -/
def innerLoop : List F → List F → F → F
  | a :: as, b :: bs, acc => innerLoop as bs (acc + a * b)
  | _, _, acc => acc

/-- `InnerProduct` (util.cc L111-131). -/
def innerProduct (a b : List F) : Option F :=
  if a.length = b.length then some (innerLoop a b 0) else none

/-- An `InnerProductProof` (inner_product_proof.h). -/
structure Ipp (F M : Type) where
  L : List M
  R : List M
  a : F
  b : F
deriving DecidableEq, Repr

/-- `InvertMod`: fails for zero. -/
def invert (x : F) : Option F := if x = 0 then none else some x⁻¹

/-- The scalars and points of `L` and of `R` in one round (inner_product_proof.cc
    L70-137): with the factors in the first round, without them later. -/
def roundLR (first : Bool) (h : Nat) (Gf Hf : List F) (Q : M) (G H : List M) (a b : List F) :
    Option (M × M) := do
  let aL := a.take h
  let aR := a.drop h
  let bL := b.take h
  let bR := b.drop h
  let cL ← innerProduct aL bR
  let cR ← innerProduct aR bL
  if first then
    let L ← msm (List.zipWith (· * ·) aL (Gf.drop h) ++ List.zipWith (· * ·) bR (Hf.take h) ++ [cL])
      (G.drop h ++ H.take h ++ [Q])
    let R ← msm (List.zipWith (· * ·) aR (Gf.take h) ++ List.zipWith (· * ·) bL (Hf.drop h) ++ [cR])
      (G.take h ++ H.drop h ++ [Q])
    some (L, R)
  else
    let L ← msm (aL ++ bR ++ [cL]) (G.drop h ++ H.take h ++ [Q])
    let R ← msm (aR ++ bL ++ [cR]) (G.take h ++ H.drop h ++ [Q])
    some (L, R)

/-- `x * l + y * r`, entry by entry (inner_product_proof.cc L152-155). -/
def foldScalars (x y : F) (v : List F) (h : Nat) : List F :=
  List.zipWith (fun l r => l * x + r * y) (v.take h) (v.drop h)

/-- The two-term `MultiScalarMul` of the generator update (inner_product_proof.cc
    L166-178). -/
def two (x y : F) (l r : M) : M := msmLoop [x, y] [l, r] 0

/-- Generator update of the first round (inner_product_proof.cc L157-173). -/
def foldPointsFirst (x y : F) (f : List F) (v : List M) (h : Nat) : List M :=
  List.zipWith (fun lr f => two (x * f.1) (y * f.2) lr.1 lr.2)
    ((v.take h).zip (v.drop h)) ((f.take h).zip (f.drop h))

/-- Generator update of a later round (inner_product_proof.cc L174-177). -/
def foldPoints (x y : F) (v : List M) (h : Nat) : List M :=
  List.zipWith (fun l r => two x y l r) (v.take h) (v.drop h)

/-- The `while (n > 1)` loop of `InnerProductProof::Create` (inner_product_proof.cc
    L60-189). -/
def createLoop (E : Env F M) (orig : Nat) (Gf Hf : List F) (Q : M) (n : Nat) (G H : List M)
    (a b : List F) (st : List Nat) : Option (Ipp F M × List Nat) :=
  if _h : 1 < n then do
    let h := n / 2
    let lr ← roundLR (n == orig) h Gf Hf Q G H a b
    let st := appendPoint E "R" lr.2 (appendPoint E "L" lr.1 st)
    let c := challengeScalar E "u" st
    let u := c.1
    let uInv ← invert u
    let a := foldScalars u uInv a h
    let b := foldScalars uInv u b h
    let G := if n == orig then foldPointsFirst uInv u Gf G h else foldPoints uInv u G h
    let H := if n == orig then foldPointsFirst u uInv Hf H h else foldPoints u uInv H h
    let rest ← createLoop E orig Gf Hf Q (n / 2) G H a b c.2
    some ({ L := lr.1 :: rest.1.L, R := lr.2 :: rest.1.R, a := rest.1.a, b := rest.1.b }, rest.2)
  else some ({ L := [], R := [], a := a.getD 0 0, b := b.getD 0 0 }, st)
termination_by n
decreasing_by omega

/-- `InnerProductProof::Create` (inner_product_proof.cc L28-194). -/
def create (E : Env F M) (Q : M) (Gf Hf : List F) (G H : List M) (a b : List F)
    (st : List Nat) : Option (Ipp F M × List Nat) :=
  let n := G.length
  if ¬ (0 < n ∧ n &&& (n - 1) = 0) then none
  else if ¬ (H.length = n ∧ a.length = n ∧ b.length = n ∧ Gf.length = n ∧ Hf.length = n) then none
  else createLoop E n Gf Hf Q n G H a b (innerproductDomainSep E n st)

/-- Recomputation of the challenges (inner_product_proof.cc L214-219). -/
def replay (E : Env F M) : List M → List M → List Nat → Option (List F × List Nat)
  | L :: Ls, R :: Rs, st => do
      let st ← validateAndAppendPoint E "L" L st
      let st ← validateAndAppendPoint E "R" R st
      let c := challengeScalar E "u" st
      let rest ← replay E Ls Rs c.2
      some (c.1 :: rest.1, rest.2)
  | _, _, st => some ([], st)

/-- Inverses of the challenges (inner_product_proof.cc L226-230). -/
def inverses : List F → Option (List F)
  | [] => some []
  | u :: us => do
      let x ← invert u
      let xs ← inverses us
      some (x :: xs)

/-- One step of the `s` vector (inner_product_proof.cc L242-249); `FloorLog2` (util.h
    L203-229) is `Nat.log2`. -/
def sStep (uSq : List F) (lg : Nat) (s : List F) (i : Nat) : List F :=
  s ++ [s.getD (i - 2 ^ Nat.log2 i) 0 * uSq.getD (lg - 1 - Nat.log2 i) 0]

/-- The `s` vector (inner_product_proof.cc L236-249). -/
def sVec (n : Nat) (uSq uInv : List F) : List F :=
  (List.range' 1 (n - 1)).foldl (sStep uSq uSq.length) [uInv.foldl (· * ·) 1]

/-- `InnerProductProof::VerificationScalars` (inner_product_proof.cc L196-252). -/
def verificationScalars (E : Env F M) (pf : Ipp F M) (n : Nat) (st : List Nat) :
    Option ((List F × List F × List F) × List Nat) :=
  let lg := pf.L.length
  if ¬ lg < 32 then none
  else if ¬ (0 < n ∧ n = 2 ^ lg) then none
  else if ¬ pf.R.length = lg then none
  else do
    let r ← replay E pf.L pf.R (innerproductDomainSep E n st)
    let uInv ← inverses r.1
    let uSq := r.1.map fun u => u * u
    some ((uSq, uInv.map fun x => x * x, sVec n uSq uInv), r.2)

/-- `InnerProductProof::Verify` (inner_product_proof.cc L254-344); only `ProofError` is
    caught, and nothing in the function throws one. -/
def verify (E : Env F M) (pf : Ipp F M) (Gf Hf : List F) (P Q : M) (G H : List M)
    (st : List Nat) : Option Bool := do
  let n := G.length
  let v ← verificationScalars E pf n st
  let uSq := v.1.1
  let uInvSq := v.1.2.1
  let s := v.1.2.2
  if Gf.length < n ∨ Hf.length < n then none
  else
    let g := List.zipWith (fun s f => pf.a * s * f) s Gf
    let h := List.zipWith (fun s f => pf.b * s * f) s.reverse Hf
    let e ← msm ((pf.a * pf.b) :: (g ++ h ++ (uSq.map fun x => 0 - x) ++ uInvSq.map fun x => 0 - x))
      (Q :: (G ++ H ++ pf.L ++ pf.R))
    some (decide (e = P))

end Yacl.Bp
