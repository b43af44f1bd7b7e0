/-
Model of the rank-1 constraint system proofs.

/repo/yacl/crypto/experimental/zkp/bulletproofs/r1cs/{r1cs_linear_combination,r1cs_prover,
r1cs_verifier}.cc and the polynomial helpers of util.cc.

As in `Model.lean` scalars are a field `F` and points a module `M`; `none` is an exception, an
error result or an index outside a vector.  The values `CreateRandomScalar` returns are
arguments.  The program of a user (a gadget) is a tree of calls on the constraint system, the
same for prover and verifier; only the prover looks at the assignments.
-/
import Verif.Zkp.Bp.RangeModel

namespace Yacl.Bp.R1cs

variable {F M : Type} [Field F] [DecidableEq F] [AddCommGroup M] [Module F M] [DecidableEq M]

/-! ### Linear combinations -/

/-- `Variable` (r1cs_linear_combination.h L24-56). -/
inductive Var where
  | committed (i : Nat)
  | left (i : Nat)
  | right (i : Nat)
  | out (i : Nat)
  | one
deriving DecidableEq, Repr

/-- `LinearCombination` (r1cs_linear_combination.h L59-87). -/
abbrev LC (F : Type) := List (Var × F)

/-- `LinearCombination(Variable)` (r1cs_linear_combination.cc L19-21). -/
def ofVar (v : Var) : LC F := [(v, 1)]

/-- `LinearCombination(MPInt)` (r1cs_linear_combination.cc L23-25). -/
def ofScalar (c : F) : LC F := [(.one, c)]

/-- `operator+=`, `operator+` (r1cs_linear_combination.cc L31-34, L51-55). -/
def lcAdd (a b : LC F) : LC F := a ++ b

/-- `operator-=`, `operator-` (r1cs_linear_combination.cc L36-41, L57-61). -/
def lcSub (a b : LC F) : LC F := a ++ b.map fun t => (t.1, -t.2)

/-- `operator*=`, `operator*` (r1cs_linear_combination.cc L43-49, L63-73). -/
def lcMul (a : LC F) (c : F) : LC F := a.map fun t => (t.1, t.2 * c)

/-- Unary `operator-` (r1cs_linear_combination.cc L75-80). -/
def lcNeg (a : LC F) : LC F := a.map fun t => (t.1, -t.2)

/-! ### Programs -/

/-- The calls of a user on `ConstraintSystem`, `R1CSProver`/`R1CSVerifier` and
    `RandomizedProver`/`RandomizedVerifier` (r1cs_constraint_system.h L32-52, r1cs_prover.h L25-105).
    `commit` and `defer` are not offered in the second phase. -/
inductive Prog (F : Type) where
  | ret
  | fail
  | commit (v blinding : F) (k : Var → Prog F)
  | append (label : String) (msg : List Nat) (k : Prog F)
  | challenge (label : String) (k : F → Prog F)
  | multiply (l r : LC F) (k : Var → Var → Var → Prog F)
  | allocate (val : Option F) (k : Var → Prog F)
  | allocMul (val : Option (F × F)) (k : Var → Var → Var → Prog F)
  | constrain (lc : LC F) (k : Prog F)
  | defer (cb k : Prog F)

/-- The prover (r1cs_prover.h L67-81); `Vs` are the commitments handed out so far. -/
structure PSt (F M : Type) where
  v : List F
  vBlinding : List F
  aL : List F
  aR : List F
  aO : List F
  cons : List (LC F)
  deferred : List (Prog F)
  pending : Option Nat
  Vs : List M
  st : List Nat

/-- The verifier (r1cs_verifier.h L69-81); `queue` holds the commitments still to be passed to
    `Commit`. -/
structure VSt (F M : Type) where
  V : List M
  queue : List M
  num : Nat
  cons : List (LC F)
  deferred : List (Prog F)
  pending : Option Nat
  st : List Nat

/-- The value of a variable (r1cs_prover.cc L131-148). -/
def valueOf (v aL aR aO : List F) : Var → Option F
  | .committed i => v[i]?
  | .left i => aL[i]?
  | .right i => aR[i]?
  | .out i => aO[i]?
  | .one => some 1

/-- `R1CSProver::Eval` (r1cs_prover.cc L128-152). -/
def evalLoop (v aL aR aO : List F) : LC F → F → Option F
  | [], acc => some acc
  | t :: ts, acc => do
    let x ← valueOf v aL aR aO t.1
    evalLoop v aL aR aO ts (acc + t.2 * x)

def eval (s : PSt F M) (lc : LC F) : Option F := evalLoop s.v s.aL s.aR s.aO lc 0

/-- The calls on the prover: `Commit` (r1cs_prover.cc L35-44), `Multiply` (L48-66), `Allocate`
    (L68-90), `AllocateMultiplier` (L92-111), `Constrain` (L118-120),
    `SpecifyRandomizedConstraints` (L122-126), `ChallengeScalar` (L463-466). -/
def runP (E : Env F M) (B Bb : M) : Prog F → PSt F M → Option (PSt F M)
  | .ret, s => some s
  | .fail, _ => none
  | .commit v b k, s =>
    let V := pedersen B Bb v b
    runP E B Bb (k (.committed s.v.length))
      { s with v := s.v ++ [v], vBlinding := s.vBlinding ++ [b], Vs := s.Vs ++ [V],
               st := appendPoint E "V" V s.st }
  | .append label msg k, s => runP E B Bb k { s with st := appendMessage E label msg s.st }
  | .challenge label k, s =>
    let c := challengeScalar E label s.st
    runP E B Bb (k c.1) { s with st := c.2 }
  | .multiply l r k, s => do
    let lv ← eval s l
    let rv ← eval s r
    let i := s.aL.length
    runP E B Bb (k (.left i) (.right i) (.out i))
      { s with aL := s.aL ++ [lv], aR := s.aR ++ [rv], aO := s.aO ++ [lv * rv],
               cons := s.cons ++ [lcSub l (ofVar (.left i)), lcSub r (ofVar (.right i))] }
  | .allocate val k, s => do
    let x ← val
    match s.pending with
    | none =>
      let i := s.aL.length
      runP E B Bb (k (.left i))
        { s with pending := some i, aL := s.aL ++ [x], aR := s.aR ++ [0], aO := s.aO ++ [0] }
    | some i =>
      runP E B Bb (k (.right i))
        { s with pending := none, aR := s.aR.set i x, aO := s.aO.set i (s.aL.getD i 0 * x) }
  | .allocMul val k, s => do
    let x ← val
    let i := s.aL.length
    runP E B Bb (k (.left i) (.right i) (.out i))
      { s with aL := s.aL ++ [x.1], aR := s.aR ++ [x.2], aO := s.aO ++ [x.1 * x.2] }
  | .constrain lc k, s => runP E B Bb k { s with cons := s.cons ++ [lc] }
  | .defer cb k, s => runP E B Bb k { s with deferred := s.deferred ++ [cb] }

/-- The calls on the verifier: `Commit` (r1cs_verifier.cc L29-34), `Multiply` (L38-51), `Allocate`
    (L53-65), `AllocateMultiplier` (L67-75), `Constrain` (L82-84),
    `SpecifyRandomizedConstraints` (L86-90), `ChallengeScalar` (L342-344). -/
def runV (E : Env F M) : Prog F → VSt F M → Option (VSt F M)
  | .ret, s => some s
  | .fail, _ => none
  | .commit _ _ k, s =>
    match s.queue with
    | [] => none
    | V :: rest =>
      runV E (k (.committed s.V.length))
        { s with V := s.V ++ [V], queue := rest, st := appendPoint E "V" V s.st }
  | .append label msg k, s => runV E k { s with st := appendMessage E label msg s.st }
  | .challenge label k, s =>
    let c := challengeScalar E label s.st
    runV E (k c.1) { s with st := c.2 }
  | .multiply l r k, s =>
    let i := s.num
    runV E (k (.left i) (.right i) (.out i))
      { s with num := s.num + 1,
               cons := s.cons ++ [lcSub l (ofVar (.left i)), lcSub r (ofVar (.right i))] }
  | .allocate _ k, s =>
    match s.pending with
    | none => runV E (k (.left s.num)) { s with pending := some s.num, num := s.num + 1 }
    | some i => runV E (k (.right i)) { s with pending := none }
  | .allocMul _ k, s =>
    runV E (k (.left s.num) (.right s.num) (.out s.num)) { s with num := s.num + 1 }
  | .constrain lc k, s => runV E k { s with cons := s.cons ++ [lc] }
  | .defer cb k, s => runV E k { s with deferred := s.deferred ++ [cb] }

/-- Constructor of the prover (r1cs_prover.cc L27-33). -/
def newP (E : Env F M) (st : List Nat) : PSt F M :=
  ⟨[], [], [], [], [], [], [], none, [], appendMessage E "dom-sep" (lbl "r1cs v1") st⟩

/-- Constructor of the verifier (r1cs_verifier.cc L23-27). -/
def newV (E : Env F M) (st : List Nat) (commitments : List M) : VSt F M :=
  ⟨[], commitments, 0, [], [], none, appendMessage E "dom-sep" (lbl "r1cs v1") st⟩

/-- `CreateRandomizedConstraints` of the prover (r1cs_prover.cc L154-168). -/
def randomizeP (E : Env F M) (B Bb : M) (s : PSt F M) : Option (PSt F M) :=
  let s := { s with pending := none }
  if s.deferred.isEmpty then
    some { s with st := appendMessage E "dom-sep" (lbl "r1cs-1phase") s.st }
  else do
    let s' ← s.deferred.foldlM (fun s cb => runP E B Bb cb s)
      { s with st := appendMessage E "dom-sep" (lbl "r1cs-2phase") s.st }
    some { s' with deferred := [] }

/-- `CreateRandomizedConstraints` of the verifier (r1cs_verifier.cc L92-106). -/
def randomizeV (E : Env F M) (s : VSt F M) : Option (VSt F M) :=
  let s := { s with pending := none }
  if s.deferred.isEmpty then
    some { s with st := appendMessage E "dom-sep" (lbl "r1cs-1phase") s.st }
  else do
    let s' ← s.deferred.foldlM (fun s cb => runV E cb s)
      { s with st := appendMessage E "dom-sep" (lbl "r1cs-2phase") s.st }
    some { s' with deferred := [] }

/-! ### Flattened constraints -/

/-- The weights (r1cs_prover.cc L176-179, r1cs_verifier.cc L115-119). -/
structure Weights (F : Type) where
  wL : List F
  wR : List F
  wO : List F
  wV : List F
  wc : F

/-- `vec[i] += d`. -/
def addAt (l : List F) (i : Nat) (d : F) : Option (List F) :=
  if i < l.length then some (l.set i (l.getD i 0 + d)) else none

/-- One term (r1cs_prover.cc L184-199, r1cs_verifier.cc L124-140); the prover (`const = false`)
    skips constants. -/
def addTerm (const : Bool) (e : F) (w : Weights F) (t : Var × F) : Option (Weights F) :=
  match t.1 with
  | .left i => (addAt w.wL i (e * t.2)).map fun l => { w with wL := l }
  | .right i => (addAt w.wR i (e * t.2)).map fun l => { w with wR := l }
  | .out i => (addAt w.wO i (e * t.2)).map fun l => { w with wO := l }
  | .committed i => (addAt w.wV i (-(e * t.2))).map fun l => { w with wV := l }
  | .one => some (if const then { w with wc := w.wc - e * t.2 } else w)

/-- The loop over the constraints (r1cs_prover.cc L181-202, r1cs_verifier.cc L121-143). -/
def flattenLoop (const : Bool) (z : F) : List (LC F) → F → Weights F → Option (Weights F)
  | [], _, w => some w
  | lc :: rest, e, w => do
    let w ← lc.foldlM (addTerm const e) w
    flattenLoop const z rest (e * z) w

/-- `FlattenedConstraints` (r1cs_prover.cc L170-204, r1cs_verifier.cc L108-145). -/
def flatten (const : Bool) (n m : Nat) (cons : List (LC F)) (z : F) : Option (Weights F) :=
  flattenLoop const z cons z
    ⟨List.replicate n 0, List.replicate n 0, List.replicate n 0, List.replicate m 0, 0⟩

/-! ### Proving -/

/-- An `R1CSProof` (r1cs_proof.h L21-42). -/
structure Proof (F M : Type) where
  AI1 : M
  AO1 : M
  S1 : M
  AI2 : M
  AO2 : M
  S2 : M
  T1 : M
  T3 : M
  T4 : M
  T5 : M
  T6 : M
  tx : F
  txBlinding : F
  eBlinding : F
  ipp : Ipp F M

/-- The random scalars of a proof. -/
structure Rand (F : Type) where
  i1 : F
  o1 : F
  s1 : F
  i2 : F
  o2 : F
  s2 : F
  sL1 : Nat → F
  sR1 : Nat → F
  sL2 : Nat → F
  sR2 : Nat → F
  t1 : F
  t3 : F
  t4 : F
  t5 : F
  t6 : F

/-- `VecPoly3` (util.h L243-251). -/
structure VecPoly3 (F : Type) where
  T0 : List F
  T1 : List F
  T2 : List F
  T3 : List F

/-- `VecPoly3::Eval` (util.cc L261-278). -/
def VecPoly3.eval (p : VecPoly3 F) (x : F) : List F :=
  (List.range p.T0.length).map fun i =>
    p.T0.getD i 0 + p.T1.getD i 0 * x + p.T2.getD i 0 * (x * x) + p.T3.getD i 0 * (x * x * x)

/-- `Poly6` (util.h L254-261). -/
structure Poly6 (F : Type) where
  T0 : F
  T1 : F
  T2 : F
  T3 : F
  T4 : F
  T5 : F
  T6 : F

/-- `Poly6::Eval` (util.cc L280-298). -/
def Poly6.eval (p : Poly6 F) (x : F) : F :=
  p.T0 + p.T1 * x + p.T2 * x ^ 2 + p.T3 * x ^ 3 + p.T4 * x ^ 4 + p.T5 * x ^ 5 + p.T6 * x ^ 6

/-- `SpecialInnerProduct` (util.cc L300-314). -/
def specialInner (l r : VecPoly3 F) : Option (Poly6 F) := do
  let t0 ← innerProduct l.T0 r.T0
  let a ← innerProduct l.T0 r.T1
  let b ← innerProduct l.T1 r.T0
  let c ← innerProduct l.T0 r.T2
  let d ← innerProduct l.T1 r.T1
  let e ← innerProduct l.T2 r.T0
  let f ← innerProduct l.T0 r.T3
  let g ← innerProduct l.T1 r.T2
  let h ← innerProduct l.T2 r.T1
  let i ← innerProduct l.T3 r.T0
  let j ← innerProduct l.T1 r.T3
  let k ← innerProduct l.T2 r.T2
  let m ← innerProduct l.T3 r.T1
  let n ← innerProduct l.T2 r.T3
  let o ← innerProduct l.T3 r.T2
  let p ← innerProduct l.T3 r.T3
  some ⟨t0, a + b, c + d + e, f + g + h + i, j + k + m, n + o, p⟩

/-- Commitments to one phase (r1cs_prover.cc L218-263 and L287-331): `A_I`, `A_O`, `S`. -/
def commitPhase (Bb : M) (ib ob sb : F) (aL aR aO sL sR : List F) (G H : List M) :
    Option (M × M × M) := do
  let AI ← msm (ib :: (aL ++ aR)) (Bb :: (G ++ H))
  let AO ← msm (ob :: aO) (Bb :: G)
  let S ← msm (sb :: (sL ++ sR)) (Bb :: (G ++ H))
  some (AI, AO, S)

/-- The polynomials `l(X)`, `r(X)` (r1cs_prover.cc L347-367). -/
def lrPolys (n : Nat) (aL aR aO sL sR yPows yInvPows : List F) (w : Weights F) : VecPoly3 F × VecPoly3 F :=
  ({ T0 := List.replicate n 0
     T1 := (List.range n).map fun i => aL.getD i 0 + yInvPows.getD i 0 * w.wR.getD i 0
     T2 := (List.range n).map fun i => aO.getD i 0
     T3 := (List.range n).map fun i => sL.getD i 0 },
   { T0 := (List.range n).map fun i => w.wO.getD i 0 - yPows.getD i 0
     T1 := (List.range n).map fun i => yPows.getD i 0 * aR.getD i 0 + w.wL.getD i 0
     T2 := List.replicate n 0
     T3 := (List.range n).map fun i => yPows.getD i 0 * sR.getD i 0 })

/-- Blindings and commitments of the second phase. -/
structure Phase2 (F M : Type) where
  i2 : F
  o2 : F
  s2 : F
  AI2 : M
  AO2 : M
  S2 : M

/-- The commitments of the second phase (r1cs_prover.cc L282-336). -/
def commitPhase2 (Bb : M) (gens : Gens M) (rand : Rand F) (n1 : Nat) (s : PSt F M) : Option (Phase2 F M) :=
  let n := s.aL.length
  if 0 < n - n1 then do
    let c ← commitPhase Bb rand.i2 rand.o2 rand.s2 (s.aL.drop n1) (s.aR.drop n1) (s.aO.drop n1)
      ((List.range (n - n1)).map rand.sL2) ((List.range (n - n1)).map rand.sR2)
      ((share gens.G 0 n).drop n1) ((share gens.H 0 n).drop n1)
    some ⟨rand.i2, rand.o2, rand.s2, c.1, c.2.1, c.2.2⟩
  else some ⟨0, 0, 0, 0, 0, 0⟩

/-- What the prover has after the second phase. -/
structure Ctx (F M : Type) where
  n1 : Nat
  s : PSt F M
  c1 : M × M × M
  p2 : Phase2 F M
  sL : List F
  sR : List F

/-- The last part of `Prove` (r1cs_prover.cc L405-447): the blinding factor, the challenge `w` and the
    inner product argument. -/
def finish (E : Env F M) (B : M) (gens : Gens M) (rand : Rand F) (c : Ctx F M) (y u x : F)
    (T : M × M × M × M × M) (tx txBlinding : F) (lv rv : List F) (st : List Nat) :
    Option (Proof F M × PSt F M) := do
  let n := c.s.aL.length
  let padded := nextPowerOfTwo n
  let yPows := expIter y padded
  let l := lv ++ List.replicate (padded - n) 0
  let r := rv ++ (List.range (padded - n)).map fun k => - yPows.getD (n + k) 0
  let eBlinding := x * ((rand.i1 + u * c.p2.i2) + x * ((rand.o1 + u * c.p2.o2) + x * (rand.s1 + u * c.p2.s2)))
  let cw := challengeScalar E "w" (appendScalar E "e_blinding" eBlinding
    (appendScalar E "t_x_blinding" txBlinding (appendScalar E "t_x" tx st)))
  let yInv ← invert y
  let yInvPows := expIter yInv padded
  let Gf := (List.range padded).map fun i => if c.n1 ≤ i then u else 1
  let Hf := (List.range padded).map fun i => yInvPows.getD i 0 * Gf.getD i 0
  let ipp ← create E (cw.1 • B) Gf Hf (share gens.G 0 padded) (share gens.H 0 padded) l r cw.2
  some ({ AI1 := c.c1.1, AO1 := c.c1.2.1, S1 := c.c1.2.2, AI2 := c.p2.AI2, AO2 := c.p2.AO2, S2 := c.p2.S2,
          T1 := T.1, T3 := T.2.1, T4 := T.2.2.1, T5 := T.2.2.2.1, T6 := T.2.2.2.2, tx, txBlinding, eBlinding,
          ipp := ipp.1 }, { c.s with st := ipp.2 })

/-- The middle part of `Prove` (r1cs_prover.cc L345-403): constraints, polynomials, commitments to their
    coefficients and the challenges `u`, `x`. -/
def respond (E : Env F M) (B Bb : M) (gens : Gens M) (rand : Rand F) (c : Ctx F M) (y z : F) (st : List Nat) :
    Option (Proof F M × PSt F M) := do
  let n := c.s.aL.length
  let padded := nextPowerOfTwo n
  let w ← flatten false n c.s.v.length c.s.cons z
  let yInv ← invert y
  let lr := lrPolys n c.s.aL c.s.aR c.s.aO c.sL c.sR (expIter y padded) (expIter yInv padded) w
  let t ← specialInner lr.1 lr.2
  let T1 := pedersen B Bb t.T1 rand.t1
  let T3 := pedersen B Bb t.T3 rand.t3
  let T4 := pedersen B Bb t.T4 rand.t4
  let T5 := pedersen B Bb t.T5 rand.t5
  let T6 := pedersen B Bb t.T6 rand.t6
  let cu := challengeScalar E "u" (appendPoint E "T_6" T6 (appendPoint E "T_5" T5 (appendPoint E "T_4" T4
    (appendPoint E "T_3" T3 (appendPoint E "T_1" T1 st)))))
  let cx := challengeScalar E "x" cu.2
  let t2Blinding ← innerProduct w.wV c.s.vBlinding
  finish E B gens rand c y cu.1 cx.1 (T1, T3, T4, T5, T6) (t.eval cx.1)
    (Poly6.eval ⟨0, rand.t1, t2Blinding, rand.t3, rand.t4, rand.t5, rand.t6⟩ cx.1)
    (lr.1.eval cx.1) (lr.2.eval cx.1) cx.2

/-- `R1CSProver::Prove` (r1cs_prover.cc L206-447): the proof and the prover afterwards. -/
def prove (E : Env F M) (B Bb : M) (gens : Gens M) (rand : Rand F) (s : PSt F M) :
    Option (Proof F M × PSt F M) :=
  let n1 := s.aL.length
  if gens.gensCapacity < n1 then none
  else do
    let sL1 := (List.range n1).map rand.sL1
    let sR1 := (List.range n1).map rand.sR1
    let c1 ← commitPhase Bb rand.i1 rand.o1 rand.s1 s.aL s.aR s.aO sL1 sR1
      (share gens.G 0 n1) (share gens.H 0 n1)
    let s ← randomizeP E B Bb { s with st := appendPoint E "S1" c1.2.2 (appendPoint E "A_O1" c1.2.1
      (appendPoint E "A_I1" c1.1 (appendU64 E "m" s.v.length s.st))) }
    if gens.gensCapacity < nextPowerOfTwo s.aL.length then none
    else
      let p2 ← commitPhase2 Bb gens rand n1 s
      let cy := challengeScalar E "y" (appendPoint E "S2" p2.S2 (appendPoint E "A_O2" p2.AO2
        (appendPoint E "A_I2" p2.AI2 s.st)))
      let cz := challengeScalar E "z" cy.2
      respond E B Bb gens rand
        ⟨n1, s, c1, p2, sL1 ++ (List.range (s.aL.length - n1)).map rand.sL2,
          sR1 ++ (List.range (s.aL.length - n1)).map rand.sR2⟩ cy.1 cz.1 cz.2

/-- `e_blinding` as the integer it is (r1cs_prover.cc L414-420): `+` and `*` of `MPInt`, with no
    reduction modulo the order; `finish` has its class modulo the order. -/
def eBlindingInt (x u i1 o1 s1 i2 o2 s2 : Nat) : Nat :=
  x * ((i1 + u * i2) + x * ((o1 + u * o2) + x * (s1 + u * s2)))

/-! ### Verifying -/

/-- The challenges of a run of `Verify` up to `w` (r1cs_verifier.cc L173-193): `y`, `z`, `u`, `x`,
    `w` and the transcript. -/
def challengesV (E : Env F M) (pf : Proof F M) (st : List Nat) : (F × F × F × F × F) × List Nat :=
  let st := appendPoint E "S2" pf.S2 (appendPoint E "A_O2" pf.AO2 (appendPoint E "A_I2" pf.AI2 st))
  let cy := challengeScalar E "y" st
  let cz := challengeScalar E "z" cy.2
  let st := appendPoint E "T_6" pf.T6 (appendPoint E "T_5" pf.T5 (appendPoint E "T_4" pf.T4
    (appendPoint E "T_3" pf.T3 (appendPoint E "T_1" pf.T1 cz.2))))
  let cu := challengeScalar E "u" st
  let cx := challengeScalar E "x" cu.2
  let st := appendScalar E "e_blinding" pf.eBlinding
    (appendScalar E "t_x_blinding" pf.txBlinding (appendScalar E "t_x" pf.tx cx.2))
  let cw := challengeScalar E "w" st
  ((cy.1, cz.1, cu.1, cx.1, cw.1), cw.2)

/-- `R1CSVerifier::Verify` up to the end of the second phase (r1cs_verifier.cc L154-166): the
    number of multipliers of the first phase, and the verifier afterwards. -/
def secondPhase (E : Env F M) (pf : Proof F M) (s : VSt F M) : Option (Nat × VSt F M) := do
  let s := { s with st := appendU64 E "m" s.V.length s.st }
  let n1 := s.num
  let s := { s with st := appendPoint E "S1" pf.S1 (appendPoint E "A_O1" pf.AO1 (appendPoint E "A_I1" pf.AI1 s.st)) }
  let s ← randomizeV E s
  some (n1, s)

/-- `R1CSVerifier::Verify` (r1cs_verifier.cc L147-326). -/
def verify (E : Env F M) (B Bb : M) (gens : Gens M) (pf : Proof F M) (s : VSt F M) : Option Bool := do
  let ph ← secondPhase E pf s
  let n1 := ph.1
  let s := ph.2
  let n := s.num
  let padded := nextPowerOfTwo n
  if gens.gensCapacity < padded then none
  else
    let c := challengesV E pf s.st
    let y := c.1.1
    let z := c.1.2.1
    let u := c.1.2.2.1
    let x := c.1.2.2.2.1
    let wch := c.1.2.2.2.2
    let w ← flatten true n s.V.length s.cons z
    let iv ← verificationScalars E pf.ipp padded c.2
    let uSq := iv.1.1
    let uInvSq := iv.1.2.1
    let sv := iv.1.2.2
    let a := pf.ipp.a
    let b := pf.ipp.b
    let r := (challengeScalar E "r" iv.2).1
    let yInv ← invert y
    let yInvPows := expIter yInv padded
    let ynegwR := (List.range n).map fun i => w.wR.getD i 0 * yInvPows.getD i 0
    let delta ← innerProduct w.wL ynegwR
    let term1 := wch * (pf.tx - a * b)
    let term2 := r * (x * x * (w.wc + delta) - pf.tx)
    let term3 := -pf.eBlinding - r * pf.txBlinding
    let uForG := List.replicate n1 1 ++ List.replicate (n - n1 + (padded - n)) u
    let gScalars := (List.range padded).map fun i =>
      uForG.getD i 0 * (x * ynegwR.getD i 0 - a * sv.getD i 0)
    let hScalars := (List.range padded).map fun i =>
      uForG.getD i 0 * (yInvPows.getD i 0 * (x * w.wL.getD i 0 + w.wO.getD i 0 - b * sv.reverse.getD i 0) - 1)
    let mega ← msm
      ([x, x * x, x * x * x, u * x, u * (x * x), u * (x * x * x)]
        ++ w.wV.map (fun c => r * (x * x) * c)
        ++ [r * x, r * (x * x * x), r * (x * x * (x * x)), r * (x * x * (x * x) * x), r * (x * x * x * (x * x * x))]
        ++ [term1 + term2, term3] ++ gScalars ++ hScalars ++ uSq ++ uInvSq)
      ([pf.AI1, pf.AO1, pf.S1, pf.AI2, pf.AO2, pf.S2] ++ s.V
        ++ [pf.T1, pf.T3, pf.T4, pf.T5, pf.T6] ++ [B, Bb]
        ++ share gens.G 0 padded ++ share gens.H 0 padded ++ pf.ipp.L ++ pf.ipp.R)
    some (decide (mega = 0))

end Yacl.Bp.R1cs
