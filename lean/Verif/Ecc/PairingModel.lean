import Mathlib.Algebra.Group.Basic
import Mathlib.Algebra.Module.Defs

/-!
# `crypto/pairing/factory`: the BLS12-381 pairing over libmcl

`MclPGFactory::Create` (`mcl_factory.cc:157-199`) makes two curve groups and a
target group; `MclPairingBls12381` (`mcl_bls12_381.cc`) pairs points.  Points are
`EcPoint`s, that is `shared_ptr<void>`s without a type (`any_ptr.h:33-53`): the heap
holds points of both groups, and what a pointer points to is not checked.  Elements
of the target group are `Item`s, which are values.

libmcl is a parameter; `P1`, `P2` are the groups of order `r`, `K` is the field
`F_{q^12}`.  The constant-time flag of the groups (C134) is left out, and so are
coordinates and bytes.
-/

namespace Verif.Ecc.Pairing

/-- What the code uses of libmcl. -/
structure PLib (P1 P2 K : Type) where
  /-- `Fr::getOp().mp`, the order of the groups. -/
  r : Nat
  /-- `hashAndMapToG1`. -/
  hash1 : String → P1
  /-- `hashAndMapToG2`. -/
  hash2 : String → P2
  mul1 : P1 → Int → P1
  mul2 : P2 → Int → P2
  /-- `millerLoop`. -/
  miller : P1 → P2 → K
  /-- `finalExp`. -/
  finalExp : K → K
  /-- `pairing`. -/
  pair : P1 → P2 → K
  /-- `GT::pow`. -/
  pow : K → Int → K

/-- What becomes of a call. -/
inductive Out (S : Type)
  | ok (s : S)
  | throws
  | ub

/-- The result under a view. -/
def Out.map {S T : Type} (f : S → T) : Out S → Out T
  | .ok s => .ok (f s)
  | .throws => .throws
  | .ub => .ub

/-- The points and the program's `EcPoint` variables: pointers, or something else. -/
structure St (P1 P2 : Type) where
  heap : List (P1 ⊕ P2)
  vars : Nat → Option Nat

/-- Calls on one of the curve groups; `x`, `y`, `z` are variables. -/
inductive GCmd
  | generator (x : Nat)
  | copyPoint (x y : Nat)
  | add (x y z : Nat)
  | addInplace (x y : Nat)
  | sub (x y z : Nat)
  | subInplace (x y : Nat)
  | double (x y : Nat)
  | doubleInplace (x : Nat)
  | negate (x y : Nat)
  | negateInplace (x : Nat)
  | mulBase (x : Nat) (k : Int)
  | mul (x y : Nat) (k : Int)
  | mulInplace (x : Nat) (k : Int)
  /-- `sha2`: the strategy is `TryAndIncrement_SHA2` or `Autonomous`; `dst` is the
  domain separation tag. -/
  | hash (x : Nat) (sha2 : Bool) (m dst : String)

/-- Calls of a program; `t`, `u`, `v` are variables of the target group. -/
inductive Cmd
  /-- `MclPGFactory::Create`, once more. -/
  | create
  /-- `x = y` for `EcPoint`s. -/
  | handle (x y : Nat)
  | one (c : GCmd)
  | two (c : GCmd)
  | miller (t x y : Nat)
  | finalExp (t u : Nat)
  | pairing (t x y : Nat)
  | gtOne (t : Nat)
  | gtMul (t u v : Nat)
  | gtMulInplace (t u : Nat)
  | gtInv (t u : Nat)
  | gtDiv (t u v : Nat)
  | gtPow (t u : Nat) (k : Int)
  | gtPowInplace (t : Nat) (k : Int)

section
variable {P1 P2 K : Type}

/-- `CastAny` (`any_ptr.h:61-83`): the object a variable points to, of whatever
type; a variable without a pointer throws. -/
def look (s : St P1 P2) (x : Nat) : Option (Nat × (P1 ⊕ P2)) :=
  (s.vars x).bind fun h => (s.heap[h]?).map fun c => (h, c)

/-- `MakeShared`, assigned to `x`. -/
def alloc (s : St P1 P2) (x : Nat) (c : P1 ⊕ P2) : St P1 P2 :=
  { heap := s.heap ++ [c], vars := fun y => if y = x then some s.heap.length else s.vars y }

/-- A write through a pointer. -/
def store (s : St P1 P2) (h : Nat) (c : P1 ⊕ P2) : St P1 P2 := { s with heap := s.heap.set h c }

/-- The use of a point; `get` is the type the group takes it for. -/
def un {P : Type} (get : P1 ⊕ P2 → Option P) (s : St P1 P2) (y : Nat) (f : P → Out (St P1 P2)) : Out (St P1 P2) :=
  match look s y with
  | none => .throws
  | some a => match get a.2 with
    | some p => f p
    | none => .ub

/-- The use of two points: both are cast before one is read. -/
def bin {P : Type} (get : P1 ⊕ P2 → Option P) (s : St P1 P2) (y z : Nat) (f : P → P → St P1 P2) :
    Out (St P1 P2) :=
  match look s y, look s z with
  | some a, some b => match get a.2, get b.2 with
    | some p, some q => .ok (f p q)
    | _, _ => .ub
  | _, _ => .throws

/-- The cell a variable points to, for writing. -/
def cell (s : St P1 P2) (x : Nat) : Nat := (s.vars x).getD 0

/-- A call on a group whose points are read with `get` and made with `put`, whose
generator is in cell `g` (`mcl_ec_group.cc:58-172,447-464`, `group_sketch.cc:23-29`). -/
def gstep {P : Type} [AddCommGroup P] (r : Nat) (get : P1 ⊕ P2 → Option P) (put : P → P1 ⊕ P2) (g : Nat)
    (mulF : P → Int → P) (hashF : String → P) (s : St P1 P2) : GCmd → Out (St P1 P2)
  | .generator x => .ok { s with vars := fun y => if y = x then some g else s.vars y }
  | .copyPoint x y => un get s y fun p => .ok (alloc s x (put p))
  | .add x y z => bin get s y z fun p q => alloc s x (put (p + q))
  | .addInplace x y => bin get s x y fun p q => store s (cell s x) (put (p + q))
  /- The negated point is made before the other is looked at. -/
  | .sub x y z => un get s z fun q => un get s y fun p => .ok (alloc s x (put (p + -q)))
  | .subInplace x y => un get s y fun q => un get s x fun p => .ok (store s (cell s x) (put (p + -q)))
  | .double x y => un get s y fun p => .ok (alloc s x (put (p + p)))
  | .doubleInplace x => un get s x fun p => .ok (store s (cell s x) (put (p + p)))
  | .negate x y => un get s y fun p => .ok (alloc s x (put (-p)))
  | .negateInplace x => un get s x fun p => .ok (store s (cell s x) (put (-p)))
  | .mulBase x k => match s.heap[g]? with
    | none => .throws
    | some c => match get c with
      | some p => .ok (alloc s x (put (mulF p (k % r))))
      | none => .ub
  | .mul x y k => un get s y fun p => .ok (alloc s x (put (mulF p (k % r))))
  | .mulInplace x k => un get s x fun p => .ok (store s (cell s x) (put (mulF p (k % r))))
  /- `mcl_ec_group.cc:447-464`: the parameter `dst` has no name. -/
  | .hash x sha2 m _ => if sha2 then .ok (alloc s x (put (hashF m))) else .throws

/-- A cell read as a point of the first group. -/
def get1 : P1 ⊕ P2 → Option P1
  | .inl p => some p
  | .inr _ => none

/-- A cell read as a point of the second group. -/
def get2 : P1 ⊕ P2 → Option P2
  | .inl _ => none
  | .inr q => some q

/-- The state of a program. -/
structure Full (P1 P2 K : Type) where
  s : St P1 P2
  gt : Nat → Option K

/-- `MillerLoop` and `Pairing` (`mcl_bls12_381.cc:52-72`): the arguments are read as
a point of the first and one of the second group. -/
def onPoints (f : P1 → P2 → K) (w : Full P1 P2 K) (t x y : Nat) : Out (Full P1 P2 K) :=
  match look w.s x, look w.s y with
  | some a, some b => match get1 a.2, get2 b.2 with
    | some p, some q => .ok { w with gt := fun i => if i = t then some (f p q) else w.gt i }
    | _, _ => .ub
  | _, _ => .throws

/-- An element of the target group assigned; without operands the call throws
(`Item::As`). -/
def gtSet (w : Full P1 P2 K) (t : Nat) (v : Option K) : Out (Full P1 P2 K) :=
  match v with
  | none => .throws
  | some v => .ok { w with gt := fun i => if i = t then some v else w.gt i }

/-- The groups' steps in the whole state. -/
def lift (w : Full P1 P2 K) : Out (St P1 P2) → Out (Full P1 P2 K)
  | .ok s => .ok { w with s := s }
  | .throws => .throws
  | .ub => .ub

/-- One call. -/
def step [AddCommGroup P1] [AddCommGroup P2] [DivInvMonoid K] (L : PLib P1 P2 K) (w : Full P1 P2 K) :
    Cmd → Out (Full P1 P2 K)
  /- `mcl_factory.cc:163-173`: `p1` and `p2` are static; the assignments follow the
  initialisation and are made on every call. -/
  | .create => .ok { w with s := store (store w.s 0 (.inl (L.hash1 "Bls12381"))) 1 (.inr (L.hash2 "Bls12381")) }
  | .handle x y => .ok { w with s := { w.s with vars := fun z => if z = x then w.s.vars y else w.s.vars z } }
  | .one c => lift w (gstep L.r get1 .inl 0 L.mul1 L.hash1 w.s c)
  | .two c => lift w (gstep L.r get2 .inr 1 L.mul2 L.hash2 w.s c)
  | .miller t x y => onPoints L.miller w t x y
  | .finalExp t u => gtSet w t ((w.gt u).map L.finalExp)
  | .pairing t x y => onPoints L.pair w t x y
  /- `mcl_factory.cc:155-158,195-198,227-256` of `math/galois_field/factory` -/
  | .gtOne t => gtSet w t (some 1)
  | .gtMul t u v => gtSet w t ((w.gt u).bind fun a => (w.gt v).map fun b => a * b)
  | .gtMulInplace t u => gtSet w t ((w.gt t).bind fun a => (w.gt u).map fun b => a * b)
  | .gtInv t u => gtSet w t ((w.gt u).map fun a => a⁻¹)
  | .gtDiv t u v => gtSet w t ((w.gt u).bind fun a => (w.gt v).map fun b => a / b)
  | .gtPow t u k => gtSet w t ((w.gt u).map fun a => L.pow a k)
  | .gtPowInplace t k => gtSet w t ((w.gt t).map fun a => L.pow a k)

/-- After the first `Create` (`mcl_factory.cc:163-173`). -/
def init (L : PLib P1 P2 K) : Full P1 P2 K where
  s := { heap := [.inl (L.hash1 "Bls12381"), .inr (L.hash2 "Bls12381")], vars := fun _ => none }
  gt := fun _ => none

/-- A program: a call that throws changes nothing and the program goes on. -/
def runBy {S C : Type} (f : S → C → Out S) (s : S) : List C → Out S
  | [] => .ok s
  | c :: cs => match f s c with
    | .ok s' => runBy f s' cs
    | .throws => runBy f s cs
    | .ub => .ub

/-- A program on the model. -/
def run [AddCommGroup P1] [AddCommGroup P2] [DivInvMonoid K] (L : PLib P1 P2 K) (cs : List Cmd) :
    Out (Full P1 P2 K) := runBy (step L) (init L) cs

end

end Verif.Ecc.Pairing
