import Verif.Kernel.FerretNoise
import Verif.Kernel.SoftspokenLeak
import Mathlib.Tactic.Choose

/-! OT kernel (yacl/kernel/ot_kernel.{h,cc}): one-time setup, any number of correlated and random OT calls, with the two extension algorithms. -/

namespace Yacl.OtKernel

open Yacl.Ggm (B Base)
open Yacl.Softspoken (Fns TreeMsg setupRecv setupSend deltaOf recv send)
open Yacl.Ferret (Cot Env dflt mpNum parity noise)
open Yacl.OtExt (OtCorrect)

/-- State of the two kernels after `init`. `ss`: the SoftSpoken cores of both parties (leaves, compressed leaves, delta, the two counters).
`ferret`: the cached base COTs `init_ot_cache_` of both parties (ot_kernel.h L123-131). -/
inductive K where
  | ss (leaves : List (List B)) (st : List (Nat × List B)) (delta ctrS ctrR : B)
  | ferret (delta : B) (bs br : List B)

/-- What is drawn at random or left to the machine in one call: the functions and seeds of Ferret, the random choices, check bits and challenge of SoftSpoken,
the transposes used, and the previous contents of the outputs. -/
structure Rnd where
  env : Env
  choices : List Bool
  bits : List Bool
  chi : List (BitVec 64)
  s1 : Bool
  s2 : Bool
  j1 : OtExt.Junk
  j2 : OtExt.Junk
  js : List B
  jr : List B

/-- What one call sends from receiver to sender in SoftSpoken. -/
abbrev Wire := List (List B)

/-- softspoken_ote.h `Send`/`Recv` of compact cores with k = 2, default step, semi-honest (ot_kernel.cc L169-177, L214-217, L249-253). -/
def ssCot (f : Fns) (leaves : List (List B)) (st : List (Nat × List B)) (delta ctrS ctrR : B) (n : Nat) (r : Rnd) : Option (Wire × List B × List B × B × B) :=
  if r.choices.length = n then
    (recv f.crh 2 0 true true r.s2 r.j2 leaves ctrR r.choices r.bits).bind fun a =>
      (send f.crh 2 0 false true true r.s1 r.j1 st delta ctrS n a.1 r.chi (a.2.1 r.chi)).map fun b =>
        (a.1, b.1.map (·.1), a.2.2.1, b.2, a.2.2.2)
  else none

/-- ot_kernel.cc L168-177: setup of SoftSpoken. The base OTs are given. -/
def ssInit (f : Fns) (base : Base) (seeds : Nat → B) : Option (List TreeMsg × List (List B) × List (Nat × List B)) :=
  (setupRecv f base seeds 2 false true).bind fun a => (setupSend f base 2 false true a.1).map fun st => (a.1, a.2, st)

/-- ot_kernel.cc L148-182 `OtKernel::init`, both parties. Also returned: what the receiver sent. -/
def init (ferret : Bool) (f : Fns) (base : Base) (seeds : Nat → B) (r : Rnd) : Option (List TreeMsg × Wire × K) :=
  (ssInit f base seeds).bind fun a =>
    if ferret then
      (ssCot f a.2.1 a.2.2 (deltaOf base true) 0 0 (dflt.k + mpNum dflt.t dflt.n false) r).map fun o =>
        (a.1, o.1, .ferret (deltaOf base true) o.2.1 o.2.2.1)
    else some (a.1, [], .ss a.2.1 a.2.2 (deltaOf base true) 0 0)

/-- The correlation of a kernel. -/
def K.delta : K → B
  | .ss _ _ d _ _ => d
  | .ferret d _ _ => d

/-- ot_kernel.cc L184-259 `eval_cot_random_choice`, both parties: the outputs and the new state. The Ferret case leaves the cache as it is. -/
def evalCot (f : Fns) (k : K) (n : Nat) (r : Rnd) : Option ((List B × List B) × K) :=
  match k with
  | .ss leaves st delta ctrS ctrR => (ssCot f leaves st delta ctrS ctrR n r).map fun o => ((o.2.1, o.2.2.1), .ss leaves st delta o.2.2.2.1 o.2.2.2.2)
  | .ferret delta bs br => (Ferret.run r.env dflt false false delta bs br n r.js r.jr).map fun o => (o, .ferret delta bs br)

/-- ot_kernel.cc L46-58 `naive_cot2rot` of the sender: `GetBlock(i, 1)` of a compact store is block 0 plus delta. The count is narrowed to 32 bits;
the blocks beyond keep their previous contents. The iterations are independent, `parallel_for` is written as a map. -/
def rotSend (h : B → B) (delta : B) (cot : List B) (old : List (B × B)) : List (B × B) :=
  let n := cot.length % 2 ^ 32
  (cot.take n).map (fun x => (h x, h (x ^^^ delta))) ++ old.drop n

/-- ot_kernel.cc L61-74 `naive_cot2rot` of the receiver: the choices and the blocks. -/
def rotRecv (h : B → B) (cot old : List B) : List Bool × List B :=
  let n := cot.length % 2 ^ 32
  (cot.map fun x => x.getLsbD 0, (cot.take n).map h ++ old.drop n)

/-- ot_kernel.cc L261-281 `eval_rot`, both parties. -/
def evalRot (f : Fns) (k : K) (n : Nat) (r : Rnd) (oldS : List (B × B)) (oldR : List B) : Option ((List (B × B) × List Bool × List B) × K) :=
  if oldS.length = n ∧ oldR.length = n then
    (evalCot f k n r).map fun o => ((rotSend f.crh k.delta o.1.1 oldS, rotRecv f.crh o.1.2 oldR), o.2)
  else none

/-- A call and its outcome. -/
inductive Call where
  | cot (n : Nat) (r : Rnd)
  | rot (n : Nat) (r : Rnd) (oldS : List (B × B)) (oldR : List B)

inductive Out where
  | cot (delta : B) (s r : List B)
  | rot (s : List (B × B)) (c : List Bool) (r : List B)

def step (f : Fns) (k : K) : Call → Option (Out × K)
  | .cot n r => (evalCot f k n r).map fun o => (.cot k.delta o.1.1 o.1.2, o.2)
  | .rot n r oldS oldR => (evalRot f k n r oldS oldR).map fun o => (.rot o.1.1 o.1.2.1 o.1.2.2, o.2)

def steps (f : Fns) : K → List Call → Option (List Out)
  | _, [] => some []
  | k, c :: cs => (step f k c).bind fun o => (steps f o.2 cs).map (o.1 :: ·)

/-- Number of OTs of a call and its randomness. -/
def Call.n : Call → Nat
  | .cot n _ => n
  | .rot n _ _ _ => n
def Call.rnd : Call → Rnd
  | .cot _ r => r
  | .rot _ r _ _ => r

/-- Calls the kernel accepts: outputs of the right size; at least `2 t` OTs with Ferret; fewer than `2^32` for random OTs. `Rnd` has the sizes the code draws. -/
def Call.Valid (ferret : Bool) (c : Call) : Prop :=
  (if ferret then 2 * dflt.t ≤ c.n ∧ c.rnd.js.length = c.n ∧ c.rnd.jr.length = c.n
   else c.rnd.choices.length = c.n ∧ c.rnd.chi.length = 2 * ((c.n + 64 + 127) / 128)) ∧
  match c with
  | .cot _ _ => True
  | .rot n _ oldS oldR => oldS.length = n ∧ oldR.length = n ∧ n < 2 ^ 32

/-- What a caller expects of an outcome. Correlated: as many as asked for, correlation `delta`. Random: as many as asked for, and the receiver's
blocks are the ones its choices select. -/
def Out.Good (delta : B) (n : Nat) : Out → Prop
  | .cot d s r => d = delta ∧ s.length = n ∧ Cot delta s r
  | .rot s c r => c.length = n ∧ OtCorrect c s r

end Yacl.OtKernel
