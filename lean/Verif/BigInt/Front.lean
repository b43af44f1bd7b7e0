/-
The `BigInt` class in front of the three integer libraries: math/bigint/bigint.{h,cc}, bigint_var.h,
bigint_spi.cc and the constructors of the libraries' Montgomery spaces.

A `BigInt` is a variant: a number of exactly one library.  The libraries' arithmetic is a parameter
(`Sem`); `realSem` fills in what C89 and C110 establish about it.
-/
import Verif.BigInt.BackendsArith
import Verif.Utils.Spi

namespace Yacl.BigInt.Front

open Yacl.Spi (Str lower)

/-- bigint_var.h L26-31: the alternatives of the variant. -/
inductive BLib | tommath | openssl | gmp
deriving DecidableEq, Repr

/-! ### The default library -/

/-- kLibName of the three libraries. -/
def BLib.name : BLib → Str
  | .tommath => "tommath".toList
  | .openssl => "openssl".toList
  | .gmp => "gmp".toList

/-- bigint_spi.cc L31-58 `RegisterBigIntLibs`, built with GMP support; GMP is found when the program runs
or not. -/
def registrations (gmpLoaded : Bool) : List (Str × Int × (Unit → Bool)) :=
  [("gmp".toList, 150, fun _ => gmpLoaded), ("openssl".toList, 200, fun _ => true),
    ("tommath".toList, 100, fun _ => true)]

/-- The library with a given name. -/
def byName (s : Str) : Option BLib :=
  if s = BLib.name .tommath then some .tommath
  else if s = BLib.name .openssl then some .openssl
  else if s = BLib.name .gmp then some .gmp else none

/-- `Instance().Create("", ArgLib = env)`: the argument is put in lower case; `none` is an exception. -/
def create (gmpLoaded : Bool) (env : Option Str) : Option BLib :=
  (Spi.registerAll (registrations gmpLoaded) Spi.new).bind fun f =>
    (Spi.pick f (env.map lower) ()).bind byName

/-- The two static variables of bigint_spi.cc L68 and L73. -/
structure Statics where
  lib : Option BLib := none
  env : Option (Option Str) := none

/-- bigint_spi.cc L67-82 `DefaultBigIntLib` at a time when the environment variable BIGINT_LIB has the given
value. -/
def defaultLib (gmpLoaded : Bool) (s : Statics) (envNow : Option Str) : Option BLib × Statics :=
  match s.lib with
  | some l => (some l, s)
  | none =>
    let e := match s.env with
      | some e => e
      | none => envNow
    match create gmpLoaded e with
    | some l => (some l, ⟨some l, some e⟩)
    | none => (none, ⟨none, some e⟩)

/-- A sequence of calls; between them the variable may change. -/
def defaultCalls (gmpLoaded : Bool) : Statics → List (Option Str) → List (Option BLib)
  | _, [] => []
  | s, e :: es => (defaultLib gmpLoaded s e).1 :: defaultCalls gmpLoaded (defaultLib gmpLoaded s e).2 es

/-! ### Numbers and operations -/

/-- bigint.h L22: a number of one of the libraries. -/
structure Num where
  lib : BLib
  v : Int
deriving DecidableEq, Repr

inductive BinOp | add | sub | mul | div | mod | gcd | lcm | invMod | and | or | xor
deriving DecidableEq, Repr
inductive TernOp | addMod | subMod | mulMod | powMod
deriving DecidableEq, Repr
inductive UnOp
  | neg | abs | pow (e : ℕ) | shl (k : ℕ) | shr (k : ℕ) | addW (w : ℕ) | subW (w : ℕ) | mulW (w : ℕ) | divW (w : ℕ)
  | setBit (i b : ℕ)
deriving DecidableEq, Repr
inductive CmpOp | lt | le | gt | ge | eq | ne
deriving DecidableEq, Repr

/-- The arithmetic of a library; `none` is an exception. -/
structure Sem where
  bin : BinOp → Int → Int → Option Int
  tern : TernOp → Int → Int → Int → Option Int
  un : UnOp → Int → Option Int

/-- What went wrong. -/
inductive Err
  /-- `YACL_THROW("BigInt inner type mismatch …")`. -/
  | mismatch
  /-- The library itself threw. -/
  | library
  /-- `YACL_ENFORCE(std::holds_alternative…)` of a Montgomery space. -/
  | wrongAlternative
deriving DecidableEq, Repr

def orLibrary {α : Type} : Option α → Except Err α
  | some x => .ok x
  | none => .error .library

variable (sem : BLib → Sem)

/-- bigint.cc L21-33 `ApplyBinaryOp` with a `BigInt` result. -/
def applyBinary (op : BinOp) (a b : Num) : Except Err Num :=
  if a.lib = b.lib then (orLibrary ((sem a.lib).bin op a.v b.v)).map fun r => ⟨a.lib, r⟩
  else .error .mismatch

/-- bigint.cc L35-49 `ApplyTernaryOp`. -/
def applyTernary (op : TernOp) (a b c : Num) : Except Err Num :=
  if a.lib = b.lib ∧ b.lib = c.lib then (orLibrary ((sem a.lib).tern op a.v b.v c.v)).map fun r => ⟨a.lib, r⟩
  else .error .mismatch

/-- bigint.cc L51-63 `ApplyCompAssignOp`: the new value of the left operand.  All constructors from other types
are explicit, so references convert only between equal types. -/
def applyCompAssign (op : BinOp) (a b : Num) : Except Err Num :=
  if a.lib = b.lib then (orLibrary ((sem a.lib).bin op a.v b.v)).map fun r => ⟨a.lib, r⟩
  else .error .mismatch

/-- bigint.cc L71-81, L270-335, L350-365: `std::visit` with one `BigInt`. -/
def visit (op : UnOp) (a : Num) : Except Err Num :=
  (orLibrary ((sem a.lib).un op a.v)).map fun r => ⟨a.lib, r⟩

/-- bigint.cc L392-414: comparisons of two `BigInt`s. -/
def compare (op : CmpOp) (a b : Num) : Except Err Bool :=
  if a.lib = b.lib then
    .ok (match op with
      | .lt => decide (a.v < b.v)
      | .le => decide (a.v ≤ b.v)
      | .gt => decide (b.v < a.v)
      | .ge => decide (b.v ≤ a.v)
      | .eq => decide (a.v = b.v)
      | .ne => decide (a.v ≠ b.v))
  else .error .mismatch

/-- bigint.cc L125-129 `RandomLtN`: drawn by the library of `n`; `draw` is the number drawn. -/
def randomLtN (n : Num) (draw : ℕ) : Except Err Num :=
  if n.v ≤ 0 then .error .library else .ok ⟨n.lib, draw % n.v⟩

/-- bigint.cc L131-137 `RandomExactBits(bit_size, r)`: the pointer version replaces the number by one of the
default library. -/
def randomExactBits (dflt : BLib) (bits draw : ℕ) : Num := ⟨dflt, draw % 2 ^ bits⟩

/-- bigint.cc L148-151 `CreateMontgomerySpace`, with the constructors {openssl,gmp,tommath}/mont_space.cc L20-42:
the default library takes its own numbers only. -/
def createMontgomerySpace (dflt : BLib) (mod : Num) : Except Err Int :=
  if mod.lib = dflt then .ok mod.v else .error .wrongAlternative

/-! ### Programs -/

/-- A call on the numbers in registers. -/
inductive Instr
  /-- `BigInt d(v)` (default library) or `BigInt d(v, lib)`. -/
  | new (d : ℕ) (v : Int) (lib : Option BLib)
  /-- `d = v` with a built-in number, bigint.h L68-71: the library stays. -/
  | set (d : ℕ) (v : Int)
  /-- `d = a`. -/
  | copy (d a : ℕ)
  /-- `d = a op b`. -/
  | bin (op : BinOp) (d a b : ℕ)
  /-- `d op= b`. -/
  | assign (op : BinOp) (d b : ℕ)
  | tern (op : TernOp) (d a b c : ℕ)
  | un (op : UnOp) (d a : ℕ)
  /-- `a op b`, an output. -/
  | cmp (op : CmpOp) (a b : ℕ)
  /-- `a.Serialize()` or another reading of the value, an output. -/
  | read (a : ℕ)
  | randLtN (d n draw : ℕ)
  | randBits (d bits draw : ℕ)
  /-- `CreateMontgomerySpace(a)`, whose modulus is an output. -/
  | mont (a : ℕ)
deriving Repr

abbrev Regs := ℕ → Num

def setReg (r : ℕ → α) (i : ℕ) (x : α) : ℕ → α := fun j => if j = i then x else r j

/-- One call: registers and outputs after it. -/
def step (dflt : BLib) (r : Regs) : Instr → Except Err (Regs × List Int)
  | .new d v l => .ok (setReg r d ⟨l.getD dflt, v⟩, [])
  | .set d v => .ok (setReg r d ⟨(r d).lib, v⟩, [])
  | .copy d a => .ok (setReg r d (r a), [])
  | .bin op d a b => (applyBinary sem op (r a) (r b)).map fun x => (setReg r d x, [])
  | .assign op d b => (applyCompAssign sem op (r d) (r b)).map fun x => (setReg r d x, [])
  | .tern op d a b c => (applyTernary sem op (r a) (r b) (r c)).map fun x => (setReg r d x, [])
  | .un op d a => (visit sem op (r a)).map fun x => (setReg r d x, [])
  | .cmp op a b => (compare op (r a) (r b)).map fun x => (r, [if x then 1 else 0])
  | .read a => .ok (r, [(r a).v])
  | .randLtN d n k => (randomLtN (r n) k).map fun x => (setReg r d x, [])
  | .randBits d bits k => .ok (setReg r d (randomExactBits dflt bits k), [])
  | .mont a => (createMontgomerySpace dflt (r a)).map fun m => (r, [m])

/-- A program: outputs and final registers. -/
def run (dflt : BLib) : Regs → List Instr → Except Err (Regs × List Int)
  | r, [] => .ok (r, [])
  | r, i :: p => match step sem dflt r i with
    | .error e => .error e
    | .ok (r', o) => (run dflt r' p).map fun q => (q.1, o ++ q.2)

/-- What C89 and C110 establish about the libraries' arithmetic: exact sums, differences and products, quotients
of MPInt and OpenSSL alike, floor quotients for GMP, remainders; every other operation is left open (`other`). -/
def realSem (other : BLib → Sem) (l : BLib) : Sem where
  bin
    | .add, a, b => some (a + b)
    | .sub, a, b => some (a - b)
    | .mul, a, b => some (a * b)
    | .div, a, b => match l with
      | .tommath => Yacl.MPInt.Arith.divide a b
      | .openssl => Back.bnDiv a b
      | .gmp => Back.gmpDiv a b
    | .mod, a, b => match l with
      | .tommath => Yacl.MPInt.Arith.modulo a b
      | .openssl => Back.bnRem a b
      | .gmp => Back.gmpRem a b
    | op, a, b => (other l).bin op a b
  tern := (other l).tern
  un
    | .neg, a => some (-a)
    | op, a => (other l).un op a

end Yacl.BigInt.Front
