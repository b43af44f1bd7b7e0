/-! Model of the plaintext circuit executor (yacl/utils/circuit_executor.{h,cc}) and of the Bristol circuit reader
(yacl/io/circuit/bristol_fashion.{h,cc}). -/
namespace Yacl.Circuit

/-- How a call ends: normally, with an exception, or with undefined behaviour (an access outside a container). -/
inductive Res (α : Type)
  | ok (a : α)
  | throw
  | ub
deriving Repr, DecidableEq

def Res.bind {α β : Type} : Res α → (α → Res β) → Res β
  | .ok a, f => f a
  | .throw, _ => .throw
  | .ub, _ => .ub

instance : Monad Res where
  pure := .ok
  bind := Res.bind

/-- bristol_fashion.h L46 `enum class Op`. -/
inductive Op
  | xor | and | inv | eq | eqw | mand
deriving Repr, DecidableEq

/-- bristol_fashion.h L49-56 `Gate` (`niw`, `now` are the lengths of `iw`, `ow`, see the reader). -/
structure Gate where
  iw : List Nat
  ow : List Nat
  op : Op
deriving Repr, DecidableEq

/-- bristol_fashion.h L31-61 `BFCircuit`. -/
structure Circ where
  nw : Nat
  niw : List Nat
  now : List Nat
  gates : List Gate
deriving Repr, DecidableEq

/-- `wires_[i]` (dynamic_bitset.h): no bounds check in a release build. -/
def getW (ws : List Bool) (i : Nat) : Res Bool :=
  match ws[i]? with
  | some b => .ok b
  | none => .ub

/-- `wires_.set(i, b)`. -/
def setW (ws : List Bool) (i : Nat) (b : Bool) : Res (List Bool) := if i < ws.length then .ok (ws.set i b) else .ub

/-- `gate.iw[i]`, `gate.ow[i]` (`std::vector::operator[]`). -/
def idx (l : List Nat) (i : Nat) : Res Nat :=
  match l[i]? with
  | some n => .ok n
  | none => .ub

/-- circuit_executor.cc L31 `PlaintextCore::xor_gate`. -/
def xorGate (x y : Bool) : Bool := x != y
/-- circuit_executor.cc L32 `PlaintextCore::and_gate`. -/
def andGate (x y : Bool) : Bool := x && y
/-- circuit_executor.cc L33 `PlaintextCore::inv_gate`. -/
def invGate (x : Bool) : Bool := !x

/-- circuit_executor.cc L66-101: one turn of the loop of `Exec`. -/
def execGate (ws : List Bool) (g : Gate) : Res (List Bool) :=
  match g.op with
  | .xor => do
    let x ← getW ws (← idx g.iw 0)
    let y ← getW ws (← idx g.iw 1)
    setW ws (← idx g.ow 0) (xorGate x y)
  | .and => do
    let x ← getW ws (← idx g.iw 0)
    let y ← getW ws (← idx g.iw 1)
    setW ws (← idx g.ow 0) (andGate x y)
  | .inv => do
    let x ← getW ws (← idx g.iw 0)
    setW ws (← idx g.ow 0) (invGate x)
  | .eq => do
    let c ← idx g.iw 0
    setW ws (← idx g.ow 0) (c != 0)
  | .eqw => do
    let x ← getW ws (← idx g.iw 0)
    setW ws (← idx g.ow 0) x
  | .mand => .throw

/-- The loop over the gates. -/
def execGates : List Gate → List Bool → Res (List Bool)
  | [], ws => .ok ws
  | g :: gs, ws => do
    let ws ← execGate ws g
    execGates gs ws

/-- circuit_executor.cc L64-102 `Exec`. -/
def exec (c : Circ) (ws : List Bool) : Res (List Bool) := execGates c.gates ws

/-- `dynamic_bitset::resize(n)`: truncates, or pads with zeros. -/
def resize (ws : List Bool) (n : Nat) : List Bool := ws.take n ++ List.replicate (n - ws.length) false

/-- The bits of a byte / of a `T` of `w` bits, least significant first (little-endian memory). -/
def bitsOf (w : Nat) (x : BitVec w) : List Bool := (List.range w).map x.getLsbD

/-- circuit_executor.cc L43-51 `SetupInputs(ByteContainerView)`. `std::accumulate` sums the `niw` in a `uint32_t`. The
`memcpy` into wires that are fewer than the input bits is undefined. -/
def setupBytes (c : Circ) (ws : List Bool) (bytes : List (BitVec 8)) : Res (List Bool) :=
  if c.niw.sum % 2 ^ 32 = bytes.length * 8 then
    let ws := resize ws c.nw
    if bytes.length * 8 ≤ ws.length then
      .ok (bytes.flatMap (bitsOf 8) ++ ws.drop (bytes.length * 8))
    else .ub
  else .throw

/-- circuit_executor.cc L53-62 `SetupInputs(Span<T>)`: the inputs are appended to the wires, then the wires are resized. -/
def setupSpan {w : Nat} (c : Circ) (ws : List Bool) (inputs : List (BitVec w)) : Res (List Bool) :=
  if inputs.length = c.niw.length then .ok (resize (ws ++ inputs.flatMap (bitsOf w)) c.nw) else .throw

/-- The 8 wires below `index`. -/
def wiresBelow (ws : List Bool) (n index : Nat) : Res (List Bool) :=
  if n ≤ index ∧ index ≤ ws.length then .ok ((ws.drop (index - n)).take n) else .ub

/-- Bits (least significant first) to a number. -/
def bitsNat : List Bool → Nat
  | [] => 0
  | b :: bs => b.toNat + 2 * bitsNat bs

/-- The block of a `dynamic_bitset` holding these bits. -/
def ofBits (w : Nat) (bs : List Bool) : BitVec w := BitVec.ofNat w (bitsNat bs)

/-- circuit_executor.cc L114-122: the loop of `Finalize()`; byte `i` goes to place `out_size - i - 1`, so the list is built
from its end. -/
def finalizeLoop (ws : List Bool) : Nat → Nat → List (BitVec 8) → Res (List (BitVec 8))
  | 0, _, out => .ok out
  | n + 1, index, out => do
    let bs ← wiresBelow ws 8 index
    finalizeLoop ws n (index - 8) (ofBits 8 bs :: out)

/-- circuit_executor.cc L104-125 `Finalize()`. -/
def finalizeBytes (c : Circ) (ws : List Bool) : Res (List (BitVec 8)) := do
  let out ← finalizeLoop ws ((c.now.sum + 7) / 8) ws.length []
  return out.reverse

/-- circuit_executor.cc L133-141: the loop of `Finalize(Span<T>)` over `now` in order, filling the outputs from the end;
an output of no wires dereferences an empty vector. -/
def finalizeSpanLoop (w : Nat) (ws : List Bool) : List Nat → Nat → List (BitVec w) → Res (List (BitVec w))
  | [], _, out => .ok out
  | n :: now, index, out => do
    let bs ← wiresBelow ws n index
    if n = 0 then .ub else finalizeSpanLoop w ws now (index - n) (ofBits w bs :: out)

/-- circuit_executor.cc L127-142 `Finalize(Span<T>)` with a span of `nov` elements. -/
def finalizeSpan (w : Nat) (c : Circ) (ws : List Bool) : Res (List (BitVec w)) :=
  if c.now.all (· ≤ w) then finalizeSpanLoop w ws c.now ws.length [] else .throw

/-! ### Reader -/

/-- An input stream: the characters left and the end-of-file flag. -/
structure Stream where
  rest : List Char
  eof : Bool

/-- The characters before the first line feed, those after it, and whether there is one. -/
def splitLine : List Char → List Char × List Char × Bool
  | [] => ([], [], false)
  | c :: cs => if c = '\n' then ([], cs, true) else
    let (a, b, f) := splitLine cs
    (c :: a, b, f)

/-- file_io.cc L58-68 `GetLine(&ret)`: `std::getline` on a stream at end of file fails before touching `ret`, and the
exception is swallowed. -/
def getLine (s : Stream) (ret : List Char) : Stream × List Char :=
  if s.eof then (s, ret)
  else
    let (l, r, f) := splitLine s.rest
    (⟨r, !f⟩, l)

/-- `absl::StrSplit(line, ' ')`. -/
def splitSp : List Char → List (List Char)
  | [] => [[]]
  | c :: cs =>
    if c = ' ' then [] :: splitSp cs
    else match splitSp cs with
      | [] => [[c]]
      | t :: ts => (c :: t) :: ts

/-- ASCII white space (`absl::ascii_isspace`). -/
def isSpace (c : Char) : Bool := c = ' ' || c = '\t' || c = '\n' || c = '\x0b' || c = '\x0c' || c = '\r'

/-- Decimal digits to a number. -/
def digitsVal : List Char → Nat → Option Nat
  | [], acc => some acc
  | c :: cs, acc => if '0' ≤ c ∧ c ≤ '9' then digitsVal cs (acc * 10 + (c.toNat - '0'.toNat)) else none

/-- `absl::SimpleAtoi<uint32_t>`: surrounding white space and a leading `+` are skipped; at least one digit; no overflow. -/
def atoi (s : List Char) : Option Nat :=
  let t := ((s.dropWhile isSpace).reverse.dropWhile isSpace).reverse
  let t := if t.head? = some '+' then t.tail else t
  if t = [] then none
  else match digitsVal t 0 with
    | some n => if n < 2 ^ 32 then some n else none
    | none => none

/-- `YACL_ENFORCE(absl::SimpleAtoi(...))`. -/
def atoiE (s : List Char) : Res Nat :=
  match atoi s with
  | some n => .ok n
  | none => .throw

/-- `splits[i]` of a `std::vector`. -/
def tok (l : List (List Char)) (i : Nat) : Res (List Char) :=
  match l[i]? with
  | some t => .ok t
  | none => .ub

/-- The numbers in `splits[from .. from + n)`. -/
def numbers (l : List (List Char)) : Nat → Nat → Res (List Nat)
  | _, 0 => .ok []
  | start, n + 1 => do
    let x ← atoiE (← tok l start)
    let xs ← numbers l (start + 1) n
    return x :: xs

/-- bristol_fashion.cc L57-69, L71-83: a line `n a1 .. an`; `n + 1` is computed in 32 bits. -/
def countedLine (ret : List Char) : Res (List Nat) := do
  let sp := splitSp ret
  let n ← atoiE (← tok sp 0)
  if (n + 1) % 2 ^ 32 ≤ sp.length then numbers sp 1 n else .throw

/-- bristol_fashion.cc L122-150: the operation and its arity. -/
def gateOp (s : List Char) (niw now : Nat) : Res Op :=
  if s = ['X', 'O', 'R'] then (if now = 1 ∧ niw = 2 then .ok .xor else .throw)
  else if s = ['A', 'N', 'D'] then (if now = 1 ∧ niw = 2 then .ok .and else .throw)
  else if s = ['I', 'N', 'V'] then (if now = 1 ∧ niw = 1 then .ok .inv else .throw)
  else if s = ['E', 'Q'] then (if now = 1 ∧ niw = 1 then .ok .eq else .throw)
  else if s = ['E', 'Q', 'W'] then (if now = 1 ∧ niw = 1 then .ok .eqw else .throw)
  else if s = ['M', 'A', 'N', 'D'] then (if niw = now * 2 % 2 ^ 32 then .ok .mand else .throw)
  else .throw

/-- bristol_fashion.cc L104-150: one gate line; `niw + now + 2` is computed in 32 bits. -/
def gateLine (ret : List Char) : Res Gate := do
  let sp := splitSp ret
  let niw ← atoiE (← tok sp 0)
  let now ← atoiE (← tok sp 1)
  if (niw + now + 2) % 2 ^ 32 < sp.length then
    let iw ← numbers sp 2 niw
    let ow ← numbers sp ((2 + niw) % 2 ^ 32) now
    let op ← gateOp (← tok sp ((niw + now + 2) % 2 ^ 32)) niw now
    return ⟨iw, ow, op⟩
  else .throw

/-- bristol_fashion.cc L101-151: the loop over the gates; `ret` keeps its contents between lines. -/
def readGates : Nat → Stream → List Char → Res (List Gate)
  | 0, _, _ => .ok []
  | n + 1, s, ret => do
    let (s, ret) := getLine s ret
    let g ← gateLine ret
    let gs ← readGates n s ret
    return g :: gs

/-- bristol_fashion.cc L40-152 `ReadMeta` and `ReadAllGates` on a file with these contents. The stream position is saved and
restored in between, which clears the end-of-file flag. -/
def readCircuit (file : List Char) : Res Circ := do
  let (s, ret) := getLine ⟨file, false⟩ []
  let sp := splitSp ret
  if sp.length = 2 then
    let ng ← atoiE (← tok sp 0)
    let nw ← atoiE (← tok sp 1)
    let (s, ret) := getLine s ret
    let niw ← countedLine ret
    let (s, ret) := getLine s ret
    let now ← countedLine ret
    let (s, ret) := getLine ⟨s.rest, false⟩ []
    let gates ← readGates ng s ret
    return ⟨nw, niw, now, gates⟩
  else .throw

/-! ### SHA-256 input -/

/-- bristol_fashion.cc L155-159 `GetSha256InitialHashValues`. -/
def sha256Init : List (BitVec 8) :=
  [0x19, 0xcd, 0xe0, 0x5b, 0xab, 0xd9, 0x83, 0x1f, 0x8c, 0x68, 0x05,
   0x9b, 0x7f, 0x52, 0x0e, 0x51, 0x3a, 0xf5, 0x4f, 0xa5, 0x72, 0xf3,
   0x6e, 0x3c, 0x85, 0xae, 0x67, 0xbb, 0x67, 0xe6, 0x09, 0x6a]

/-- Overwrite `l` from `off` with `d` (a `memcpy`; undefined when it does not fit). -/
def blit (l : List (BitVec 8)) (off : Nat) (d : List (BitVec 8)) : Res (List (BitVec 8)) :=
  if off + d.length ≤ l.length then .ok (l.take off ++ d ++ l.drop (off + d.length)) else .ub

/-- Little-endian bytes. -/
def le : Nat → Nat → List (BitVec 8)
  | 0, _ => []
  | k + 1, n => BitVec.ofNat 8 n :: le k (n / 256)

/-- bristol_fashion.cc L162-211 `PrepareSha256Input`. -/
def prepareSha256Input (input : List (BitVec 8)) : Res (List (BitVec 8)) := do
  let n := input.length
  let zp := if (n + 1 + 8) % 64 = 0 then 0 else 64 - (n + 1 + 8) % 64
  let msg := n + 1 + zp + 8
  if msg = 64 then
    let r := List.replicate (msg + sha256Init.length) (0 : BitVec 8)
    let r ← blit r 0 (le 8 (n * 8))
    let off := 8 + zp
    let r ← blit r off [0x80]
    let off := off + 1
    let r ← blit r off input.reverse
    blit r (off + n) sha256Init
  else .throw

end Yacl.Circuit
