import Mathlib.Logic.Function.Basic
/-! Model of `yacl::Buffer` (yacl/base/buffer.h): several buffers over one heap.

Pointers are allocation numbers; freshly allocated bytes hold arbitrary values (`junk`). `new` that runs out of memory and the
alignment of adopted memory are not modelled. A buffer that has not been constructed yet is a default constructed one. -/
namespace Yacl.Buf

abbrev Byte := BitVec 8

/-- buffer.h L29-32: the fields. `del` is `deleter_` (`none`: empty `std::function`, so `delete[]` is used). -/
structure Buf where
  ptr : Option Nat
  size : Int
  cap : Int
  del : Option Nat
deriving DecidableEq

/-- buffer.h L39 `Buffer() = default`. -/
def Buf.empty : Buf := ⟨none, 0, 0, none⟩

/-- The heap and all the buffers. `kind p` is how allocation `p` has to be freed (`none`: `delete[]`); `freed` logs the calls
of a deleter / `delete[]` in order; `released` the pointers handed back to the caller. -/
structure St where
  next : Nat
  mem : Nat → List Byte
  kind : Nat → Option Nat
  bufs : Nat → Buf
  freed : List (Option Nat × Option Nat)
  released : List Nat

def init : St := ⟨0, fun _ => [], fun _ => none, fun _ => Buf.empty, [], []⟩

/-- A new allocation with these contents, to be freed by `k`. Its pointer is the old `next`. -/
def St.alloc (s : St) (content : List Byte) (k : Option Nat) : St :=
  { s with next := s.next + 1, mem := Function.update s.mem s.next content, kind := Function.update s.kind s.next k }

def St.setBuf (s : St) (i : Nat) (b : Buf) : St := { s with bufs := Function.update s.bufs i b }

/-- buffer.h L181-191 `reset()` (and L80 the destructor). -/
def reset (s : St) (i : Nat) : St :=
  { s with freed := s.freed ++ [((s.bufs i).ptr, (s.bufs i).del)] }.setBuf i Buf.empty

/-- The first `n` bytes of `old` followed by arbitrary bytes up to length `len`. -/
def grown (old : List Byte) (n len : Nat) (junk : Nat → Byte) : List Byte :=
  old.take n ++ (List.range (len - (old.take n).length)).map junk

/-- Bytes behind `ptr_`. -/
def St.bytes (s : St) (b : Buf) : List Byte :=
  match b.ptr with
  | some p => s.mem p
  | none => []

/-- buffer.h L128-148 `resize(new_size)`. -/
def resize (s : St) (i : Nat) (n : Int) (junk : Nat → Byte) : St :=
  let b := s.bufs i
  if n ≤ b.cap then s.setBuf i { b with size := n }
  else
    let s1 := s.alloc (grown (s.bytes b) (min n b.size).toNat n.toNat junk) none
    (reset s1 i).setBuf i ⟨some s.next, n, n, none⟩

/-- buffer.h L150-171 `reserve(new_cap)`; `none` is the `YACL_ENFORCE`. -/
def reserve (s : St) (i : Nat) (n : Int) (junk : Nat → Byte) : Option St :=
  let b := s.bufs i
  if n < b.size then none
  else if n ≤ b.cap then some s
  else
    let s1 := s.alloc (grown (s.bytes b) b.size.toNat n.toNat junk) none
    some ((reset s1 i).setBuf i ⟨some s.next, b.size, n, none⟩)

/-- buffer.h L173-179 `release()`: the pointer goes to the caller; `deleter_` stays. -/
def release (s : St) (i : Nat) : St :=
  let b := s.bufs i
  { s with released := s.released ++ b.ptr.toList }.setBuf i { b with ptr := none, size := 0, cap := 0 }

/-- Overwrite the first bytes. -/
def over (l d : List Byte) : List Byte := d ++ l.drop d.length

/-- Writing bytes `d` at the start of the memory of buffer `i`. -/
def put (s : St) (i : Nat) (d : List Byte) : St :=
  match (s.bufs i).ptr with
  | some p => { s with mem := Function.update s.mem p (over (s.mem p) d) }
  | none => s

/-- The visible contents: `size_` bytes from `ptr_`. -/
def St.contents (s : St) (i : Nat) : List Byte := (s.bytes (s.bufs i)).take (s.bufs i).size.toNat

/-- buffer.h L83-89 copy assignment (and L82 copy construction). -/
def copyAssign (s : St) (i j : Nat) (junk : Nat → Byte) : St :=
  if i = j then s
  else put (resize s i (s.bufs j).size junk) i (s.contents j)

/-- buffer.h L92-100 move assignment (and L91 move construction): the fields are swapped. -/
def moveAssign (s : St) (i j : Nat) : St :=
  if i = j then s else (s.setBuf i (s.bufs j)).setBuf j (s.bufs i)

/-- buffer.h L40-53 `Buffer(size)` and `Buffer(size, cap)` on a fresh buffer; `none` is the `YACL_ENFORCE`. -/
def construct (s : St) (i : Nat) (size cap : Int) (junk : Nat → Byte) : Option St :=
  if 0 ≤ size ∧ size ≤ cap then
    some ((s.alloc ((List.range cap.toNat).map junk) none).setBuf i ⟨some s.next, size, cap, none⟩)
  else none

/-- buffer.h L61-66 `Buffer(ptr, size)` on a fresh buffer (and L58 from a byte container). -/
def constructCopy (s : St) (i : Nat) (d : List Byte) (junk : Nat → Byte) : St := put (resize s i d.length junk) i d

/-- buffer.h L70-78 `Buffer(ptr, size, deleter)`: takes over memory `d` that the caller allocated, to be freed by `k`
(`none`: an empty deleter, so the caller must have used `new[]`). -/
def adopt (s : St) (i : Nat) (d : List Byte) (k : Option Nat) : St :=
  (s.alloc d k).setBuf i ⟨some s.next, d.length, d.length, k⟩

/-- buffer.h L102-109 `data()[k] = v`. -/
def store (s : St) (i k : Nat) (v : Byte) : St :=
  match (s.bufs i).ptr with
  | some p => { s with mem := Function.update s.mem p ((s.mem p).set k v) }
  | none => s

/-- buffer.h L115-121 `operator==`: sizes, then `memcmp` over `size_` bytes of both. -/
def equal (s : St) (i j : Nat) : Bool :=
  if (s.bufs i).size ≠ (s.bufs j).size then false
  else decide ((s.bytes (s.bufs i)).take (s.bufs i).size.toNat = (s.bytes (s.bufs j)).take (s.bufs i).size.toNat)

/-- Calls a program can make. -/
inductive Call
  | construct (i : Nat) (size cap : Int) (junk : Nat → Byte)
  | constructCopy (i : Nat) (d : List Byte) (junk : Nat → Byte)
  | adopt (i : Nat) (d : List Byte) (k : Option Nat)
  | copyAssign (i j : Nat) (junk : Nat → Byte)
  | moveAssign (i j : Nat)
  | resize (i : Nat) (n : Int) (junk : Nat → Byte)
  | reserve (i : Nat) (n : Int) (junk : Nat → Byte)
  | release (i : Nat)
  | reset (i : Nat)
  | store (i k : Nat) (v : Byte)

/-- Calls allowed by the API: constructors on fresh buffers, no negative `resize`, stores inside the contents. -/
def Legal (s : St) : Call → Prop
  | .construct i .. | .constructCopy i .. | .adopt i .. => s.bufs i = Buf.empty
  | .resize _ n _ => 0 ≤ n
  | .store i k _ => (k : Int) < (s.bufs i).size
  | _ => True

/-- One call; a throwing call leaves everything as it was. -/
def step (s : St) : Call → St
  | .construct i size cap junk => (construct s i size cap junk).getD s
  | .constructCopy i d junk => constructCopy s i d junk
  | .adopt i d k => adopt s i d k
  | .copyAssign i j junk => copyAssign s i j junk
  | .moveAssign i j => moveAssign s i j
  | .resize i n junk => resize s i n junk
  | .reserve i n junk => (reserve s i n junk).getD s
  | .release i => release s i
  | .reset i => reset s i
  | .store i k v => store s i k v

end Yacl.Buf
