/-! Model of the SPI container `Item` and of the element-wise calls built on it: yacl/utils/spi/item.h, item.cc,
yacl/utils/spi/sketch/scalar_call.h, scalar_define.h, yacl/math/galois_field/factory/gf_scalar.h. Property C124.

Left out: `ToString`, moving out of an item, `std::vector<bool>` packing, user-defined slots of the meta byte. -/
namespace Verif.Item

/-- How a call ends: normally, with an exception, or with undefined behaviour (a null pointer used). -/
inductive Res (α : Type)
  | ok (a : α)
  | throws
  | ub
deriving DecidableEq, Repr

def Res.bind {α β : Type} (r : Res α) (k : α → Res β) : Res β :=
  match r with
  | .ok a => k a
  | .throws => .throws
  | .ub => .ub

variable {T : Type}

/-- The arrays in memory that hold values of type `T`: `cell id k` is element `k` of array `id` (`none` beyond its end);
`next` is an array number not used so far. A `std::vector<T>` and whatever memory an `absl::Span<T>` points into are arrays. -/
structure Mem (T : Type) where
  cell : Nat → Nat → Option T
  next : Nat

/-- An item whose data are not of the library's type `T` is `foreign`. For items of `T`: a scalar (held by value), or an
array: the elements `off .. off + len` of array `id`, owned (`view = false`, then `off = 0` and all of the array) or not, and
read-only or not. Models `v_` and `meta_` (item.h L542-548). -/
inductive Item (T : Type)
  | scalar (v : T)
  | array (id off len : Nat) (view ro : Bool)
  | foreign (isArray view ro : Bool)

/-- item.h L381 `IsArray`. -/
def Item.isArray : Item T → Bool
  | .scalar _ => false
  | .array .. => true
  | .foreign a _ _ => a

/-- item.h L383 `IsReadOnly`. -/
def Item.isReadOnly : Item T → Bool
  | .scalar _ => false
  | .array _ _ _ _ ro => ro
  | .foreign _ _ ro => ro

/-- A span: where it starts and how many elements it has. -/
structure Span where
  id : Nat
  off : Nat
  len : Nat
deriving DecidableEq, Repr

/-- item.h L224-251 `AsSpan<T>() const` of an array item: a type mismatch is an exception. (The callers below use it for array
items only.) -/
def asConstSpan : Item T → Res Span
  | .array id off len _ _ => .ok ⟨id, off, len⟩
  | _ => .throws

/-- item.h L188-222 `AsSpan<T>()` with a non-const `T` of an array item: refused for read-only data. -/
def asSpan : Item T → Res Span
  | .array id off len _ ro => if ro then .throws else .ok ⟨id, off, len⟩
  | _ => .throws

/-- item.h L163-173 `As<T>() const`: the scalar, or an exception. -/
def asScalar : Item T → Res T
  | .scalar v => .ok v
  | _ => .throws

/-- item.h L175-186 `As<T*>()` of a scalar item: `std::any_cast` with a pointer argument does not throw, it returns a null
pointer on a type mismatch. The element functions then use the pointer. -/
def asPointer : Item T → Res T
  | .scalar v => .ok v
  | _ => .ub

/-- A new array with the given elements. -/
def Mem.alloc (m : Mem T) (l : List T) : Mem T × Nat :=
  (⟨fun id k => if id = m.next then l[k]? else m.cell id k, m.next + 1⟩, m.next)

/-- `a[k] = v`. -/
def Mem.write (m : Mem T) (id k : Nat) (v : T) : Mem T :=
  ⟨fun i j => if i = id ∧ j = k then some v else m.cell i j, m.next⟩

/-- The elements of a span, in order. -/
def Mem.read (m : Mem T) (s : Span) : List T := (List.range s.len).filterMap (fun k => m.cell s.id (s.off + k))

/-- How `parallel_for` ran: which task got which index, and the order in which the elements were reached overall. A task that
throws does not go on; the others do. -/
structure Sched where
  task : Nat → Nat
  order : List Nat

/-- State of a parallel loop that fills `res` (`none`: not written so far); `failed`: the tasks that have thrown. -/
structure LoopSt (R : Type) where
  out : Nat → Option R
  failed : List Nat

/-- Loop body of scalar_call.h L32-36, L81-85: `res[i] = FuncName(...)`; `f i = none` means it throws. -/
def loopStep {R : Type} (sch : Sched) (f : Nat → Option R) (st : LoopSt R) (i : Nat) : LoopSt R :=
  if sch.task i ∈ st.failed then st
  else match f i with
    | some v => ⟨fun j => if j = i then some v else st.out j, st.failed⟩
    | none => ⟨st.out, sch.task i :: st.failed⟩

/-- The whole loop: the results, or the exception that `parallel_for` rethrows. -/
def runLoop {R : Type} (sch : Sched) (f : Nat → Option R) (n : Nat) : Res (List R) :=
  let st := sch.order.foldl (loopStep sch f) ⟨fun _ => none, []⟩
  if st.failed = [] then .ok ((List.range n).filterMap st.out) else .throws

/-- scalar_call.h L24-41 `CallUnaryFunc`. -/
def callUnary (sch : Sched) (f : T → Option T) (m : Mem T) (x : Item T) : Res (Mem T × Item T) :=
  if x.isArray then
    (asConstSpan x).bind fun xs =>
    (runLoop sch (fun i => (m.cell xs.id (xs.off + i)).bind f) xs.len).bind fun l =>
    let (m', id) := m.alloc l
    .ok (m', .array id 0 l.length false false)
  else
    (asScalar x).bind fun v =>
    match f v with
    | some w => .ok (m, .scalar w)
    | none => .throws

/-- scalar_define.h L23-42 `DefineBoolUnaryFunc`: one boolean, or one per element. -/
def callBool (sch : Sched) (f : T → Bool) (m : Mem T) (x : Item T) : Res (Bool ⊕ List Bool) :=
  if x.isArray then
    (asConstSpan x).bind fun xs =>
    (runLoop sch (fun i => (m.cell xs.id (xs.off + i)).map f) xs.len).bind fun l => .ok (.inr l)
  else
    (asScalar x).bind fun v => .ok (.inl (f v))

/-- scalar_call.h L62-92 `CallBinaryFunc`. -/
def callBinary (sch : Sched) (f : T → T → Option T) (m : Mem T) (x y : Item T) : Res (Mem T × Item T) :=
  match x.isArray, y.isArray with
  | false, false =>
    (asScalar x).bind fun a => (asScalar y).bind fun b =>
    match f a b with
    | some c => .ok (m, .scalar c)
    | none => .throws
  | true, true =>
    (asConstSpan x).bind fun xs => (asConstSpan y).bind fun ys =>
    if xs.len = ys.len then
      (runLoop sch (fun i => (m.cell xs.id (xs.off + i)).bind fun a => (m.cell ys.id (ys.off + i)).bind fun b => f a b)
        xs.len).bind fun l =>
      let (m', id) := m.alloc l
      .ok (m', .array id 0 l.length false false)
    else .throws
  | _, _ => .throws

/-- State of an in-place loop: the memory, and the tasks that have thrown. -/
structure InpSt (T : Type) where
  mem : Mem T
  failed : List Nat

/-- Loop body of scalar_call.h L50-54, L111-115: `FuncName(&xsp[i], ...)`; `g m i` is the new value. -/
def inpStep (sch : Sched) (xs : Span) (g : Mem T → Nat → Option T) (st : InpSt T) (i : Nat) : InpSt T :=
  if sch.task i ∈ st.failed then st
  else match g st.mem i with
    | some v => ⟨st.mem.write xs.id (xs.off + i) v, st.failed⟩
    | none => ⟨st.mem, sch.task i :: st.failed⟩

/-- The whole in-place loop: the memory afterwards and whether an exception is rethrown. -/
def runInp (sch : Sched) (xs : Span) (g : Mem T → Nat → Option T) (m : Mem T) : Mem T × Bool :=
  let st := sch.order.foldl (inpStep sch xs g) ⟨m, []⟩
  (st.mem, st.failed ≠ [])

/-- What an in-place call leaves behind: how it ended, the memory and the item. -/
structure Inp (T : Type) where
  res : Res Unit
  mem : Mem T
  item : Item T

/-- scalar_call.h L46-58 `CallUnaryInplaceFunc`. -/
def callUnaryInplace (sch : Sched) (f : T → Option T) (m : Mem T) (x : Item T) : Inp T :=
  if x.isArray then
    match asSpan x with
    | .ok xs =>
      let (m', bad) := runInp sch xs (fun m i => (m.cell xs.id (xs.off + i)).bind f) m
      ⟨if bad then .throws else .ok (), m', x⟩
    | .throws => ⟨.throws, m, x⟩
    | .ub => ⟨.ub, m, x⟩
  else
    match asPointer x with
    | .ok v => match f v with
      | some w => ⟨.ok (), m, .scalar w⟩
      | none => ⟨.throws, m, x⟩
    | .throws => ⟨.throws, m, x⟩
    | .ub => ⟨.ub, m, x⟩

/-- scalar_call.h L96-123 `CallBinaryInplaceFunc`. In the scalar case the pointer is formed first, but it is used only after
the other operand was converted. -/
def callBinaryInplace (sch : Sched) (f : T → T → Option T) (m : Mem T) (x y : Item T) : Inp T :=
  match x.isArray, y.isArray with
  | false, false =>
    match asScalar y with
    | .ok b => match asPointer x with
      | .ok a => match f a b with
        | some c => ⟨.ok (), m, .scalar c⟩
        | none => ⟨.throws, m, x⟩
      | .throws => ⟨.throws, m, x⟩
      | .ub => ⟨.ub, m, x⟩
    | .throws => ⟨.throws, m, x⟩
    | .ub => ⟨.ub, m, x⟩
  | true, true =>
    match asSpan x, asConstSpan y with
    | .ok xs, .ok ys =>
      if xs.len = ys.len then
        let (m', bad) := runInp sch xs
          (fun m i => (m.cell xs.id (xs.off + i)).bind fun a => (m.cell ys.id (ys.off + i)).bind fun b => f a b) m
        ⟨if bad then .throws else .ok (), m', x⟩
      else ⟨.throws, m, x⟩
    | _, _ => ⟨.throws, m, x⟩
  | _, _ => ⟨.throws, m, x⟩

/-- Loop body of gf_scalar.h L106-117 and item.h L526-538: the flag is read before each comparison. -/
def flagStep (p : Nat → Bool) (flag : Bool) (i : Nat) : Bool := if !flag then flag else if !(p i) then false else flag

/-- gf_scalar.h L93-125 `Equal(Item, Item)`. -/
def equalItems (order : List Nat) (eq : T → T → Bool) (m : Mem T) (x y : Item T) : Res Bool :=
  match x.isArray, y.isArray with
  | false, false => (asScalar x).bind fun a => (asScalar y).bind fun b => .ok (eq a b)
  | true, true =>
    (asConstSpan x).bind fun xs => (asConstSpan y).bind fun ys =>
    if xs.len ≠ ys.len then .ok false
    else .ok (order.foldl (flagStep fun i =>
      match m.cell xs.id (xs.off + i), m.cell ys.id (ys.off + i) with
      | some a, some b => eq a b
      | _, _ => false) true)
  | _, _ => .ok false

/-- item.h L525-540, L553-559 `IsAll(element)`: a scalar counts as one element. -/
def isAll [DecidableEq T] (order : List Nat) (m : Mem T) (x : Item T) (e : T) : Res Bool :=
  match x with
  | .scalar v => .ok (v = e)
  | .array id off _ _ _ => .ok (order.foldl (flagStep fun i => m.cell id (off + i) = some e) true)
  | .foreign .. => .throws

/-- `absl::Span::subspan(pos, len)`: throws if `pos` is beyond the end; the length is cut. -/
def subspan (s : Span) (pos len : Nat) : Res Span :=
  if s.len < pos then .throws else .ok ⟨s.id, s.off + pos, min (s.len - pos) len⟩

/-- item.h L429-445, L486-522 `SubItem<T>` (`constCall`: of a const item, or with a const `T`): always a view; read-only if
the item is or the call is. -/
def subItem (x : Item T) (pos len : Nat) (constCall : Bool) : Res (Item T) :=
  match x with
  | .scalar _ => .throws
  | .foreign .. => .throws
  | .array id off n _ ro =>
    (subspan ⟨id, off, n⟩ pos len).bind fun s => .ok (.array s.id s.off s.len true (ro || constCall))

/-- item.h L304-361 `ResizeAndSpan<T>(n)`: memory and item afterwards, and the writable span. `dflt` is `T()`. A vector that
grows is moved to new memory (its capacity is not modelled). -/
def resizeAndSpan (dflt : T) (m : Mem T) (x : Item T) (n : Nat) : Res (Mem T × Item T × Span) :=
  match x with
  | .scalar v =>
    let (m', id) := m.alloc ((List.replicate n dflt).set 0 v)
    .ok (m', .array id 0 n false false, ⟨id, 0, n⟩)
  | .foreign false _ _ =>
    let (m', id) := m.alloc (List.replicate n dflt)
    .ok (m', .array id 0 n false false, ⟨id, 0, n⟩)
  | .array id off len false ro =>
    if len < n then
      let (m', id') := m.alloc (m.read ⟨id, off, len⟩ ++ List.replicate (n - len) dflt)
      .ok (m', .array id' 0 n false ro, ⟨id', 0, n⟩)
    else .ok (m, x, ⟨id, off, n⟩)
  | .foreign true false ro =>
    let (m', id) := m.alloc (List.replicate n dflt)
    .ok (m', .array id 0 n false ro, ⟨id, 0, n⟩)
  | .array id off len true ro =>
    if ro then .throws
    else if len = n then .ok (m, x, ⟨id, off, len⟩)
    else if n < len then .ok (m, x, ⟨id, off, n⟩)
    else .throws
  | .foreign true true _ => .throws

end Verif.Item
