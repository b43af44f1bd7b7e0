import Verif.Int128.Model
/-! Model of the serializer (yacl/utils/serializer.h, serializer_adapter.h, yacl/io/msgpack/buffer.h, spec_traits.cc).

The third-party library msgpack-c (its `packer`, `unpack` and integer/container `convert`) is modelled from the msgpack
format, see the trusted base in DESIGN.md. Floating point, `std::map` and `nil` are left out. -/
namespace Yacl.Msgpack

abbrev Byte := BitVec 8
abbrev Bytes := List Byte

/-- The C++ types handled: `bool`, `intN_t`, `uintN_t`, `int128_t`, `uint128_t`, `std::string`, `Buffer` /
`ByteContainerView`, `std::vector<T>`, `std::pair<A, B>`. -/
inductive Ty
  | bool
  | sint (bits : Nat)
  | uint (bits : Nat)
  | i128
  | u128
  | str
  | bin
  | vec (t : Ty)
  | pair (a b : Ty)
deriving Repr, DecidableEq

/-- The values of a type. Integers are their bit patterns. -/
def Ty.den : Ty → Type
  | .bool => Bool
  | .sint n => BitVec n
  | .uint n => BitVec n
  | .i128 => BitVec 128
  | .u128 => BitVec 128
  | .str => Bytes
  | .bin => Bytes
  | .vec t => List t.den
  | .pair a b => a.den × b.den

/-- The types C++ has: integer widths are 8, 16, 32 or 64. -/
def Ty.Ok : Ty → Prop
  | .sint n => n = 8 ∨ n = 16 ∨ n = 32 ∨ n = 64
  | .uint n => n = 8 ∨ n = 16 ∨ n = 32 ∨ n = 64
  | .vec t => t.Ok
  | .pair a b => a.Ok ∧ b.Ok
  | _ => True

/-- Big-endian bytes of `n`, `k` of them (msgpack `_msgpack_store16/32/64`). -/
def be : Nat → Nat → Bytes
  | 0, _ => []
  | k + 1, n => be k (n / 256) ++ [BitVec.ofNat 8 n]

/-- Value of big-endian bytes. -/
def beVal (bs : Bytes) : Nat := bs.foldl (fun a b => a * 256 + b.toNat) 0

/-- One call of `stream.write(ptr, len)`. -/
abbrev Write := Bytes

/-- msgpack-c `packer::pack_imp_uint64` (and the narrower ones): the shortest encoding. -/
def packUint (n : Nat) : Write :=
  if n < 128 then [BitVec.ofNat 8 n]
  else if n < 256 then 0xcc :: be 1 n
  else if n < 65536 then 0xcd :: be 2 n
  else if n < 2 ^ 32 then 0xce :: be 4 n
  else 0xcf :: be 8 n

/-- msgpack-c `packer::pack_imp_int64` (and the narrower ones). -/
def packInt (i : Int) : Write :=
  if i < -32 then
    if i < -2 ^ 15 then
      if i < -2 ^ 31 then 0xd3 :: be 8 (i % 2 ^ 64).toNat else 0xd2 :: be 4 (i % 2 ^ 32).toNat
    else if i < -2 ^ 7 then 0xd1 :: be 2 (i % 2 ^ 16).toNat else 0xd0 :: be 1 (i % 2 ^ 8).toNat
  else if i < 0 then [BitVec.ofNat 8 (i % 256).toNat]
  else packUint i.toNat

/-- msgpack-c `packer::pack_str(l)`. -/
def packStrHead (l : Nat) : Write :=
  if l < 32 then [BitVec.ofNat 8 (0xa0 + l)]
  else if l < 256 then 0xd9 :: be 1 l
  else if l < 65536 then 0xda :: be 2 l
  else 0xdb :: be 4 l

/-- msgpack-c `packer::pack_bin(l)`. -/
def packBinHead (l : Nat) : Write :=
  if l < 256 then 0xc4 :: be 1 l
  else if l < 65536 then 0xc5 :: be 2 l
  else 0xc6 :: be 4 l

/-- msgpack-c `packer::pack_array(n)`. -/
def packArrayHead (n : Nat) : Write :=
  if n < 16 then [BitVec.ofNat 8 (0x90 + n)]
  else if n < 65536 then 0xdc :: be 2 n
  else 0xdd :: be 4 n

/-- msgpack-c `checked_get_container_size`: sizes above 2^32 - 1 throw (`none`). -/
def checkedSize (n : Nat) : Option Nat := if n < 2 ^ 32 then some n else none

/-- Concatenate the writes of the elements; an exception in one of them ends the call. -/
def packAll {α : Type} (f : α → Option (List Write)) : List α → Option (List Write)
  | [] => some []
  | x :: xs => do
    let a ← f x
    let b ← packAll f xs
    return a ++ b

/-- `msgpack::pack(stream, obj)`: the sequence of writes. The 128-bit integers, `ByteContainerView` and `Buffer` follow
serializer_adapter.h L28-36, L50-58, L72-80, L98-106; the rest is msgpack-c. -/
def pack : (t : Ty) → t.den → Option (List Write)
  | .bool, (b : Bool) => some [[if b then 0xc3 else 0xc2]]
  | .sint _, v => some [packInt v.toInt]
  | .uint _, v => some [packUint v.toNat]
  | .i128, v =>
    let p := Int128.decomposeInt128 v
    some [packArrayHead 2, packInt p.1.toInt, packUint p.2.toNat]
  | .u128, v =>
    let p := Int128.decomposeUInt128 v
    some [packArrayHead 2, packUint p.1.toNat, packUint p.2.toNat]
  | .str, s => do
    let n ← checkedSize s.length
    return [packStrHead n, s]
  | .bin, s => do
    let n ← checkedSize s.length
    return [packBinHead n, s]
  | .vec t, xs => do
    let n ← checkedSize xs.length
    let body ← packAll (pack t) xs
    return packArrayHead n :: body
  | .pair a b, (x, y) => do
    let p ← pack a x
    let q ← pack b y
    return packArrayHead 2 :: (p ++ q)

/-- The values of a list of types (the parameter pack `Ts...`). -/
inductive Vars : List Ty → Type
  | nil : Vars []
  | cons {t ts} : t.den → Vars ts → Vars (t :: ts)

/-- `(..., msgpack::pack(sbuf, obj))`: all the writes for the variables in turn. -/
def packVars : {ts : List Ty} → Vars ts → Option (List Write)
  | _, .nil => some []
  | _, .cons (t := t) v vs => do
    let a ← pack t v
    let b ← packVars vs
    return a ++ b

/-- buffer.h L21-49 `StreamBuffer`: the buffer grows. -/
def streamWrite (buf : Bytes) (w : Write) : Bytes := buf ++ w

/-- serializer.h L68-75 `SerializeVars`. -/
def serializeVars {ts : List Ty} (vs : Vars ts) : Option Bytes := do
  let ws ← packVars vs
  return ws.foldl streamWrite []

/-- buffer.h L51-82 `FixedBuffer`: the memory behind `buf_` (of `buf_len_` bytes) and `pos_`. -/
structure Fixed where
  mem : Bytes
  pos : Nat

/-- buffer.h L55-64 `FixedBuffer::write`; `none` is the `YACL_ENFORCE`. -/
def fixedWrite (f : Fixed) (w : Write) : Option Fixed :=
  if f.pos + w.length ≤ f.mem.length then
    some ⟨f.mem.take f.pos ++ w ++ f.mem.drop (f.pos + w.length), f.pos + w.length⟩
  else none

/-- buffer.h L87-96 `ShadowBuffer::write`. -/
def shadowWrite (size : Nat) (w : Write) : Nat := size + w.length

/-- serializer.h L79-86 `SerializeVarsTo(nullptr, 0, ...)`. -/
def serializedSize {ts : List Ty} (vs : Vars ts) : Option Nat := do
  let ws ← packVars vs
  return ws.foldl shadowWrite 0

/-- serializer.h L79-91 `SerializeVarsTo(buf, buf_len, ...)` with a non-null buffer: new contents and returned size. -/
def serializeVarsTo {ts : List Ty} (buf : Bytes) (vs : Vars ts) : Option (Bytes × Nat) := do
  let ws ← packVars vs
  let f ← ws.foldlM fixedWrite (⟨buf, 0⟩ : Fixed)
  return (f.mem, f.pos)

/-- `msgpack::object`. -/
inductive Obj
  | bool (b : Bool)
  | pos (n : Nat)
  | neg (i : Int)
  | str (s : Bytes)
  | bin (s : Bytes)
  | arr (os : List Obj)

/-- `k` bytes off the front; `none` is `insufficient_bytes`. -/
def takeN (k : Nat) (bs : Bytes) : Option (Bytes × Bytes) :=
  if k ≤ bs.length then some (bs.take k, bs.drop k) else none

/-- A two's complement big-endian integer of `k` bytes, as an object: non-negative values become `pos`. -/
def signedObj (k : Nat) (bs : Bytes) : Obj :=
  let n := beVal bs
  if n < 2 ^ (8 * k - 1) then .pos n else .neg ((n : Int) - 2 ^ (8 * k))

/-- A string / blob of `n` bytes. -/
def takeBlob (mk : Bytes → Obj) (n : Nat) (bs : Bytes) : Option (Obj × Bytes) := do
  let (b, rest) ← takeN n bs
  return (mk b, rest)

/-- A blob whose length is in the next `k` bytes. -/
def takeSized (k : Nat) (mk : Bytes → Obj) (bs : Bytes) : Option (Obj × Bytes) := do
  let (l, rest) ← takeN k bs
  takeBlob mk (beVal l) rest

/-- A number in the next `k` bytes. -/
def takeNum (k : Nat) (mk : Bytes → Obj) (bs : Bytes) : Option (Obj × Bytes) := do
  let (l, rest) ← takeN k bs
  return (mk l, rest)

/-- `n` objects in a row, each read by `p`. -/
def parseMany (p : Bytes → Option (Obj × Bytes)) : Nat → Bytes → Option (List Obj × Bytes)
  | 0, bs => some ([], bs)
  | n + 1, bs =>
    match p bs with
    | none => none
    | some (o, rest) =>
      match parseMany p n rest with
      | none => none
      | some (os, rest') => some (o :: os, rest')

/-- An array of `n` objects. -/
def parseArr (p : Bytes → Option (Obj × Bytes)) (n : Nat) (bs : Bytes) : Option (Obj × Bytes) :=
  match parseMany p n bs with
  | none => none
  | some (os, rest) => some (.arr os, rest)

/-- An array whose length is in the next `k` bytes. -/
def parseArrSized (p : Bytes → Option (Obj × Bytes)) (k : Nat) (bs : Bytes) : Option (Obj × Bytes) :=
  match takeN k bs with
  | none => none
  | some (l, rest) => parseArr p (beVal l) rest

/-- `msgpack::unpack(data, len, off)`: one object off the front of the bytes. `fuel` bounds the nesting depth (every level
consumes a byte, so the number of bytes is enough). -/
def parse : Nat → Bytes → Option (Obj × Bytes)
  | 0, _ => none
  | _ + 1, [] => none
  | fuel + 1, b :: bs =>
    let n := b.toNat
    if n < 0x80 then some (.pos n, bs)
    else if n < 0x90 then none -- fixmap, not modelled
    else if n < 0xa0 then parseArr (parse fuel) (n - 0x90) bs
    else if n < 0xc0 then takeBlob .str (n - 0xa0) bs
    else if n = 0xc2 then some (.bool false, bs)
    else if n = 0xc3 then some (.bool true, bs)
    else if n = 0xc4 then takeSized 1 .bin bs
    else if n = 0xc5 then takeSized 2 .bin bs
    else if n = 0xc6 then takeSized 4 .bin bs
    else if n = 0xcc then takeNum 1 (fun l => .pos (beVal l)) bs
    else if n = 0xcd then takeNum 2 (fun l => .pos (beVal l)) bs
    else if n = 0xce then takeNum 4 (fun l => .pos (beVal l)) bs
    else if n = 0xcf then takeNum 8 (fun l => .pos (beVal l)) bs
    else if n = 0xd0 then takeNum 1 (signedObj 1) bs
    else if n = 0xd1 then takeNum 2 (signedObj 2) bs
    else if n = 0xd2 then takeNum 4 (signedObj 4) bs
    else if n = 0xd3 then takeNum 8 (signedObj 8) bs
    else if n = 0xd9 then takeSized 1 .str bs
    else if n = 0xda then takeSized 2 .str bs
    else if n = 0xdb then takeSized 4 .str bs
    else if n = 0xdc then parseArrSized (parse fuel) 2 bs
    else if n = 0xdd then parseArrSized (parse fuel) 4 bs
    else if n < 0xe0 then none -- nil, maps, floats, ext: not modelled
    else some (.neg ((n : Int) - 256), bs)
/-- `msgpack::unpack` on the whole input. -/
def unpack (bs : Bytes) : Option (Obj × Bytes) := parse (bs.length + 1) bs

/-- msgpack-c `convert_integer<uintN_t>`. -/
def convUint (n : Nat) : Obj → Option (BitVec n)
  | .pos v => if v < 2 ^ n then some (BitVec.ofNat n v) else none
  | _ => none

/-- msgpack-c `convert_integer<intN_t>`. -/
def convInt (n : Nat) : Obj → Option (BitVec n)
  | .pos v => if v < 2 ^ (n - 1) then some (BitVec.ofNat n v) else none
  | .neg i => if -2 ^ (n - 1) ≤ i then some (BitVec.ofInt n i) else none
  | _ => none

/-- msgpack-c `convert<bool>`. -/
def convBool : Obj → Option Bool
  | .bool b => some b
  | _ => none

/-- serializer_adapter.h L39-46 `convert<int128_t>`. -/
def convI128 : Obj → Option (BitVec 128)
  | .arr [a, b] => do
    let hi ← convInt 64 a
    let lo ← convUint 64 b
    return Int128.makeInt128 hi lo
  | _ => none

/-- serializer_adapter.h L61-68 `convert<uint128_t>`. -/
def convU128 : Obj → Option (BitVec 128)
  | .arr [a, b] => do
    let hi ← convUint 64 a
    let lo ← convUint 64 b
    return Int128.makeUint128 hi lo
  | _ => none

/-- msgpack-c `convert<std::string>`: STR and BIN objects. -/
def convStr : Obj → Option Bytes
  | .str s => some s
  | .bin s => some s
  | _ => none

/-- serializer_adapter.h L84-94, L109-118 `convert<ByteContainerView>`, `convert<Buffer>`. -/
def convBin : Obj → Option Bytes
  | .bin s => some s
  | _ => none

/-- msgpack-c `convert<std::vector<T>>`. -/
def convVec {α : Type} (f : Obj → Option α) : Obj → Option (List α)
  | .arr os => os.mapM f
  | _ => none

/-- msgpack-c `convert<std::pair<A, B>>`. -/
def convPair {α β : Type} (f : Obj → Option α) (g : Obj → Option β) : Obj → Option (α × β)
  | .arr [x, y] => do
    let p ← f x
    let q ← g y
    return (p, q)
  | _ => none

/-- `object.convert(v)`. -/
def conv : (t : Ty) → Obj → Option t.den
  | .bool, o => convBool o
  | .sint n, o => convInt n o
  | .uint n, o => convUint n o
  | .i128, o => convI128 o
  | .u128, o => convU128 o
  | .str, o => convStr o
  | .bin, o => convBin o
  | .vec t, o => convVec (conv t) o
  | .pair a b, o => convPair (conv a) (conv b) o

/-- serializer.h L101-112, L133-139: `DeserializeVars<Ts...>` / `DeserializeVarsTo`, each variable read where the previous
one ended. (With one variable L121-127 does the same with offset 0.) Result: the values and the bytes not consumed. -/
def deserializeVars : (ts : List Ty) → Bytes → Option (Vars ts × Bytes)
  | [], bs => some (.nil, bs)
  | t :: ts, bs => do
    let (o, rest) ← unpack bs
    let v ← conv t o
    let (vs, rest') ← deserializeVars ts rest
    return (.cons v vs, rest')

/-- spec_traits.cc L19-51 `HeadSizeOfStr`. -/
def headSizeOfStr (n : Nat) : Nat := if n < 32 then 1 else if n < 256 then 2 else if n < 65536 then 3 else 5

/-- spec_traits.cc L53-80 `HeadSizeOfArray`. -/
def headSizeOfArray (n : Nat) : Nat := if n < 16 then 1 else if n < 65536 then 3 else 5

/-- msgpack-c `packer::pack_int8` for a non-negative header: a positive fixint. -/
def packHeader (header : Int) : List Write := if 0 ≤ header then [packInt header] else []

section Scalar
variable {T : Type} (sz : T → Nat) (enc : T → Bytes)

/-- scalar_tools.h L101-123 `ScalarSketchTools::Serialize(x, nullptr, 0, header)` for a scalar; `sz` is what the element
serializer says with a null buffer. -/
def scalarSize (x : T) (header : Int) : Nat := sz x + headSizeOfStr (sz x) + if 0 ≤ header then 1 else 0

/-- The same for an array (the sum is accumulated atomically by a parallel loop, so the order does not matter). -/
def arraySize (xs : List T) (header : Int) : Nat :=
  headSizeOfArray xs.length + (xs.map (fun x => sz x + headSizeOfStr (sz x))).sum + if 0 ≤ header then 1 else 0

/-- What is written for a scalar: header, string head with the predicted size, and the bytes `enc x` the element serializer
produces (scalar_tools.h L79-92 and L126-150). -/
def scalarWrites (x : T) (header : Int) : List Write := packHeader header ++ [packStrHead (sz x), enc x]

/-- What is written for an array (scalar_tools.h L41-77 and L133-143). -/
def arrayWrites (xs : List T) (header : Int) : List Write :=
  packHeader header ++ packArrayHead xs.length :: xs.flatMap (fun x => [packStrHead (sz x), enc x])
end Scalar

end Yacl.Msgpack
