/-! Model of the cuckoo index (yacl/utils/cuckoo_index.{h,cc}).

`uint64_t` values are `Nat`s below 2^64. `NumBins()` (cuckoo_index.h L107-117) multiplies by a `double`; here the number of
bins is an arbitrary parameter `numBins`, with 0 allowed. -/
namespace Yacl.Cuckoo

/-- cuckoo_index.h L51 `kEmpty = uint64_t(-1)`. -/
def kEmpty : Nat := 2 ^ 64 - 1

/-- cuckoo_index.h L55 `HashIdx()`: `uint8_t(encoded_ >> 56)`. -/
def hashIdx (e : Nat) : Nat := (e >>> 56) % 256

/-- cuckoo_index.h L56 `InputIdx()`: `encoded_ & (uint64_t(-1) >> 8)`. -/
def inputIdx (e : Nat) : Nat := e &&& (2 ^ 56 - 1)

/-- cuckoo_index.h L69-71 `Encode`: `input_idx | uint64_t(hash_idx) << 56`, `hash_idx` is a `uint8_t`. -/
def encode (input hash : Nat) : Nat := input ||| ((hash % 256) <<< 56)

/-- cuckoo_index.h L67 `IsEmpty()`. -/
def isEmpty (e : Nat) : Bool := e == kEmpty

/-- cuckoo_index.h L84-93 `GetHash(idx)`: 8 bytes at offset `2 * idx` of the 16-byte (little-endian) code. -/
def getHash (code idx : Nat) : Nat := (code >>> (16 * idx)) % 2 ^ 64

/-- cuckoo_index.h L99-118 `Options` (with the result of `NumBins()`). -/
structure Options where
  numInput : Nat
  numStash : Nat
  numHash : Nat
  numBins : Nat
  maxTry : Nat := 128

/-- cuckoo_index.h L144-147: bins, stash, hash codes. -/
structure Index where
  bins : List Nat
  stash : List Nat
  hashes : List Nat
deriving Repr, DecidableEq

/-- How a call ends abnormally: `YACL_ENFORCE` / `YACL_THROW`, or undefined behaviour (`% 0`, out-of-range index). -/
inductive Err where
  | thrown
  | ub
deriving Repr, DecidableEq

/-- cuckoo_index.cc L22-30: the constructor. The check is `(num_hash - 1) * 2 + 8 <= 16` in `size_t` arithmetic. -/
def new (o : Options) : Except Err Index :=
  if ((o.numHash + (2 ^ 64 - 1)) % 2 ^ 64 * 2 + 8) % 2 ^ 64 ≤ 16 then
    .ok ⟨List.replicate o.numBins kEmpty, List.replicate o.numStash kEmpty, []⟩
  else .error .thrown

/-- cuckoo_index.cc L53-54: the bin a candidate goes to. -/
def binOf (o : Options) (hashes : List Nat) (candid : Nat) : Except Err Nat :=
  match hashes[inputIdx candid]? with
  | none => .error .ub
  | some code => if o.numBins = 0 then .error .ub else .ok (getHash code (hashIdx candid) % o.numBins)

/-- cuckoo_index.cc L57-61: what an evicted bin becomes. -/
def nextCandid (o : Options) (evicted : Nat) : Except Err Nat :=
  if o.numHash = 0 then .error .ub else .ok (encode (inputIdx evicted) ((hashIdx evicted + 1) % o.numHash))

/-- cuckoo_index.cc L51-64: one pass over the candidates; returns the new bins and the remaining candidates. (The code writes
the remaining candidates into the front of the same vector; the write index never passes the read index.) -/
def pass (o : Options) (hashes : List Nat) : List Nat → List Nat → Except Err (List Nat × List Nat)
  | bins, [] => .ok (bins, [])
  | bins, c :: cs =>
    match binOf o hashes c with
    | .error e => .error e
    | .ok b =>
      match bins[b]? with
      | none => .error .ub
      | some old =>
        if isEmpty old then pass o hashes (bins.set b c) cs
        else match nextCandid o old with
          | .error e => .error e
          | .ok n =>
            match pass o hashes (bins.set b c) cs with
            | .error e => .error e
            | .ok (bins', rest) => .ok (bins', n :: rest)

/-- cuckoo_index.cc L49-66: at most `max_try_count` passes. -/
def passes (o : Options) (hashes : List Nat) : Nat → List Nat → List Nat → Except Err (List Nat × List Nat)
  | 0, bins, cands => .ok (bins, cands)
  | n + 1, bins, cands =>
    if cands = [] then .ok (bins, [])
    else match pass o hashes bins cands with
      | .error e => .error e
      | .ok (bins', cands') => passes o hashes n bins' cands'

/-- cuckoo_index.cc L73-82 `PutToStash`: first empty slot. -/
def putToStash : List Nat → Nat → Except Err (List Nat)
  | [], _ => .error .thrown
  | s :: ss, i =>
    if isEmpty s then .ok (i :: ss)
    else match putToStash ss i with
      | .error e => .error e
      | .ok ss' => .ok (s :: ss')

/-- cuckoo_index.cc L68-70. -/
def stashAll : List Nat → List Nat → Except Err (List Nat)
  | stash, [] => .ok stash
  | stash, c :: cs =>
    match putToStash stash (inputIdx c) with
    | .error e => .error e
    | .ok stash' => stashAll stash' cs

/-- cuckoo_index.cc L32-71 `Insert`. -/
def insert (o : Options) (st : Index) (codes : List Nat) : Except Err Index :=
  if (st.hashes ++ codes).length ≤ o.numInput then
    match passes o (st.hashes ++ codes) o.maxTry st.bins ((List.range codes.length).map (st.hashes.length + ·)) with
    | .error e => .error e
    | .ok (bins, rest) =>
      match stashAll st.stash rest with
      | .error e => .error e
      | .ok stash => .ok ⟨bins, stash, st.hashes ++ codes⟩
  else .error .thrown

/-- A history of `Insert` calls, all of which must return normally. -/
def inserts (o : Options) : Index → List (List Nat) → Except Err Index
  | st, [] => .ok st
  | st, cs :: css =>
    match insert o st cs with
    | .error e => .error e
    | .ok st' => inserts o st' css

/-- cuckoo_index.cc L84-108 `SanityCheck`: `true` = returns normally. The `std::set` is a sorted list. -/
def sanityCheck (o : Options) (st : Index) : Bool :=
  let items := ((st.bins ++ st.stash).filter (fun e => ! isEmpty e)).map inputIdx
  decide items.Nodup && decide (items.length = o.numInput) && items.mergeSort == List.range o.numInput

/-- cuckoo_index.cc L134-146 `MinCollidingHashIdx`: the loop from `i` on (`left` iterations left). `uint8_t(-1)` = 255. -/
def minLoop (o : Options) (code target : Nat) : Nat → Nat → Nat
  | 0, _ => 255
  | left + 1, i => if getHash code i % o.numBins = target then i % 256 else minLoop o code target left (i + 1)

/-- cuckoo_index.cc L134-146. -/
def minCollidingHashIdx (o : Options) (st : Index) (bin : Nat) : Except Err Nat :=
  match st.bins[bin]? with
  | none => .error .ub
  | some e =>
    match st.hashes[inputIdx e]? with
    | none => .error .ub
    | some code => .ok (minLoop o code bin o.numHash 0)

end Yacl.Cuckoo
