/-
Model of `yacl/utils/segment_tree.h`.

`SegmentTree<T>` is used with `T = size_t` (yacl/link/transport/channel.h L196-L210: `received_ack_ids_`,
`received_msg_ids_`, `sent_ack_ids_`...), so items are natural numbers below `2^64` and `item + 1` wraps.
-/
namespace Yacl.SegmentTree

/-- `size_t` increment, wrapping at `2^64`. -/
def succ64 (x : Nat) : Nat := (x + 1) % 2 ^ 64

/-- segment_tree.h L109-L112: `std::map<T,T> segments_` (key = first id, value = one past the last id) kept as the
key-sorted list of its entries, and `size_t count_`. -/
structure Tree where
  segments : List (Nat × Nat)
  count : Nat
  deriving DecidableEq, Repr

/-- segment_tree.h L27: default constructed tree. -/
def empty : Tree := ⟨[], 0⟩

/-- A position in the ordered map: entries before the iterator, the entry it points to, entries after it. -/
structure Zipper where
  before : List (Nat × Nat)
  cur : Nat × Nat
  after : List (Nat × Nat)

/-- segment_tree.h L37-L43 / L79-L85: `upper_bound(item)` splits the sorted map into the entries with key `<= item` and
the entries with key `> item`; `current` is the last entry of the first part, or `end()` when that part is empty. -/
def splitLe (segs : List (Nat × Nat)) (item : Nat) : List (Nat × Nat) × List (Nat × Nat) :=
  (segs.takeWhile (fun s => decide (s.1 ≤ item)), segs.dropWhile (fun s => decide (s.1 ≤ item)))

/-- segment_tree.h L45-L54: create / extend the segment for `item`; `none` when the item is already present. The branch
`c.1 = item` is `std::map::insert` finding the key already there (it then keeps the old entry). -/
def place (segs : List (Nat × Nat)) (item : Nat) : Option Zipper :=
  let (pre, post) := splitLe segs item
  match pre.getLast? with
  | none => some ⟨[], (item, succ64 item), post⟩
  | some c =>
    if item > c.2 then
      if c.1 = item then some ⟨pre.dropLast, c, post⟩
      else some ⟨pre, (item, succ64 item), post⟩
    else if item = c.2 then some ⟨pre.dropLast, (c.1, succ64 item), post⟩
    else none

/-- segment_tree.h L57-L64: merge with the previous segment when they touch. -/
def mergePrev (z : Zipper) : Zipper :=
  match z.before.getLast? with
  | none => z
  | some p => if p.2 = z.cur.1 then ⟨z.before.dropLast, (p.1, z.cur.2), z.after⟩ else z

/-- segment_tree.h L66-L70: merge with the next segment when they touch. -/
def mergeNext (z : Zipper) : Zipper :=
  match z.after with
  | [] => z
  | n :: rest => if n.1 = z.cur.2 then ⟨z.before, (z.cur.1, n.2), rest⟩ else z

/-- The whole map again. -/
def Zipper.toList (z : Zipper) : List (Nat × Nat) := z.before ++ z.cur :: z.after

/-- segment_tree.h L30-L73 `Insert`: returns the new tree and the boolean result. The `segments_.empty()` fast path
(L31-L35) is the `none` case of `place`. -/
def insert (t : Tree) (item : Nat) : Tree × Bool :=
  match place t.segments item with
  | none => (t, false)
  | some z => (⟨(mergeNext (mergePrev z)).toList, t.count + 1⟩, true)

/-- segment_tree.h L75-L92 `Contains`. -/
def contains (t : Tree) (item : Nat) : Bool :=
  match (splitLe t.segments item).1.getLast? with
  | none => false
  | some c => ! decide (item ≥ c.2)

/-- segment_tree.h L94 `SegmentsCount`. -/
def segmentsCount (t : Tree) : Nat := t.segments.length

/-- segment_tree.h L96 `Count`. -/
def count (t : Tree) : Nat := t.count

/-- segment_tree.h L98-L107 `GetSegments`. -/
def getSegments (t : Tree) : List (Nat × Nat) := t.segments

/-- A history of `Insert` calls: the final tree and the returned booleans, in call order. -/
def run : Tree → List Nat → Tree × List Bool
  | t, [] => (t, [])
  | t, x :: xs =>
    let (t', b) := insert t x
    let (t'', bs) := run t' xs
    (t'', b :: bs)

end Yacl.SegmentTree
