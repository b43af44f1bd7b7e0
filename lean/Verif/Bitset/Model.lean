/-! Model of yacl/base/dynamic_bitset.h (`dynamic_bitset<Block>`), for blocks of any width `w`.

`none` stands for a failed `assert` or, in release builds, an access out of range.  Simplified throughout: lengths
and positions are natural numbers (no bitset approaches 2^64 bits); the compiler builtins for popcount and
trailing zeros are the portable loops the file falls back to. -/
namespace Yacl.Bitset

/-- dynamic_bitset.h L1713-1714: `m_blocks` and `m_bits_number`. -/
structure BS (w : Nat) where
  blocks : List (BitVec w)
  n : Nat
deriving DecidableEq

variable {w : Nat}

/-- dynamic_bitset.h L3110-3115 `blocks_required`. -/
def blocksRequired (w n : Nat) : Nat := n / w + (if n % w > 0 then 1 else 0)

/-- dynamic_bitset.h L1717 `one_block`. -/
def oneBlock : BitVec w := BitVec.allOnes w

/-- dynamic_bitset.h L3129-3133 `bit_mask(pos)`. -/
def bitMask (w pos : Nat) : BitVec w := 1#w <<< (pos % w)

/-- dynamic_bitset.h L3135-3147 `bit_mask(first, last)`. -/
def bitMask2 (w first last : Nat) : BitVec w :=
  if last % w = w - 1 then oneBlock <<< (first % w)
  else ((1#w <<< (last % w + 1)) - 1#w) ^^^ ((1#w <<< (first % w)) - 1#w)

/-- Apply `f` to one block of the vector. -/
def modBlock (l : List (BitVec w)) (i : Nat) (f : BitVec w → BitVec w) : List (BitVec w) := l.set i (f (l.getD i 0))

/-- dynamic_bitset.h L3475-3481 `sanitize`. -/
def sanitize (b : BS w) : BS w :=
  if b.n % w > 0 then { b with blocks := modBlock b.blocks (b.blocks.length - 1) fun x => x &&& ~~~(oneBlock <<< (b.n % w)) } else b

/-- dynamic_bitset.h L2282-2285: the empty bitset. -/
def empty : BS w := ⟨[], 0⟩

/-- dynamic_bitset.h L2287-2308: `nbits` bits initialised with the low bits of `v`. -/
def mk (nbits : Nat) (v : BitVec 128) : BS w :=
  if nbits = 0 ∨ v = 0 then ⟨List.replicate (blocksRequired w nbits) 0, nbits⟩ else
  let m := List.replicate (blocksRequired w nbits) (0 : BitVec w)
  let blocks :=
    if 128 / w = 1 then m.set 0 (v.setWidth w)
    else (List.range (min m.length (128 / w))).foldl
      (fun l i => l.set i (((v >>> (i * w)) &&& (oneBlock : BitVec w).setWidth 128).setWidth w)) m
  sanitize ⟨blocks, nbits⟩

/-- `std::vector::resize` with a fill value. -/
def resizeVec (l : List (BitVec w)) (k : Nat) (x : BitVec w) : List (BitVec w) := l.take k ++ List.replicate (k - l.length) x

/-- dynamic_bitset.h L2354-2381 `resize`. -/
def resize (b : BS w) (nbits : Nat) (value : Bool) : BS w :=
  if nbits = b.n then b else
  let oldB := b.blocks.length
  let newB := blocksRequired w nbits
  let init : BitVec w := if value then oneBlock else 0
  let bl := if newB ≠ oldB then resizeVec b.blocks newB init else b.blocks
  let bl := if value ∧ nbits > b.n ∧ oldB > 0 then
      (if b.n % w > 0 then modBlock bl (oldB - 1) fun x => x ||| (init <<< (b.n % w)) else bl) else bl
  sanitize ⟨bl, nbits⟩

/-- dynamic_bitset.h L2642-2654 `set(pos, value)`. -/
def set1 (b : BS w) (pos : Nat) (value : Bool) : Option (BS w) :=
  if pos < b.n then
    some { b with blocks := modBlock b.blocks (pos / w) fun x => if value then x ||| bitMask w pos else x &&& ~~~ bitMask w pos }
  else none

/-- dynamic_bitset.h L2389-2401 `push_back`. -/
def pushBack (b : BS w) (value : Bool) : BS w :=
  if b.n + 1 ≤ b.blocks.length * w then
    (if value then ⟨modBlock b.blocks (b.n / w) fun x => x ||| bitMask w b.n, b.n + 1⟩ else ⟨b.blocks, b.n + 1⟩)
  else ⟨b.blocks ++ [if value then 1#w else 0#w], b.n + 1⟩

/-- dynamic_bitset.h L2403-2418 `pop_back`. -/
def popBack (b : BS w) : BS w :=
  if b.n = 0 then b else
  if b.blocks.length > blocksRequired w (b.n - 1) then ⟨b.blocks.dropLast, b.n - 1⟩ else sanitize ⟨b.blocks, b.n - 1⟩

/-- dynamic_bitset.h L2383-2387 `clear`. -/
def clear (_ : BS w) : BS w := ⟨[], 0⟩

/-- dynamic_bitset.h L2420-2432 `append(block)`. -/
def appendBlock (b : BS w) (x : BitVec w) : BS w :=
  if b.n % w = 0 then ⟨b.blocks ++ [x], b.n + w⟩
  else ⟨modBlock b.blocks (b.blocks.length - 1) (fun y => y ||| (x <<< (b.n % w))) ++ [x >>> (w - b.n % w)], b.n + w⟩

/-- dynamic_bitset.h L2473-2481: the loop of `append(first, last)` with the carried `block`. -/
def appendLoop (extra : Nat) : BitVec w → List (BitVec w) → List (BitVec w) → List (BitVec w)
  | block, [], acc => acc ++ [block]
  | block, x :: xs, acc => appendLoop extra (x >>> (w - extra)) xs (acc ++ [block ||| (x <<< extra)])

/-- dynamic_bitset.h L2444-2485 `append(first, last)`. -/
def appendBlocks (b : BS w) : List (BitVec w) → BS w
  | [] => b
  | x :: xs =>
    if b.n % w = 0 then ⟨b.blocks ++ x :: xs, b.n + (xs.length + 1) * w⟩
    else
      let bl := modBlock b.blocks (b.blocks.length - 1) fun y => y ||| (x <<< (b.n % w))
      ⟨appendLoop (b.n % w) (x >>> (w - b.n % w)) xs bl, b.n + (xs.length + 1) * w⟩

/-- dynamic_bitset.h L2487-2502 `append(other)` for another object. -/
def appendOther (b other : BS w) : BS w := resize (appendBlocks b other.blocks) (b.n + other.n) false

/-- dynamic_bitset.h L2497-2499: the loop of `append(*this)`, which rereads the blocks it is extending. -/
def appendSelfLoop (k : Nat) : Nat → BS w → BS w
  | 0, b => b
  | c + 1, b => appendSelfLoop k c (appendBlock b (b.blocks.getD (k - (c + 1)) 0))

/-- dynamic_bitset.h L2487-2502 `append(*this)`. -/
def appendSelf (b : BS w) : BS w := resize (appendSelfLoop b.blocks.length b.blocks.length b) (b.n + b.n) false

/-- dynamic_bitset.h L2504-2551: `&=`, `|=`, `^=` and `-=` with the given block operation. -/
def bitOp (f : BitVec w → BitVec w → BitVec w) (b c : BS w) : Option (BS w) :=
  if b.n = c.n then some { b with blocks := List.zipWith f b.blocks c.blocks } else none

/-- dynamic_bitset.h L2504-2514. -/
def andEq (b c : BS w) := bitOp (· &&& ·) b c
/-- dynamic_bitset.h L2516-2526. -/
def orEq (b c : BS w) := bitOp (· ||| ·) b c
/-- dynamic_bitset.h L2528-2538. -/
def xorEq (b c : BS w) := bitOp (· ^^^ ·) b c
/-- dynamic_bitset.h L2540-2551. -/
def diffEq (b c : BS w) := bitOp (fun x y => x &&& ~~~ y) b c

/-- dynamic_bitset.h L3422-3424: `i` runs down from `size - 1` to `s`; `c = i - s + 1`. -/
def lshBlocks (s : Nat) : Nat → List (BitVec w) → List (BitVec w)
  | 0, l => l
  | c + 1, l => lshBlocks s c (l.set (s + c) (l.getD c 0))

/-- dynamic_bitset.h L3427-3431: `i` runs down from `size - 1` to `s + 1`; `c = i - s`. -/
def lshBits (s o : Nat) : Nat → List (BitVec w) → List (BitVec w)
  | 0, l => l
  | c + 1, l => lshBits s o c (l.set (s + (c + 1)) ((l.getD (c + 1) 0 <<< o) ||| (l.getD c 0 >>> (w - o))))

/-- dynamic_bitset.h L3412-3441 `apply_left_shift`. -/
def applyLeft (l : List (BitVec w)) (shift : Nat) : List (BitVec w) :=
  let s := shift / w
  let o := shift % w
  let l' := if o = 0 then lshBlocks s (l.length - s) l
    else let l1 := lshBits s o (l.length - 1 - s) l
      l1.set s (l1.getD 0 0 <<< o)
  List.replicate s 0 ++ l'.drop s

/-- dynamic_bitset.h L2676-2681 `reset()`. -/
def resetAll (b : BS w) : BS w := { b with blocks := b.blocks.map fun _ => 0 }

/-- dynamic_bitset.h L2553-2565 `<<=`. -/
def shiftLeft (b : BS w) (shift : Nat) : BS w :=
  if shift = 0 then b else if shift ≥ b.n then resetAll b else sanitize { b with blocks := applyLeft b.blocks shift }

/-- dynamic_bitset.h L3454-3456: `i` runs up from `i` for `c` iterations. -/
def rshBlocks (s : Nat) : Nat → Nat → List (BitVec w) → List (BitVec w)
  | 0, _, l => l
  | c + 1, i, l => rshBlocks s c (i + 1) (l.set i (l.getD (i + s) 0))

/-- dynamic_bitset.h L3459-3463. -/
def rshBits (s o : Nat) : Nat → Nat → List (BitVec w) → List (BitVec w)
  | 0, _, l => l
  | c + 1, i, l => rshBits s o c (i + 1) (l.set i ((l.getD (i + s) 0 >>> o) ||| (l.getD (i + s + 1) 0 <<< (w - o))))

/-- dynamic_bitset.h L3443-3473 `apply_right_shift`. -/
def applyRight (l : List (BitVec w)) (shift : Nat) : List (BitVec w) :=
  let s := shift / w
  let o := shift % w
  let last := l.length - s - 1
  let l' := if o = 0 then rshBlocks s (last + 1) 0 l
    else let l1 := rshBits s o last 0 l
      l1.set last (l1.getD (l1.length - 1) 0 >>> o)
  l'.take (last + 1) ++ List.replicate (l'.length - (last + 1)) 0

/-- dynamic_bitset.h L2567-2578 `>>=`. -/
def shiftRight (b : BS w) (shift : Nat) : BS w :=
  if shift = 0 then b else if shift ≥ b.n then resetAll b else { b with blocks := applyRight b.blocks shift }

/-- dynamic_bitset.h L2656-2662 `set()`. -/
def setAll (b : BS w) : BS w := sanitize { b with blocks := b.blocks.map fun _ => oneBlock }

/-- dynamic_bitset.h L2730-2737 `flip()`, L2592-2598 `~`. -/
def flipAll (b : BS w) : BS w := sanitize { b with blocks := b.blocks.map fun x => ~~~ x }

/-- dynamic_bitset.h L2722-2728 `flip(pos)`. -/
def flip1 (b : BS w) (pos : Nat) : Option (BS w) :=
  if pos < b.n then some { b with blocks := modBlock b.blocks (pos / w) fun x => x ^^^ bitMask w pos } else none

/-- dynamic_bitset.h L3149-3157 `set_block_bits`. -/
def setBlockBits (value : Bool) (first last : Nat) (x : BitVec w) : BitVec w :=
  if value then x ||| bitMask2 w first last else x &&& ~~~ bitMask2 w first last

/-- dynamic_bitset.h L3159-3163 `flip_block_bits`. -/
def flipBlockBits (first last : Nat) (x : BitVec w) : BitVec w := x ^^^ bitMask2 w first last

/-- dynamic_bitset.h L2634-2636, L2714-2716: apply `f` to the blocks `i ≤ last`, `c` of them. -/
def fullLoop (f : BitVec w → BitVec w) : Nat → Nat → List (BitVec w) → List (BitVec w)
  | 0, _, l => l
  | c + 1, i, l => fullLoop f c (i + 1) (modBlock l i f)

/-- dynamic_bitset.h L2600-2640 `set(pos, len, value)` and L2683-2720 `flip(pos, len)`: `part first last` changes
the bits of one block, `full` a whole block. -/
def rangeOp (part : Nat → Nat → BitVec w → BitVec w) (full : BitVec w → BitVec w) (b : BS w) (pos len : Nat) : Option (BS w) :=
  if b.n ≤ pos then none else
  if len = 0 then some b else
  if b.n ≤ pos + len - 1 then none else
  let fb := pos / w
  let lb := (pos + len - 1) / w
  let fi := pos % w
  let li := (pos + len - 1) % w
  if fb = lb then some { b with blocks := modBlock b.blocks fb (part fi li) } else
  let l := if fi ≠ 0 then modBlock b.blocks fb (part fi (w - 1)) else b.blocks
  let ff := if fi ≠ 0 then fb + 1 else fb
  let l := if li ≠ w - 1 then modBlock l lb (part 0 li) else l
  let lf := if li ≠ w - 1 then lb - 1 else lb
  some { b with blocks := fullLoop full (lf + 1 - ff) ff l }

/-- dynamic_bitset.h L2600-2640 `set(pos, len, value)`. -/
def setRange (b : BS w) (pos len : Nat) (value : Bool) : Option (BS w) :=
  rangeOp (setBlockBits value) (fun _ => if value then oneBlock else 0) b pos len

/-- dynamic_bitset.h L2683-2720 `flip(pos, len)`. -/
def flipRange (b : BS w) (pos len : Nat) : Option (BS w) := rangeOp flipBlockBits (fun x => ~~~ x) b pos len

/-- dynamic_bitset.h L2739-2743 `test`. -/
def test (b : BS w) (pos : Nat) : Option Bool :=
  if pos < b.n then some (decide ((b.blocks.getD (pos / w) 0) &&& bitMask w pos ≠ 0)) else none

/-- dynamic_bitset.h L2745-2753 `test_set`. -/
def testSet (b : BS w) (pos : Nat) (value : Bool) : Option (Bool × BS w) := do
  let r ← test b pos
  if r ≠ value then do let b' ← set1 b pos value; return (r, b') else return (r, b)

/-- dynamic_bitset.h L2755-2779 `all`. -/
def all (b : BS w) : Bool :=
  if b.n = 0 then true else
  if b.n % w = 0 then b.blocks.all fun x => x = oneBlock
  else (b.blocks.dropLast.all fun x => x = oneBlock) &&
    decide (b.blocks.getD (b.blocks.length - 1) 0 = oneBlock >>> (w - b.n % w))

/-- dynamic_bitset.h L2781-2789 `any`. -/
def any (b : BS w) : Bool := b.blocks.any fun x => x ≠ 0

/-- dynamic_bitset.h L2791-2794 `none`. -/
def isNone (b : BS w) : Bool := !any b

/-- dynamic_bitset.h L3199-3207 `block_count(block)`. -/
def blockCount (x : BitVec w) : Nat := (List.range w).countP fun i => x.getLsbD i

/-- dynamic_bitset.h L2796-2824 `count`.  The last block is shifted left by `w - extra` first (L3217-3222), except
that the 128-bit branch (L3242-3245) forgets the shift. -/
def count (b : BS w) : Nat :=
  if b.n = 0 then 0 else
  (b.blocks.dropLast.map blockCount).sum +
  (let last := b.blocks.getD (b.blocks.length - 1) 0
   if b.n % w = 0 ∨ w = 128 then blockCount last else blockCount (last <<< (w - b.n % w)))

/-- dynamic_bitset.h L2872-2882 `is_subset_of`. -/
def isSubsetOf (b c : BS w) : Option Bool :=
  if b.n = c.n then some ((List.zip b.blocks c.blocks).all fun p => (p.1 &&& ~~~ p.2) = 0) else none

/-- dynamic_bitset.h L2888-2900: the loop of `is_proper_subset_of`. -/
def properLoop : List (BitVec w × BitVec w) → Bool → Bool
  | [], proper => proper
  | p :: ps, proper =>
    if (p.1 &&& ~~~ p.2) ≠ 0 then false else properLoop ps (if (~~~ p.1 &&& p.2) ≠ 0 then true else proper)

/-- dynamic_bitset.h L2884-2901 `is_proper_subset_of`. -/
def isProperSubsetOf (b c : BS w) : Option Bool :=
  if b.n = c.n then some (properLoop (List.zip b.blocks c.blocks) false) else none

/-- dynamic_bitset.h L2903-2914 `intersects`. -/
def intersects (b c : BS w) : Bool := (List.zip b.blocks c.blocks).any fun p => (p.1 &&& p.2) ≠ 0

/-- dynamic_bitset.h L3322-3330 `count_block_trailing_zero`. -/
def ctz (x : BitVec w) : Nat := ((List.range w).find? fun i => x.getLsbD i).getD w

/-- dynamic_bitset.h L2919-2924, L2943-2949: the first set bit in the blocks from `i` on; `none` is `npos`. -/
def findFrom (l : List (BitVec w)) : Nat → Nat → Option Nat
  | 0, _ => none
  | c + 1, i => if l.getD i 0 ≠ 0 then some (i * w + ctz (l.getD i 0)) else findFrom l c (i + 1)

/-- dynamic_bitset.h L2916-2925 `find_first`. -/
def findFirst (b : BS w) : Option Nat := findFrom b.blocks b.blocks.length 0

/-- dynamic_bitset.h L2927-2950 `find_next`. -/
def findNext (b : BS w) (prev : Nat) : Option Nat :=
  if b.n = 0 ∨ prev ≥ b.n - 1 then none else
  let fbit := prev + 1
  let x := b.blocks.getD (fbit / w) 0 >>> (fbit % w)
  if x ≠ 0 then some (fbit + ctz x)
  else findFrom b.blocks (b.blocks.length - (fbit / w + 1)) (fbit / w + 1)

/-- dynamic_bitset.h L2991-3027 `iterate_bits_on`: the positions passed to a function that always continues. -/
def iterate (b : BS w) : Nat → Option Nat → List Nat
  | _, none => []
  | 0, some _ => []
  | fuel + 1, some i => i :: iterate b fuel (findNext b i)

/-- dynamic_bitset.h L3041-3047 `==`. -/
def beq (b c : BS w) : Bool := decide (b.n = c.n) && decide (b.blocks = c.blocks)

/-- dynamic_bitset.h L3066-3071 and L3095-3102: compare the blocks `i, i-1, …, 0`; `none` if they agree. -/
def cmpDown (l r : List (BitVec w)) : Nat → Option Bool
  | 0 => if l.getD 0 0 ≠ r.getD 0 0 then some (decide (l.getD 0 0 < r.getD 0 0)) else none
  | i + 1 => if l.getD (i + 1) 0 ≠ r.getD (i + 1) 0 then some (decide (l.getD (i + 1) 0 < r.getD (i + 1) 0)) else cmpDown l r i

/-- dynamic_bitset.h L3049-3104 `<`. -/
def lt (b c : BS w) : Bool :=
  if b.n = c.n then (if b.n = 0 then false else (cmpDown b.blocks c.blocks (b.blocks.length - 1)).getD false)
  else if b.n = 0 then true
  else if c.n = 0 then false
  else
    let rhsLonger := decide (c.n > b.n)
    let long := if rhsLonger then c else b
    let short := min b.blocks.length c.blocks.length
    if (long.blocks.drop short).any fun x => x ≠ 0 then rhsLonger
    else (cmpDown b.blocks c.blocks (short - 1)).getD (decide (b.n < c.n))

/-- dynamic_bitset.h L2979-2986: the inner loop of `to_string` over one block `x`, whose first bit is bit `base`. -/
def toStringBlock {α : Type} (one : α) (len base : Nat) (x : BitVec w) : Nat → Nat → BitVec w → List α → List α
  | 0, _, _, s => s
  | c + 1, i, mask, s =>
    toStringBlock one len base x c (i + 1) (mask <<< 1) (if x &&& mask ≠ 0 then s.set (len - (base + i + 1)) one else s)

/-- dynamic_bitset.h L2971-2987: the outer loop of `to_string`. -/
def toStringLoop {α : Type} (one : α) (len : Nat) : List (BitVec w) → Nat → List α → List α
  | [], _, s => s
  | x :: xs, k, s =>
    if x = 0 then toStringLoop one len xs (k + 1) s
    else
      let limit := if k * w < len then len - k * w else w
      toStringLoop one len xs (k + 1) (toStringBlock one len (k * w) x limit 0 1#w s)

/-- dynamic_bitset.h L2965-2989 `to_string`. -/
def toStr {α : Type} (b : BS w) (zero one : α) : List α := toStringLoop one b.n b.blocks 0 (List.replicate b.n zero)

/-- dynamic_bitset.h L3350-3356: the loop of `init_from_string` over the characters from the last to the first. -/
def fromStrLoop {α : Type} [DecidableEq α] (one : α) : List α → Nat → BS w → Option (BS w)
  | [], _, b => some b
  | c :: cs, i, b => do
    let b' ← if c = one then set1 b i true else some b
    fromStrLoop one cs (i + 1) b'

/-- dynamic_bitset.h L3336-3357 `init_from_string`; `none` also if a character is neither `zero` nor `one`. -/
def fromStr {α : Type} [DecidableEq α] (str : List α) (pos n : Nat) (zero one : α) : Option (BS w) :=
  if pos < str.length then
    let sub := (str.drop pos).take n
    if sub.all fun c => c = zero ∨ c = one then
      fromStrLoop one sub.reverse 0 ⟨List.replicate (blocksRequired w sub.length) 0, sub.length⟩
    else none
  else none

end Yacl.Bitset
