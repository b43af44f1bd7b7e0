import Verif.Kernel.LinearCode

/-! The Silver code: yacl/kernel/code/silver_code.h, silver_code.cc. Model and specification for property C117.

`none` stands for an exception or for an access outside a buffer. Forming (not dereferencing) a pointer before a buffer, as `xi - gap_` does for short codes, is not modelled. -/
namespace Yacl.Silver
open Code (xorAt Additive Correlated)

/-! ### Model -/

/-- silver_code.cc L35-52 `diagMtx_g16_w5_seed1_t36`. -/
def diag5 : List (List Nat) :=
  [[0, 4, 11, 15],
   [0, 8, 9, 10],
   [1, 2, 10, 14],
   [0, 5, 8, 15],
   [3, 13, 14, 15],
   [2, 4, 7, 8],
   [0, 9, 12, 15],
   [1, 6, 8, 14],
   [4, 5, 6, 14],
   [1, 3, 8, 13],
   [3, 4, 7, 8],
   [3, 5, 9, 13],
   [8, 11, 12, 14],
   [6, 10, 12, 13],
   [2, 7, 8, 13],
   [0, 6, 10, 15]]

/-- silver_code.cc L57-90 `diagMtx_g32_w11_seed2_t36`. -/
def diag11 : List (List Nat) :=
  [[6, 7, 8, 12, 16, 17, 20, 22, 24, 25],
   [0, 1, 6, 10, 12, 13, 17, 19, 30, 31],
   [1, 4, 7, 10, 12, 16, 21, 22, 30, 31],
   [3, 5, 9, 13, 15, 21, 23, 25, 26, 27],
   [3, 8, 9, 14, 17, 19, 24, 25, 26, 28],
   [3, 11, 12, 13, 14, 16, 17, 21, 22, 30],
   [2, 4, 5, 11, 12, 17, 22, 24, 30, 31],
   [5, 8, 11, 12, 13, 17, 18, 20, 27, 29],
   [13, 16, 17, 18, 19, 20, 21, 22, 26, 30],
   [3, 8, 13, 15, 16, 17, 19, 20, 21, 27],
   [0, 2, 4, 5, 6, 21, 23, 26, 28, 30],
   [2, 4, 6, 8, 10, 11, 22, 26, 28, 30],
   [7, 9, 11, 14, 15, 16, 17, 18, 24, 30],
   [0, 3, 7, 12, 13, 18, 20, 24, 25, 28],
   [1, 5, 7, 8, 12, 13, 21, 24, 26, 27],
   [0, 16, 17, 19, 22, 24, 25, 27, 28, 31],
   [0, 6, 7, 15, 16, 18, 22, 24, 29, 30],
   [2, 3, 4, 7, 15, 17, 18, 20, 22, 26],
   [2, 3, 9, 16, 17, 19, 24, 27, 29, 31],
   [1, 3, 5, 7, 13, 14, 20, 23, 24, 27],
   [0, 2, 3, 9, 10, 14, 19, 20, 21, 25],
   [4, 13, 16, 20, 21, 23, 25, 27, 28, 31],
   [1, 2, 5, 6, 9, 13, 15, 17, 20, 24],
   [0, 4, 7, 8, 12, 13, 20, 23, 28, 30],
   [0, 3, 4, 5, 8, 9, 23, 25, 26, 28],
   [0, 3, 4, 7, 8, 10, 11, 15, 21, 26],
   [5, 6, 7, 8, 10, 11, 15, 21, 22, 25],
   [0, 1, 2, 3, 8, 9, 22, 24, 27, 28],
   [1, 2, 13, 14, 15, 16, 19, 22, 29, 30],
   [2, 14, 15, 16, 19, 20, 25, 26, 28, 29],
   [8, 9, 11, 12, 13, 15, 17, 18, 23, 27],
   [0, 2, 4, 5, 6, 7, 10, 12, 14, 19]]

/-- The band of the right matrix, by weight (silver_code.cc, the `case 5` and `case 11` branches). -/
def diag (weight : Nat) : List (List Nat) := if weight = 5 then diag5 else diag11

/-- silver_code.cc L100, L105: `gap_`. -/
def gapOf (weight : Nat) : Nat := if weight = 5 then 16 else 32

/-- The data members (silver_code.h L112-116). -/
structure Code where
  n : Nat
  m : Nat
  weight : Nat
  idx : List Nat
  deriving DecidableEq

/-- `std::set<uint32_t>::insert` of a new element: the set is its sorted list. -/
def insertSorted (x : Nat) : List Nat → List Nat
  | [] => [x]
  | y :: ys => if x < y then x :: y :: ys else y :: insertSorted x ys

/-- silver_code.cc L206-211: linear probing from `tmp`; `left` is `1000 - collision_counter`. Returns the set and what is left of the counter. -/
def probe (n : Nat) (set : List Nat) : Nat → Nat → List Nat × Nat
  | 0, _ => (set, 0)
  | left + 1, tmp => if tmp ∈ set then probe n set left ((tmp + 1) % n) else (insertSorted tmp set, left + 1)

/-- silver_code.cc L197-217 `InitLeftMatrix`. `starts` are the values `static_cast<uint32_t>(n_ * R[i])`, a floating-point product that is not modelled. -/
def initLeft (n weight : Nat) (starts : List Nat) : Option (List Nat) :=
  if starts.length = weight then
    let r := starts.foldl (fun st s => probe n st.1 st.2 (s % n)) (([] : List Nat), 1000)
    if r.1.length = weight then some r.1 else none
  else none

/-- silver_code.cc L95-111, silver_code.h L112-116: the constructor; `n` is a `uint64_t`, `n_` and `m_` are `uint32_t`. -/
def mk (n weight : Nat) (starts : List Nat) : Option Code :=
  let n' := n % 2 ^ 32
  let build := (initLeft n' weight starts).map fun idx => ⟨n', 2 * n % 2 ^ 32, weight, idx⟩
  if weight = 5 then (if n ≥ 5 then build else none)
  else if weight = 11 then (if n ≥ 11 then build else none)
  else none

/-- `p[i] ^= v`. -/
def xorIdx {w : Nat} (x : List (BitVec w)) (i : Nat) (v : BitVec w) : Option (List (BitVec w)) :=
  if i < x.length then some (x.set i (x.getD i 0 ^^^ v)) else none

/-- The index of `xx + d`, where `xx` points to element `i - gap` (silver_code.cc L423-424). -/
def ptr (i gap d : Nat) : Option Nat := if gap ≤ i + d then some (i + d - gap) else none

/-- silver_code.cc L430-433, L449-458: `*(xx + diag[i & (gap - 1)][j]) ^= tmp` for every `j`. -/
def fastDiag {w : Nat} (i gap : Nat) (tmp : BitVec w) : List Nat → List (BitVec w) → Option (List (BitVec w))
  | [], x => some x
  | d :: ds, x =>
    match ptr i gap d with
    | none => none
    | some p =>
      match xorIdx x p tmp with
      | none => none
      | some x' => fastDiag i gap tmp ds x'

/-- silver_code.cc L427-443, L446-468: the loop for `i > lower_bound`; the first argument is `i + 1`. Returns `i + 1`, the elements and the two offsets. -/
def fast {w : Nat} (weight gap : Nat) : Nat → List (BitVec w) → BitVec 32 → BitVec 32 → Option (Nat × List (BitVec w) × BitVec 32 × BitVec 32)
  | 0, x, o0, o1 => some (0, x, o0, o1)
  | i + 1, x, o0, o1 =>
    if i > max 5 31 + gap then
      let tmp := x.getD i 0
      match fastDiag i gap tmp ((diag weight).getD (i &&& (gap - 1)) []) x with
      | none => none
      | some x1 =>
        match xorIdx x1 o0.toNat tmp with
        | none => none
        | some x2 =>
          match xorIdx x2 o1.toNat tmp with
          | none => none
          | some x3 => fast weight gap i x3 (o0 - 1) (o1 - 1)
    else some (i + 1, x, o0, o1)

/-- silver_code.cc L479-485, L499-505: the loop over `j` downwards (the list is the reversed row), in 32-bit arithmetic. -/
def tailDiag {w : Nat} (n i gap : Nat) (tmp : BitVec w) : List Nat → List (BitVec w) → Option (List (BitVec w))
  | [], x => some x
  | d :: ds, x =>
    let p : BitVec 32 := BitVec.ofNat 32 d + BitVec.ofNat 32 i - BitVec.ofNat 32 gap
    if p.toNat ≥ n then some x
    else
      match xorIdx x p.toNat tmp with
      | none => none
      | some x' => tailDiag n i gap tmp ds x'

/-- silver_code.cc L486-493, L506-513: `if (n_ > offset) { inout[offset] ^= tmp; --offset; }`. -/
def tailOff {w : Nat} (n : Nat) (tmp : BitVec w) (x : List (BitVec w)) (o : BitVec 32) : Option (List (BitVec w) × BitVec 32) :=
  if n > o.toNat then (xorIdx x o.toNat tmp).map fun x' => (x', o - 1) else some (x, o)

/-- silver_code.cc L475-519: the loop down to `i = 0`; the first argument is `i + 1`. -/
def tail {w : Nat} (n weight gap : Nat) : Nat → List (BitVec w) → BitVec 32 → BitVec 32 → Option (List (BitVec w))
  | 0, x, _, _ => some x
  | i + 1, x, o0, o1 =>
    let tmp := x.getD i 0
    match tailDiag n i gap tmp ((diag weight).getD (i &&& (gap - 1)) []).reverse x with
    | none => none
    | some x1 =>
      match tailOff n tmp x1 o0 with
      | none => none
      | some (x2, o0') =>
        match tailOff n tmp x2 o1 with
        | none => none
        | some (x3, o1') => tail n weight gap i x3 o0' o1'

/-- silver_code.cc L418-419: `n_ - gap_ - 1 - R_offset_[k]` in 32 bits. -/
def offset (n gap r : Nat) : BitVec 32 := BitVec.ofNat 32 n - BitVec.ofNat 32 gap - 1 - BitVec.ofNat 32 r

/-- silver_code.cc L414-520 `RightEncode`. -/
def rightEncode {w : Nat} (c : Code) (x : List (BitVec w)) : Option (List (BitVec w)) :=
  let gap := gapOf c.weight
  if x.length ≥ c.n then
    match fast c.weight gap c.n x (offset c.n gap 5) (offset c.n gap 31) with
    | none => none
    | some (k, x', o0, o1) => tail c.n c.weight gap k x' o0 o1
  else none

/-- silver_code.cc L254-260, L264-278: one output, `*out ^ *(in_ptrs[0]) ^ …`, the pointers being `t` past the entries. -/
def leftOne {w : Nat} (inp : List (BitVec w)) (t : Nat) : List Nat → BitVec w → Option (BitVec w)
  | [], a => some a
  | e :: es, a => match inp[e + t]? with | none => none | some v => leftOne inp t es (a ^^^ v)

/-- silver_code.cc L250-289: the loop over the outputs `i + t` of a chunk, for `t` from `t` on. -/
def leftChunk {w : Nat} (inp : List (BitVec w)) (entries : List Nat) (i : Nat) : Nat → Nat → List (BitVec w) → Option (List (BitVec w))
  | 0, _, out => some out
  | k + 1, t, out =>
    match out[i + t]? with
    | none => none
    | some a =>
      match leftOne inp t entries a with
      | none => none
      | some v => leftChunk inp entries i k (t + 1) (out.set (i + t) v)

/-- silver_code.cc L219-291 `LeftEncode`, the loop over chunks. The loop ends within `n` rounds (`fuel`). -/
def leftLoop {w : Nat} (n : Nat) (inp : List (BitVec w)) : Nat → List Nat → Nat → List (BitVec w) → Option (List (BitVec w))
  | 0, _, i, out => if i < n then none else some out
  | fuel + 1, entries, i, out =>
    if i < n then
      match entries.getLast? with
      | none => none
      | some mx =>
        if entries.all (· ≤ mx) then
          let step := min (n - mx) (n - i)
          match leftChunk inp entries i step 0 out with
          | none => none
          | some out' => leftLoop n inp fuel (0 :: (entries.map (· + step)).dropLast) (i + step) out'
        else none
    else some out

/-- silver_code.cc L219-291 `LeftEncode`. -/
def leftEncode {w : Nat} (c : Code) (inp out : List (BitVec w)) : Option (List (BitVec w)) :=
  if inp.length ≥ c.n ∧ out.length ≥ c.n ∧ c.idx.length = c.weight ∧ (c.weight = 5 ∨ c.weight = 11) then leftLoop c.n inp c.n c.idx 0 out else none

/-- silver_code.cc L136-144 `DualEncodeInplace`. `subspan(pos, len)` throws for `pos` beyond the end and clamps `len`. -/
def dualEncodeInplace {w : Nat} (c : Code) (x : List (BitVec w)) : Option (List (BitVec w)) :=
  if x.length ≥ c.m then
    if c.n ≤ x.length then
      match rightEncode c ((x.drop c.n).take c.n) with
      | none => none
      | some r =>
        match leftEncode c r (x.take c.n) with
        | none => none
        | some l => some (l ++ r ++ x.drop (c.n + c.n))
    else none
  else none

/-- silver_code.cc L146-160 `DualEncode`. A copy range that ends before it begins is an error. -/
def dualEncode {w : Nat} (c : Code) (inp out : List (BitVec w)) : Option (List (BitVec w)) :=
  if inp.length ≥ c.m ∧ out.length ≥ c.n ∧ c.n ≤ c.m then
    match rightEncode c ((inp.drop c.n).take (c.m - c.n)) with
    | none => none
    | some r =>
      match leftEncode c r (inp.take c.n) with
      | none => none
      | some l => some (l ++ out.drop c.n)
  else none

/-! The versions for two messages of different types run both in lock step. -/

/-- silver_code.cc L545-553, L575-595. -/
def fastDiag2 {v w : Nat} (i gap : Nat) (t0 : BitVec v) (t1 : BitVec w) : List Nat → List (BitVec v) → List (BitVec w) → Option (List (BitVec v) × List (BitVec w))
  | [], x, y => some (x, y)
  | d :: ds, x, y =>
    match ptr i gap d with
    | none => none
    | some p =>
      match xorIdx x p t0, xorIdx y p t1 with
      | some x', some y' => fastDiag2 i gap t0 t1 ds x' y'
      | _, _ => none

/-- silver_code.cc L541-568, L571-611: the first loop of `RightEncode2`. -/
def fast2 {v w : Nat} (weight gap : Nat) : Nat → List (BitVec v) → List (BitVec w) → BitVec 32 → BitVec 32 → Option (Nat × List (BitVec v) × List (BitVec w) × BitVec 32 × BitVec 32)
  | 0, x, y, o0, o1 => some (0, x, y, o0, o1)
  | i + 1, x, y, o0, o1 =>
    if i > max 5 31 + gap then
      let t0 := x.getD i 0
      let t1 := y.getD i 0
      match fastDiag2 i gap t0 t1 ((diag weight).getD (i &&& (gap - 1)) []) x y with
      | none => none
      | some (x1, y1) =>
        match xorIdx x1 o0.toNat t0, xorIdx y1 o0.toNat t1 with
        | some x2, some y2 =>
          match xorIdx x2 o1.toNat t0, xorIdx y2 o1.toNat t1 with
          | some x3, some y3 => fast2 weight gap i x3 y3 (o0 - 1) (o1 - 1)
          | _, _ => none
        | _, _ => none
    else some (i + 1, x, y, o0, o1)

/-- silver_code.cc L623-630, L647-654. -/
def tailDiag2 {v w : Nat} (n i gap : Nat) (t0 : BitVec v) (t1 : BitVec w) : List Nat → List (BitVec v) → List (BitVec w) → Option (List (BitVec v) × List (BitVec w))
  | [], x, y => some (x, y)
  | d :: ds, x, y =>
    let p : BitVec 32 := BitVec.ofNat 32 d + BitVec.ofNat 32 i - BitVec.ofNat 32 gap
    if p.toNat ≥ n then some (x, y)
    else
      match xorIdx x p.toNat t0, xorIdx y p.toNat t1 with
      | some x', some y' => tailDiag2 n i gap t0 t1 ds x' y'
      | _, _ => none

/-- silver_code.cc L631-640, L655-664. -/
def tailOff2 {v w : Nat} (n : Nat) (t0 : BitVec v) (t1 : BitVec w) (x : List (BitVec v)) (y : List (BitVec w)) (o : BitVec 32) : Option (List (BitVec v) × List (BitVec w) × BitVec 32) :=
  if n > o.toNat then
    match xorIdx x o.toNat t0, xorIdx y o.toNat t1 with
    | some x', some y' => some (x', y', o - 1)
    | _, _ => none
  else some (x, y, o)

/-- silver_code.cc L618-670: the second loop of `RightEncode2`. -/
def tail2 {v w : Nat} (n weight gap : Nat) : Nat → List (BitVec v) → List (BitVec w) → BitVec 32 → BitVec 32 → Option (List (BitVec v) × List (BitVec w))
  | 0, x, y, _, _ => some (x, y)
  | i + 1, x, y, o0, o1 =>
    let t0 := x.getD i 0
    let t1 := y.getD i 0
    match tailDiag2 n i gap t0 t1 ((diag weight).getD (i &&& (gap - 1)) []).reverse x y with
    | none => none
    | some (x1, y1) =>
      match tailOff2 n t0 t1 x1 y1 o0 with
      | none => none
      | some (x2, y2, o0') =>
        match tailOff2 n t0 t1 x2 y2 o1 with
        | none => none
        | some (x3, y3, o1') => tail2 n weight gap i x3 y3 o0' o1'

/-- silver_code.cc L522-671 `RightEncode2`. -/
def rightEncode2 {v w : Nat} (c : Code) (x : List (BitVec v)) (y : List (BitVec w)) : Option (List (BitVec v) × List (BitVec w)) :=
  let gap := gapOf c.weight
  if x.length ≥ c.n ∧ y.length ≥ c.n then
    match fast2 c.weight gap c.n x y (offset c.n gap 5) (offset c.n gap 31) with
    | none => none
    | some (k, x', y', o0, o1) => tail2 c.n c.weight gap k x' y' o0 o1
  else none

/-- silver_code.cc L332-402: the loop over the outputs of a chunk in `LeftEncode2`. -/
def leftChunk2 {v w : Nat} (in0 : List (BitVec v)) (in1 : List (BitVec w)) (entries : List Nat) (i : Nat) :
    Nat → Nat → List (BitVec v) → List (BitVec w) → Option (List (BitVec v) × List (BitVec w))
  | 0, _, out0, out1 => some (out0, out1)
  | k + 1, t, out0, out1 =>
    match out0[i + t]?, out1[i + t]? with
    | some a, some b =>
      match leftOne in0 t entries a, leftOne in1 t entries b with
      | some u, some z => leftChunk2 in0 in1 entries i k (t + 1) (out0.set (i + t) u) (out1.set (i + t) z)
      | _, _ => none
    | _, _ => none

/-- silver_code.cc L293-404 `LeftEncode2`, the loop over chunks. -/
def leftLoop2 {v w : Nat} (n : Nat) (in0 : List (BitVec v)) (in1 : List (BitVec w)) :
    Nat → List Nat → Nat → List (BitVec v) → List (BitVec w) → Option (List (BitVec v) × List (BitVec w))
  | 0, _, i, out0, out1 => if i < n then none else some (out0, out1)
  | fuel + 1, entries, i, out0, out1 =>
    if i < n then
      match entries.getLast? with
      | none => none
      | some mx =>
        if entries.all (· ≤ mx) then
          let step := min (n - mx) (n - i)
          match leftChunk2 in0 in1 entries i step 0 out0 out1 with
          | none => none
          | some (out0', out1') => leftLoop2 n in0 in1 fuel (0 :: (entries.map (· + step)).dropLast) (i + step) out0' out1'
        else none
    else some (out0, out1)

/-- silver_code.cc L293-404 `LeftEncode2`. -/
def leftEncode2 {v w : Nat} (c : Code) (in0 out0 : List (BitVec v)) (in1 out1 : List (BitVec w)) : Option (List (BitVec v) × List (BitVec w)) :=
  if in0.length ≥ c.n ∧ out0.length ≥ c.n ∧ in1.length ≥ c.n ∧ out1.length ≥ c.n ∧ c.idx.length = c.weight ∧ (c.weight = 5 ∨ c.weight = 11) then
    leftLoop2 c.n in0 in1 c.n c.idx 0 out0 out1 else none

/-- silver_code.cc L162-173 `DualEncodeInplace2`. -/
def dualEncodeInplace2 {v w : Nat} (c : Code) (x : List (BitVec v)) (y : List (BitVec w)) : Option (List (BitVec v) × List (BitVec w)) :=
  if x.length ≥ c.m ∧ y.length ≥ c.m then
    if c.n ≤ x.length ∧ c.n ≤ y.length then
      match rightEncode2 c ((x.drop c.n).take c.n) ((y.drop c.n).take c.n) with
      | none => none
      | some (r, s) =>
        match leftEncode2 c r (x.take c.n) s (y.take c.n) with
        | none => none
        | some (l, k) => some (l ++ r ++ x.drop (c.n + c.n), k ++ s ++ y.drop (c.n + c.n))
    else none
  else none

/-- silver_code.cc L175-195 `DualEncode2`. -/
def dualEncode2 {v w : Nat} (c : Code) (in0 out0 : List (BitVec v)) (in1 out1 : List (BitVec w)) : Option (List (BitVec v) × List (BitVec w)) :=
  if in0.length ≥ c.m ∧ out0.length ≥ c.n ∧ in1.length ≥ c.m ∧ out1.length ≥ c.n ∧ c.n ≤ c.m then
    match rightEncode2 c ((in0.drop c.n).take (c.m - c.n)) ((in1.drop c.n).take (c.m - c.n)) with
    | none => none
    | some (r, s) =>
      match leftEncode2 c r (in0.take c.n) s (in1.take c.n) with
      | none => none
      | some (l, k) => some (l ++ out0.drop c.n, k ++ out1.drop c.n)
  else none

/-! ### Specification -/

/-- The right matrix of the paper's Appendix F, below the diagonal: row `i` has ones in the band `[i - gap, i)` where the table says so, and at distance `5` and `31` before the band. -/
def below (weight i c : Nat) : Bool :=
  ((diag weight).getD (i % gapOf weight) []).any (fun d => c + gapOf weight == i + d) || c + gapOf weight + 5 == i || c + gapOf weight + 31 == i

/-- The right matrix `R`: unit diagonal, and the ones below it. -/
def R (weight i c : Nat) : Bool := c == i || below weight i c

/-- Column `c` of `x * M`, over the first `n` elements of `x`. -/
def mulMat {w : Nat} (n : Nat) (M : Nat → Nat → Bool) (x : Nat → BitVec w) (c : Nat) : BitVec w :=
  ((List.range n).map fun i => if M i c then x i else 0).foldr (· ^^^ ·) 0

/-- The left matrix `L`: the circulant matrix whose first column has ones at `idx`. -/
def L (n : Nat) (idx : List Nat) (i c : Nat) : Bool := idx.any fun j => (j + c) % n == i

/-- Element `i` of a buffer. -/
def at_ {w : Nat} (x : List (BitVec w)) (i : Nat) : BitVec w := x.getD i 0
