/-
Model of the byte formats of the Bulletproofs proofs.

/repo/yacl/crypto/experimental/zkp/bulletproofs/ipa/inner_product_proof.{h,cc},
range_proof/range_proof.cc, r1cs/r1cs_proof.cc.

Bytes are `Nat` below 256, scalars are integers.  An exception and an access outside a buffer
(`std::memcpy` checks nothing) are different errors.  Points are an arbitrary type with the
functions of `EcGroup` the formats use; a view that `DeserializePoint` refuses is an exception.
The length fields are read as little-endian numbers (the machine's byte order), `size_t` sums do
not overflow.
-/
import Verif.MpInt.Props
import Mathlib.Tactic.Ring
import Mathlib.Tactic.Linarith

namespace Yacl.Bp.Bytes

/-- What goes wrong: an exception, or an access outside a buffer. -/
inductive Err
  | exn
  | oob
deriving DecidableEq, Repr

/-- `SerializePoint`, `DeserializePoint`, `GetSerializeLength`, `IsInfinity` and `MulBase(0)` of an
    `EcGroup` (ecc_spi.h). -/
structure Codec (P : Type) where
  ser : P → List Nat
  des : List Nat → Option P
  len : Nat
  inf : P → Bool
  zero : P

/-- The `n` lowest bytes of a number, least significant first. -/
def leB : Nat → Nat → List Nat
  | 0, _ => []
  | n + 1, v => v % 256 :: leB n (v / 256)

/-- `uint32_t` as stored by `std::memcpy` (inner_product_proof.cc L346-348). -/
def le4 (n : Nat) : List Nat := leB 4 n

/-- The integers' byte formats, at the level of values; `C116_int_bytes` ties them to the model of
    `MPInt`.  `MPInt::Serialize` (mp_int.cc L824-829): absolute value, sign in the top bit. -/
def serInt (z : Int) : List Nat :=
  let T := z.natAbs.size / 8 + 1
  leB T (z.natAbs + if z < 0 then 2 ^ (8 * T - 1) else 0)

/-- `ToMagBytes` into a vector of 32 zero bytes (range_proof.cc L694-703). -/
def mag32 (z : Int) : Except Err (List Nat) :=
  if z.natAbs < 256 ^ 32 then .ok (leB 32 z.natAbs) else .error .exn

/-- `ToBytes(32, little)` (r1cs_proof.cc L86-88): two's complement, cut off. -/
def toBytes32 (z : Int) : List Nat := leB 32 (z % 256 ^ 32).toNat

/-- `FromMagBytes(…, little)`. -/
def fromMag (b : List Nat) : Int := (Nat.ofDigits 256 b : Nat)

/-! ### Writing into a buffer -/

/-- `std::memcpy(ptr, data, size); ptr += size` (r1cs_proof.cc L37-40, range_proof.cc L711-714). -/
def put (st : List Nat × Nat) (data : List Nat) : Except Err (List Nat × Nat) :=
  if st.2 + data.length ≤ st.1.length then
    .ok (st.1.take st.2 ++ data ++ st.1.drop (st.2 + data.length), st.2 + data.length)
  else .error .oob

/-- Several writes, into a new buffer of `total` bytes holding `fill`, then the check that exactly
    `total` bytes were written (r1cs_proof.cc L64-95, range_proof.cc L707-735). -/
def putAll (total fill : Nat) (chunks : List (List Nat)) : Except Err (List Nat) := do
  let st ← chunks.foldlM put (List.replicate total fill, 0)
  if st.2 = total then .ok st.1 else .error .exn

/-! ### Reading from a buffer -/

/-- The bytes `[pos, pos+n)` (`std::memcpy`, `ByteContainerView(data + pos, n)`). -/
def view (bytes : List Nat) (pos n : Nat) : Except Err (List Nat) :=
  if pos + n ≤ bytes.length then .ok ((bytes.drop pos).take n) else .error .oob

/-- `subspan(pos, n)`: `n` is cut to what is there, a start behind the end is an exception
    (absl/std span as used in range_proof.cc L751-760). -/
def subspan (bytes : List Nat) (pos n : Nat) : Except Err (List Nat) :=
  if pos ≤ bytes.length then .ok ((bytes.drop pos).take n) else .error .exn

/-- A length field and the bytes it counts (inner_product_proof.cc L417-431 and the three other
    places of the same form). -/
def rdField (bytes : List Nat) (pos : Nat) : Except Err (List Nat × Nat) :=
  if bytes.length < pos + 4 then .error .exn
  else do
    let h ← view bytes pos 4
    let n := Nat.ofDigits 256 h
    if bytes.length < pos + 4 + n then .error .exn
    else do
      let x ← view bytes (pos + 4) n
      .ok (x, pos + 4 + n)

/-- `DeserializePoint`. -/
def desPoint {P : Type} (C : Codec P) (b : List Nat) : Except Err P :=
  match C.des b with
  | some p => .ok p
  | none => .error .exn

/-! ### Inner product proofs -/

/-- `InnerProductProof` (inner_product_proof.h L147-162). -/
structure Ipp (P : Type) where
  L : List P
  R : List P
  a : Int
  b : Int
deriving DecidableEq, Repr

/-- `SerializedSize` (inner_product_proof.h L126-132). -/
def ippSize {P : Type} (C : Codec P) (p : Ipp P) : Nat := p.L.length * 2 * C.len + 2 * 32

/-- A size field and the bytes (inner_product_proof.cc L353-360). -/
def field (b : List Nat) : List Nat := le4 b.length ++ b

/-- The loop over `L`, `R` (inner_product_proof.cc L351-371); a missing `R[i]` is read outside the
    vector. -/
def ippPairs {P : Type} (C : Codec P) : List P → List P → Except Err (List Nat)
  | [], _ => .ok []
  | _ :: _, [] => .error .oob
  | l :: ls, r :: rs => do
    let t ← ippPairs C ls rs
    .ok (field (C.ser l) ++ field (C.ser r) ++ t)

/-- `InnerProductProof::ToBytes` (inner_product_proof.cc L341-391). -/
def ippToBytes {P : Type} (C : Codec P) (p : Ipp P) : Except Err (List Nat) := do
  let t ← ippPairs C p.L p.R
  .ok (le4 p.L.length ++ t ++ field (serInt p.a) ++ field (serInt p.b))

/-- The loop of `FromBytes` (inner_product_proof.cc L415-451). -/
def rdPairs {P : Type} (C : Codec P) (bytes : List Nat) : Nat → Nat → Except Err (List P × List P × Nat)
  | 0, pos => .ok ([], [], pos)
  | n + 1, pos => do
    let l ← rdField bytes pos
    let lp ← desPoint C l.1
    let r ← rdField bytes l.2
    let rp ← desPoint C r.1
    let t ← rdPairs C bytes n r.2
    .ok (lp :: t.1, rp :: t.2.1, t.2.2)

/-- `InnerProductProof::FromBytes` (inner_product_proof.cc L393-493); `q` is the order. -/
def ippFromBytes {P : Type} (C : Codec P) (q : Int) (bytes : List Nat) : Except Err (Ipp P) :=
  if bytes.length < 4 then .error .exn
  else do
    let h ← view bytes 0 4
    let lg := Nat.ofDigits 256 h
    if 32 ≤ lg then .error .exn
    else do
      let t ← rdPairs C bytes lg 4
      let a ← rdField bytes t.2.2
      let b ← rdField bytes a.2
      .ok ⟨t.1, t.2.1, fromMag a.1 % q, fromMag b.1 % q⟩

/-! ### Range proofs -/

/-- `RangeProof` (range_proof.h L96-107). -/
structure Range (P : Type) where
  A : P
  S : P
  T1 : P
  T2 : P
  tx : Int
  txBlinding : Int
  eBlinding : Int
  ipp : Ipp P
deriving DecidableEq, Repr

/-- `RangeProof::ToBytes` (range_proof.cc L686-738). -/
def rangeToBytes {P : Type} (C : Codec P) (fill : Nat) (p : Range P) : Except Err (List Nat) := do
  let t ← mag32 p.tx
  let tb ← mag32 p.txBlinding
  let e ← mag32 p.eBlinding
  let i ← ippToBytes C p.ipp
  putAll (4 * C.len + 3 * 32 + i.length) fill
    [C.ser p.A, C.ser p.S, C.ser p.T1, C.ser p.T2, t, tb, e, i]

/-- `read_point` (range_proof.cc L748-753, r1cs_proof.cc L121-125). -/
def rdPoint {P : Type} (C : Codec P) (bytes : List Nat) (off : Nat) : Except Err P := do
  let v ← subspan bytes off C.len
  desPoint C v

/-- `read_scalar` (range_proof.cc L754-759, r1cs_proof.cc L126-131). -/
def rdScalar (bytes : List Nat) (off : Nat) : Except Err Int := do
  let v ← subspan bytes off 32
  .ok (fromMag v)

/-- `RangeProof::FromBytes` (range_proof.cc L740-774). -/
def rangeFromBytes {P : Type} (C : Codec P) (q : Int) (bytes : List Nat) : Except Err (Range P) :=
  if bytes.length < 4 * C.len + 3 * 32 then .error .exn
  else do
    let A ← rdPoint C bytes 0
    let S ← rdPoint C bytes C.len
    let T1 ← rdPoint C bytes (2 * C.len)
    let T2 ← rdPoint C bytes (3 * C.len)
    let t ← rdScalar bytes (4 * C.len)
    let tb ← rdScalar bytes (4 * C.len + 32)
    let e ← rdScalar bytes (4 * C.len + 64)
    let v ← subspan bytes (4 * C.len + 96) (bytes.length - (4 * C.len + 96))
    let i ← ippFromBytes C q v
    .ok ⟨A, S, T1, T2, t, tb, e, i⟩

/-! ### Rank-1 constraint proofs -/

/-- `R1CSProof` (r1cs_proof.h L21-42). -/
structure R1cs (P : Type) where
  AI1 : P
  AO1 : P
  S1 : P
  AI2 : P
  AO2 : P
  S2 : P
  T1 : P
  T3 : P
  T4 : P
  T5 : P
  T6 : P
  tx : Int
  txBlinding : Int
  eBlinding : Int
  ipp : Ipp P
deriving DecidableEq, Repr

/-- `MissingPhase2Commitments` (r1cs_proof.cc L43-47). -/
def onePhase {P : Type} (C : Codec P) (p : R1cs P) : Bool := C.inf p.AI2 && C.inf p.AO2 && C.inf p.S2

/-- What `R1CSProof::ToBytes` writes, in order (r1cs_proof.cc L66-91). -/
def r1csChunks {P : Type} (C : Codec P) (p : R1cs P) (ipp : List Nat) : List (List Nat) :=
  [[if onePhase C p then 0 else 1], C.ser p.AI1, C.ser p.AO1, C.ser p.S1]
    ++ (if onePhase C p then [] else [C.ser p.AI2, C.ser p.AO2, C.ser p.S2])
    ++ [C.ser p.T1, C.ser p.T3, C.ser p.T4, C.ser p.T5, C.ser p.T6,
        toBytes32 p.tx, toBytes32 p.txBlinding, toBytes32 p.eBlinding, ipp]

/-- The size of the buffer of `R1CSProof::ToBytes` (r1cs_proof.cc L51-61). -/
def r1csSize {P : Type} (C : Codec P) (p : R1cs P) : Nat :=
  1 + (if onePhase C p then 3 else 6) * C.len + 5 * C.len + 3 * 32 + ippSize C p.ipp

/-- `R1CSProof::ToBytes` (r1cs_proof.cc L49-98). -/
def r1csToBytes {P : Type} (C : Codec P) (fill : Nat) (p : R1cs P) : Except Err (List Nat) := do
  let i ← ippToBytes C p.ipp
  putAll (r1csSize C p) fill (r1csChunks C p i)

/-- A point of the second phase (r1cs_proof.cc L139-147). -/
def rdPhase2 {P : Type} (C : Codec P) (version : Nat) (slice : List Nat) (off : Nat) : Except Err P :=
  if version = 0 then .ok C.zero else rdPoint C slice off

/-- `R1CSProof::FromBytes` (r1cs_proof.cc L100-164). -/
def r1csFromBytes {P : Type} (C : Codec P) (q : Int) (bytes : List Nat) : Except Err (R1cs P) :=
  match bytes with
  | [] => .error .exn
  | version :: slice =>
    let k := if version = 0 then 3 else 6
    if slice.length < (k + 5) * C.len + 3 * 32 then .error .exn
    else do
      let AI1 ← rdPoint C slice 0
      let AO1 ← rdPoint C slice C.len
      let S1 ← rdPoint C slice (2 * C.len)
      let AI2 ← rdPhase2 C version slice (3 * C.len)
      let AO2 ← rdPhase2 C version slice (4 * C.len)
      let S2 ← rdPhase2 C version slice (5 * C.len)
      let T1 ← rdPoint C slice (k * C.len)
      let T3 ← rdPoint C slice ((k + 1) * C.len)
      let T4 ← rdPoint C slice ((k + 2) * C.len)
      let T5 ← rdPoint C slice ((k + 3) * C.len)
      let T6 ← rdPoint C slice ((k + 4) * C.len)
      let t ← rdScalar slice ((k + 5) * C.len)
      let tb ← rdScalar slice ((k + 5) * C.len + 32)
      let e ← rdScalar slice ((k + 5) * C.len + 64)
      let v ← subspan slice ((k + 5) * C.len + 96) (slice.length - ((k + 5) * C.len + 96))
      let i ← ippFromBytes C q v
      .ok ⟨AI1, AO1, S1, AI2, AO2, S2, T1, T3, T4, T5, T6, t, tb, e, i⟩

/-! ### Lemmas -/

theorem leB_length (n v : Nat) : (leB n v).length = n := by
  induction n generalizing v with
  | zero => rfl
  | succ n ih => simp [leB, ih]

theorem leB_lt (n v : Nat) : ∀ b ∈ leB n v, b < 256 := by
  induction n generalizing v with
  | zero => simp [leB]
  | succ n ih =>
    intro b hb
    rcases List.mem_cons.1 hb with rfl | hb
    · exact Nat.mod_lt _ (by norm_num)
    · exact ih _ b hb

theorem ofDigits_leB (n v : Nat) : Nat.ofDigits 256 (leB n v) = v % 256 ^ n := by
  induction n generalizing v with
  | zero => simp [leB, Nat.mod_one]
  | succ n ih =>
    rw [leB, Nat.ofDigits_cons, ih, pow_succ, Nat.mul_comm (256 ^ n), Nat.mod_mul]

theorem le4_spec (n : Nat) (h : n < 2 ^ 32) : Nat.ofDigits 256 (le4 n) = n := by
  rw [le4, ofDigits_leB]
  exact Nat.mod_eq_of_lt (by norm_num; norm_num at h; omega)

theorem le4_length (n : Nat) : (le4 n).length = 4 := leB_length 4 n

theorem field_length (b : List Nat) : (field b).length = 4 + b.length := by
  simp [field, le4_length]

theorem take_mid (pre x rest : List Nat) (n m : Nat) (hn : n = pre.length) (hm : m = x.length) :
    ((pre ++ x ++ rest).drop n).take m = x := by
  subst hn hm
  simp

theorem view_mid (pre x rest : List Nat) (n m : Nat) (hn : n = pre.length) (hm : m = x.length) :
    view (pre ++ x ++ rest) n m = .ok x := by
  unfold view
  rw [if_pos (by simp; omega), take_mid pre x rest n m hn hm]

theorem subspan_mid (bytes pre x rest : List Nat) (n m : Nat) (hb : bytes = pre ++ x ++ rest)
    (hn : n = pre.length) (hm : m = x.length) : subspan bytes n m = .ok x := by
  subst hb
  unfold subspan
  rw [if_pos (by simp; omega), take_mid pre x rest n m hn hm]

theorem rdField_mid (bytes pre x rest : List Nat) (n : Nat) (hb : bytes = pre ++ field x ++ rest)
    (hn : n = pre.length) (hx : x.length < 2 ^ 32) :
    rdField bytes n = .ok (x, n + 4 + x.length) := by
  have e1 : bytes = pre ++ le4 x.length ++ (x ++ rest) := by simp [hb, field]
  have e2 : bytes = (pre ++ le4 x.length) ++ x ++ rest := by simp [hb, field]
  have hl : bytes.length = n + 4 + x.length + rest.length := by
    rw [hb, List.length_append, List.length_append, field_length, hn]; omega
  unfold rdField
  rw [if_neg (by omega)]
  have v1 : view bytes n 4 = .ok (le4 x.length) := by
    rw [e1]; exact view_mid _ _ _ _ _ hn (le4_length _).symm
  have v2 : view bytes (n + 4) x.length = .ok x := by
    rw [e2]; exact view_mid _ _ _ _ _ (by simp [hn, le4_length]) rfl
  rw [v1]
  simp only [bind, Except.bind, le4_spec _ hx]
  rw [if_neg (by omega), v2]

theorem foldl_put (chunks : List (List Nat)) (buf : List Nat) (pos : Nat) (hp : pos ≤ buf.length) :
    chunks.foldlM put (buf, pos) =
      if pos + chunks.flatten.length ≤ buf.length then
        .ok (buf.take pos ++ chunks.flatten ++ buf.drop (pos + chunks.flatten.length), pos + chunks.flatten.length)
      else .error .oob := by
  induction chunks generalizing buf pos with
  | nil =>
    simp only [List.foldlM_nil, List.flatten_nil, List.length_nil, Nat.add_zero, if_pos hp, List.append_nil, List.take_append_drop]
    rfl
  | cons c cs ih =>
    rw [List.foldlM_cons]
    unfold put
    by_cases h : pos + c.length ≤ buf.length
    · simp only [bind, Except.bind]
      rw [if_pos h]
      simp only
      have hl : (buf.take pos ++ c ++ buf.drop (pos + c.length)).length = buf.length := by
        simp; omega
      have := ih (buf.take pos ++ c ++ buf.drop (pos + c.length)) (pos + c.length) (by omega)
      refine (Eq.trans ?_ this).trans ?_
      · rfl
      · rw [hl, List.flatten_cons, List.length_append, ← Nat.add_assoc]
        by_cases h2 : pos + c.length + cs.flatten.length ≤ buf.length
        · rw [if_pos h2, if_pos h2]
          congr 2
          have ht : (buf.take pos ++ c).length = pos + c.length := by simp; omega
          rw [List.take_append_of_le_length (by omega), List.take_of_length_le (by omega),
            List.drop_append, ht, List.drop_eq_nil_of_le (by omega), List.drop_drop]
          simp only [List.append_assoc, List.nil_append]
          congr 4
          omega
        · rw [if_neg h2, if_neg h2]
    · simp only [bind, Except.bind]
      rw [if_neg h, if_neg (by simp only [List.flatten_cons, List.length_append]; omega)]

/-- The outcome of the writes depends on the total length only. -/
theorem putAll_eq (total fill : Nat) (chunks : List (List Nat)) :
    putAll total fill chunks =
      if chunks.flatten.length = total then .ok chunks.flatten
      else if chunks.flatten.length < total then .error .exn else .error .oob := by
  unfold putAll
  rw [foldl_put _ _ _ (Nat.zero_le _)]
  simp only [List.length_replicate, Nat.zero_add, List.take_zero, List.nil_append, bind, Except.bind]
  by_cases h : chunks.flatten.length ≤ total
  · rw [if_pos h]
    simp only
    by_cases h2 : chunks.flatten.length = total
    · rw [if_pos h2, if_pos h2, List.drop_eq_nil_of_le (by rw [List.length_replicate]; omega), List.append_nil]
    · rw [if_neg h2, if_neg h2, if_pos (by omega)]
  · rw [if_neg h]
    simp only
    rw [if_neg (by omega), if_neg (by omega)]

end Yacl.Bp.Bytes
