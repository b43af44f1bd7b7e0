import Verif.Ecc.CudaScan

/-! Model of the hash-to-curve device function, of the kernels and of the launches of the GPU code for SM2
(yacl/crypto/ecc/cuda/kernels/sm2_kernels.cu L751-761, L1292-1325, L1836-2570). -/

namespace Yacl.Cuda

/-- sm2_kernels.cu L751-754 `affinePointToMont`. -/
def affToMont (p : Aff) : Aff := ⟨fpToMont p.x, fpToMont p.y⟩
/-- sm2_kernels.cu L757-761 `affinePointFromMont`. -/
def affFromMont (p : Aff) : Aff := ⟨fpFromMont p.x, fpFromMont p.y⟩

/-- sm2_kernels.cu L49-57 `kSm2A`, `kSm2B`, and L60-66 `kSm2AMont`, `kSm2BMont`. -/
def curveA : Fe := ⟨0xFFFFFFFFFFFFFFFC, 0xFFFFFFFF00000000, 0xFFFFFFFFFFFFFFFF, 0xFFFFFFFEFFFFFFFF⟩
def curveB : Fe := ⟨0xDDBCBD414D940E93, 0xF39789F515AB8F92, 0x4D5A9E4BCF6509A7, 0x28E9FA9E9D9F5E34⟩
def aMont : Fe := ⟨0xFFFFFFFFFFFFFFFC, 0xFFFFFFFC00000003, 0xFFFFFFFFFFFFFFFF, 0xFFFFFFFBFFFFFFFF⟩
def bMont : Fe := ⟨0x90D230632BC0DD42, 0x71CF379AE9B537AB, 0x527981505EA51C3C, 0x240FE188BA20E2C8⟩

/-- sm2_kernels.cu L1292-1325 `pointIsOnCurve`. -/
def pointIsOnCurve (P : Jac) : Bool :=
  if jIsInf P then true else
    let a := jacobianToAffine P
    let lhs := fpSqr a.y
    let rhs := fpMul (fpSqr a.x) a.x
    let rhs := fpAdd rhs (fpMul (fpToMont curveA) a.x)
    let rhs := fpAdd rhs (fpToMont curveB)
    fpEqual lhs rhs

/-- sm2_kernels.cu L1836-1852 `digestToSm2X`; a digest is given by its four limbs, the big-endian number it spells. -/
def digestToX (d : Fe) : Fe :=
  let s := sub256 d prime
  if s.2 = 0 then s.1 else d

/-- The body of the loop of `hashToCurveTryAndRehashSmFromDigest` after the conversion to Montgomery form (L1870-1888). -/
def hashFrom (x : Fe) : Option Aff :=
  (fpSqrt (fpAdd (fpAdd (fpMul (fpSqr x) x) (fpMul aMont x)) bMont)).map fun y =>
    ⟨x, if (fpFromMont y).l0 % 2 = 1 then fpNeg y else y⟩
/-- The body of that loop (L1864-1888). -/
def hashStep (d : Fe) : Option Aff := hashFrom (fpToMont (digestToX d))

/-- sm2_kernels.cu L1854-1903 `hashToCurveTryAndRehashSmFromDigest` with `n` tries left; `sm3` is the hash of a 32-byte message
(L1763-1834), here any function. -/
def hashLoop (sm3 : Fe → Fe) : ℕ → Fe → Option Aff
  | 0, _ => none
  | n + 1, d => (hashStep d).or (hashLoop sm3 n (sm3 d))
def hashToCurve (sm3 : Fe → Fe) (d : Fe) : Option Aff := hashLoop sm3 100 d

/-! ### Launches -/

/-- Host wrappers, e.g. L2225: the number of blocks, computed in `int`; `none` when the sum leaves the type, which is undefined. -/
def numBlocks (count : ℕ) : Option ℕ := if count + 255 < 2 ^ 31 then some ((count + 255) / 256) else none

/-- What a kernel with the block-wide inversion writes to `results[idx]` (e.g. L1905-1931, L2001-2046); `none`: nothing.  `f` is what the
active threads compute, `ok` whether they succeeded, `ord` the schedules of the blocks. -/
def kernelOut (ord : ℕ → ℕ → ℕ → List ℕ) (nb count : ℕ) (f : ℕ → Jac) (ok : ℕ → Bool) (idx : ℕ) : Option Aff :=
  let b := idx / 256
  if nb ≤ b then none else
    let jac := fun t => if b * 256 + t < count then f (b * 256 + t) else jInf
    let active := fun t => decide (b * 256 + t < count) && ok (b * 256 + t)
    if ¬ idx < count then none
    else if !ok idx then some ⟨fpZero, fpZero⟩
    else some (affFromMont (batchInv 8 (ord b) jac active (idx % 256)))

/-- How a host wrapper ends. -/
inductive Launch where
  | invalidInput
  | undefined
  | done (results : ℕ → Option Aff)

/-- The host wrappers (L2194-2570) around a kernel with the block-wide inversion; failures of the CUDA runtime are not modelled. -/
def launch (ord : ℕ → ℕ → ℕ → List ℕ) (count : ℤ) (f : ℕ → Jac) (ok : ℕ → Bool) : Launch :=
  if count ≤ 0 then .invalidInput else
    match numBlocks count.toNat with
    | none => .undefined
    | some nb => .done (kernelOut ord nb count.toNat f ok)

/-- L1905-1931 `batchFixedBaseMulKernel`. -/
def batchMulBase (ord : ℕ → ℕ → ℕ → List ℕ) (table : ℕ → Aff) (ks : ℕ → Fe) (count : ℤ) : Launch :=
  launch ord count (fun i => scalarMulFixedBase table (ks i)) (fun _ => true)
/-- L1933-1965 `batchVarBaseMulKernel`; the recoding never leaves its buffer (C149). -/
def batchMul (ord : ℕ → ℕ → ℕ → List ℕ) (ps : ℕ → Aff) (ks : ℕ → Fe) (count : ℤ) : Launch :=
  launch ord count (fun i => (scalarMulVarBase (affToMont (ps i)) (ks i)).getD jInf) (fun _ => true)
/-- L1967-1999 `batchSameScalarMulKernel`. -/
def batchMulSame (ord : ℕ → ℕ → ℕ → List ℕ) (ps : ℕ → Aff) (k : Fe) (count : ℤ) : Launch :=
  launch ord count (fun i => (scalarMulVarBase (affToMont (ps i)) k).getD jInf) (fun _ => true)
/-- L2048-2082 `batchPointAddKernel`. -/
def batchAdd (ord : ℕ → ℕ → ℕ → List ℕ) (ps qs : ℕ → Aff) (count : ℤ) : Launch :=
  launch ord count (fun i => pointAdd (affineToJacobian (affToMont (ps i))) (affineToJacobian (affToMont (qs i)))) (fun _ => true)
/-- L2084-2116 `batchPointDoubleKernel`. -/
def batchDouble (ord : ℕ → ℕ → ℕ → List ℕ) (ps : ℕ → Aff) (count : ℤ) : Launch :=
  launch ord count (fun i => pointDouble (affineToJacobian (affToMont (ps i)))) (fun _ => true)
/-- L2151-2192 `batchDoubleBaseMulKernel`. -/
def batchDoubleBase (ord : ℕ → ℕ → ℕ → List ℕ) (table : ℕ → Aff) (s1 s2 : ℕ → Fe) (ps : ℕ → Aff) (count : ℤ) : Launch :=
  launch ord count
    (fun i => pointAdd (scalarMulFixedBase table (s1 i)) ((scalarMulVarBase (affToMont (ps i)) (s2 i)).getD jInf)) (fun _ => true)
/-- L2118-2135 `batchPointNegateKernel`, for one index. -/
def negateOut (p : Aff) : Aff :=
  let m := affToMont p
  affFromMont ⟨m.x, fpNeg m.y⟩
/-- L2137-2149 `batchIsOnCurveKernel`, for one index. -/
def onCurveOut (p : Aff) : Bool := pointIsOnCurve (affineToJacobian (affToMont p))

/-- L2015: the offset `idx * 32` of a digest, computed in `int`; `none` when it leaves the type. -/
def digestOffset (idx : ℕ) : Option ℕ := if idx * 32 < 2 ^ 31 then some (idx * 32) else none

/-- L2001-2046 `batchHashAndMulFromSm3DigestsKernel` and its wrapper, with the error flag: the flag is set when some active index fails. -/
def batchHashMul (ord : ℕ → ℕ → ℕ → List ℕ) (sm3 : Fe → Fe) (ds : ℕ → Fe) (k : Fe) (count : ℤ) : Launch × Bool :=
  if (List.range count.toNat).any fun i => (digestOffset i).isNone then (.undefined, false) else
  (launch ord count
    (fun i => (hashToCurve sm3 (ds i)).elim jInf fun P => (scalarMulVarBase P k).getD jInf)
    (fun i => (hashToCurve sm3 (ds i)).isSome),
   (List.range count.toNat).any fun i => (hashToCurve sm3 (ds i)).isNone)

/-- L1718-1720 `rotl32`; `none` when a shift is by the width of the type or more, which is undefined. -/
def rotl32 (x n : ℕ) : Option ℕ := if n < 32 ∧ 32 - n < 32 then some ((x * 2 ^ n % 2 ^ 32) ||| (x / 2 ^ (32 - n))) else none

/-- L1800-1802: the rotated constant of round `j` of SM3. -/
def sm3Const (j : ℕ) : Option ℕ := rotl32 (if j < 16 then 0x79CC4519 else 0x7A879D8A) (j % 32)

/-! ### Specification -/

/-- The residue modulo the prime of the number the limbs spell. -/
noncomputable def Fe.res (a : Fe) : ZMod Pm := (a.val : ZMod Pm)

/-- Coordinates in normal form, as the caller passes and receives them, stand for the point `Q`: reduced, and (0, 0) for infinity. -/
def RepN (p : Aff) (Q : E.Point) : Prop :=
  (p.x.Red ∧ p.y.Red) ∧
  match Q with
  | .zero => p.x.val = 0 ∧ p.y.val = 0
  | .some x y _ => p.x.res = x ∧ p.y.res = y

/-- The right side of the curve equation. -/
def rhsOf (x : ZMod Pm) : ZMod Pm := x ^ 3 + ((Yacl.Ecc.sm2.A : ℤ) : ZMod Pm) * x + ((Yacl.Ecc.sm2.B : ℤ) : ZMod Pm)

/-- The `t`-th candidate: the digest hashed `t` times again, modulo the prime. -/
noncomputable def cand (sm3 : Fe → Fe) (d : Fe) (t : ℕ) : ZMod Pm := (sm3^[t] d).res

/-- Try-and-rehash (openssl_group.cc L387-412) ends at `Q`: the first of a hundred candidates that is the abscissa of a point of the
curve, with the even ordinate. -/
def HashesTo (sm3 : Fe → Fe) (d : Fe) (Q : E.Point) : Prop :=
  ∃ t < 100, (∀ s < t, ¬ IsSquare (rhsOf (cand sm3 d s))) ∧
    ∃ y, ∃ h : E.Nonsingular (cand sm3 d t) y, Q = .some (cand sm3 d t) y h ∧ y.val % 2 = 0

/-- Try-and-rehash fails: none of the hundred candidates is an abscissa. -/
def HashFails (sm3 : Fe → Fe) (d : Fe) : Prop := ∀ t < 100, ¬ IsSquare (rhsOf (cand sm3 d t))

/-! ### Proof -/

theorem toMont_res (a : Fe) (ha : a.Wf) : (fpToMont a).Red ∧ (fpToMont a).dec = a.res := C148_toMont a ha
theorem fromMont_res (a : Fe) (ha : a.Red) : (fpFromMont a).Red ∧ (fpFromMont a).res = a.dec := C148_fromMont a ha
theorem res_of_zero {a : Fe} (h : a.val = 0) : a.res = 0 := by rw [Fe.res, h, Nat.cast_zero]
theorem zero_of_res {a : Fe} (h : a.Red) (e : a.res = 0) : a.val = 0 :=
  Nat.eq_zero_of_dvd_of_lt ((ZMod.natCast_eq_zero_iff _ _).1 e) h.2
theorem res_val {a : Fe} (h : a.Red) : a.res.val = a.val := ZMod.val_cast_of_lt h.2

attribute [irreducible] Fe.res

theorem toMont_rep {p : Aff} {Q : E.Point} (h : RepN p Q) : RepA (affToMont p) Q := by
  obtain ⟨⟨hx, hy⟩, hq⟩ := h
  obtain ⟨a, b⟩ := toMont_res p.x hx.1
  obtain ⟨c, d⟩ := toMont_res p.y hy.1
  unfold affToMont
  generalize fpToMont p.x = X at *
  generalize fpToMont p.y = Y at *
  refine ⟨⟨a, c⟩, ?_⟩
  cases Q with
  | zero => exact ⟨b.trans (res_of_zero hq.1), d.trans (res_of_zero hq.2)⟩
  | some x y hh => exact ⟨b.trans hq.1, d.trans hq.2⟩

theorem fromMont_rep {a : Aff} {Q : E.Point} (h : RepA a Q) : RepN (affFromMont a) Q := by
  obtain ⟨⟨hx, hy⟩, hq⟩ := h
  obtain ⟨r1, e1⟩ := fromMont_res a.x hx
  obtain ⟨r2, e2⟩ := fromMont_res a.y hy
  unfold affFromMont
  generalize fpFromMont a.x = X at *
  generalize fpFromMont a.y = Y at *
  refine ⟨⟨r1, r2⟩, ?_⟩
  cases Q with
  | zero => exact ⟨zero_of_res r1 (e1.trans hq.1), zero_of_res r2 (e2.trans hq.2)⟩
  | some x y hh => exact ⟨e1.trans hq.1, e2.trans hq.2⟩

/-- C151: a batch call with a positive count writes, for every index below the count and only there, the point its element computed, in
normal form, whatever the schedule of the threads; (0, 0) where the element failed. -/
theorem C151_launch {ord : ℕ → ℕ → ℕ → List ℕ} (ho : ∀ b a s, Schedule (2 ^ 8) (ord b a s)) {count : ℤ} (h0 : 0 < count)
    (hc : count + 255 < 2 ^ 31) {f : ℕ → Jac} {ok : ℕ → Bool} {Q : ℕ → E.Point}
    (hf : ∀ i : ℕ, (i : ℤ) < count → ok i = true → RepJ (f i) (Q i)) :
    ∃ out, launch ord count f ok = .done out ∧ ∀ i : ℕ, (count ≤ i → out i = none) ∧
      ((i : ℤ) < count → ∃ r, out i = some r ∧ (ok i = true → RepN r (Q i)) ∧ (ok i = false → r = ⟨fpZero, fpZero⟩)) := by
  obtain ⟨n, rfl⟩ : ∃ n : ℕ, count = n := ⟨count.toNat, by omega⟩
  have hn : n + 255 < 2 ^ 31 := by omega
  refine ⟨kernelOut ord ((n + 255) / 256) n f ok, ?_, fun i => ⟨fun hi => ?_, fun hi => ?_⟩⟩
  · rw [launch, if_neg (by omega), Int.toNat_natCast, numBlocks, if_pos hn]
  · have : ¬ i < n := by omega
    simp only [kernelOut, this, not_false_eq_true, if_true, ite_self]
  · have hi : i < n := by omega
    have hb : ¬ (n + 255) / 256 ≤ i / 256 := by omega
    have hd : i / 256 * 256 + i % 256 = i := by omega
    simp only [kernelOut, if_neg hb, hi, not_true, if_false]
    cases hk : ok i with
    | false => exact ⟨_, rfl, fun h => absurd h (by simp), fun _ => rfl⟩
    | true =>
      refine ⟨_, rfl, fun _ => ?_, fun h => absurd h (by simp)⟩
      have := (C150_batch 8 (ord (i / 256)) (ho (i / 256)) (fun t => if i / 256 * 256 + t < n then f (i / 256 * 256 + t) else jInf)
        (fun t => decide (i / 256 * 256 + t < n) && ok (i / 256 * 256 + t)) (fun t => Q (i / 256 * 256 + t)) ?_ (i % 256)
        (by omega)).1
      · simp only [hd, hi, decide_true, hk, Bool.and_self, forall_const] at this
        exact fromMont_rep this
      · intro t _ ha
        simp only [Bool.and_eq_true, decide_eq_true_eq] at ha
        simp only [ha.1, if_true]
        exact hf _ (by omega) ha.2

/-- C151: a count that is not positive is refused. -/
theorem C151_invalid (ord : ℕ → ℕ → ℕ → List ℕ) {count : ℤ} (h : count ≤ 0) (f : ℕ → Jac) (ok : ℕ → Bool) :
    launch ord count f ok = .invalidInput := by rw [launch, if_pos h]

/-- C151: the number of blocks overflows for the counts above `2 ^ 31 - 256`, which the interface accepts. -/
theorem C151_blocks_violated (ord : ℕ → ℕ → ℕ → List ℕ) (f : ℕ → Jac) (ok : ℕ → Bool) :
    ∃ count : ℤ, 0 < count ∧ count < 2 ^ 31 ∧ launch ord count f ok = .undefined :=
  ⟨2 ^ 31 - 255, by norm_num, by norm_num, by
    rw [launch, if_neg (by norm_num), numBlocks, if_neg (by decide)]⟩

/-- What a successful batch call with results `Q` means. -/
def Gives (l : Launch) (count : ℤ) (Q : ℕ → E.Point) : Prop :=
  ∃ out, l = .done out ∧ ∀ i : ℕ, (count ≤ i → out i = none) ∧ ((i : ℤ) < count → ∃ r, out i = some r ∧ RepN r (Q i))

theorem var_rep {p : Aff} {Q : E.Point} (h : RepA p Q) {k : Fe} (hk : k.Wf) : RepJ ((scalarMulVarBase p k).getD jInf) (k.val • Q) := by
  obtain ⟨R, h1, h2⟩ := C149_var h k hk
  rw [h1]; exact h2

section batch
variable {ord : ℕ → ℕ → ℕ → List ℕ} (ho : ∀ b a s, Schedule (2 ^ 8) (ord b a s)) {count : ℤ} (h0 : 0 < count) (hc : count + 255 < 2 ^ 31)
include ho h0 hc

theorem gives {f : ℕ → Jac} {Q : ℕ → E.Point} (hf : ∀ i : ℕ, (i : ℤ) < count → RepJ (f i) (Q i)) :
    Gives (launch ord count f fun _ => true) count Q := by
  obtain ⟨out, h1, h2⟩ := C151_launch ho h0 hc (ok := fun _ => true) (Q := Q) (f := f) (fun i hi _ => hf i hi)
  refine ⟨out, h1, fun i => ⟨(h2 i).1, fun hi => ?_⟩⟩
  obtain ⟨r, a, b, -⟩ := (h2 i).2 hi
  exact ⟨r, a, b rfl⟩

/-- C151: the batch multiplication by one scalar per point. -/
theorem C151_mul {ps : ℕ → Aff} {ks : ℕ → Fe} {P : ℕ → E.Point} (hp : ∀ i : ℕ, (i : ℤ) < count → RepN (ps i) (P i))
    (hk : ∀ i, (ks i).Wf) : Gives (batchMul ord ps ks count) count fun i => (ks i).val • P i :=
  gives ho h0 hc fun i hi => var_rep (toMont_rep (hp i hi)) (hk i)

/-- C151: the batch multiplication by the same scalar. -/
theorem C151_mul_same {ps : ℕ → Aff} {k : Fe} {P : ℕ → E.Point} (hp : ∀ i : ℕ, (i : ℤ) < count → RepN (ps i) (P i)) (hk : k.Wf) :
    Gives (batchMulSame ord ps k count) count fun i => k.val • P i :=
  gives ho h0 hc fun i hi => var_rep (toMont_rep (hp i hi)) hk

/-- C151: the batch sum. -/
theorem C151_add {ps qs : ℕ → Aff} {P Q : ℕ → E.Point} (hp : ∀ i : ℕ, (i : ℤ) < count → RepN (ps i) (P i))
    (hq : ∀ i : ℕ, (i : ℤ) < count → RepN (qs i) (Q i)) : Gives (batchAdd ord ps qs count) count fun i => P i + Q i :=
  gives ho h0 hc fun i hi => C148_point_add (C148_lift (toMont_rep (hp i hi))) (C148_lift (toMont_rep (hq i hi)))

/-- C151: the batch double. -/
theorem C151_double {ps : ℕ → Aff} {P : ℕ → E.Point} (hp : ∀ i : ℕ, (i : ℤ) < count → RepN (ps i) (P i)) :
    Gives (batchDouble ord ps count) count fun i => P i + P i :=
  gives ho h0 hc fun i hi => C148_double (C148_lift (toMont_rep (hp i hi)))

/-- C151: the batch multiplication of the generator, and the batch `s1 G + s2 P`, with the table the host builds. -/
theorem C151_base : ∃ G : E.Point, Yacl.Ecc.Represents Yacl.Ecc.sm2.G G ∧ addOrderOf G = Yacl.Ecc.Nsm2 ∧
    (∀ ks : ℕ → Fe, (∀ i, (ks i).Wf) → Gives (batchMulBase ord (hostTable G) ks count) count fun i => (ks i).val • G) ∧
    (∀ (s1 s2 : ℕ → Fe) (ps : ℕ → Aff) (P : ℕ → E.Point), (∀ i, (s1 i).Wf) → (∀ i, (s2 i).Wf) →
      (∀ i : ℕ, (i : ℤ) < count → RepN (ps i) (P i)) →
      Gives (batchDoubleBase ord (hostTable G) s1 s2 ps count) count fun i => (s1 i).val • G + (s2 i).val • P i) := by
  obtain ⟨G, hG, ho', h⟩ := C149_fixed_host
  refine ⟨G, hG, ho', fun ks hk => gives ho h0 hc fun i _ => h _ (hk i), fun s1 s2 ps P h1 h2 hp => ?_⟩
  exact gives ho h0 hc fun i hi => C148_point_add (h _ (h1 i)) (var_rep (toMont_rep (hp i hi)) (h2 i))
end batch

/-- C151: the batch opposite, index by index. -/
theorem C151_negate {p : Aff} {Q : E.Point} (h : RepN p Q) : RepN (negateOut p) (-Q) := by
  have hm := toMont_rep h
  unfold negateOut
  generalize affToMont p = m at *
  obtain ⟨⟨hx, hy⟩, hq⟩ := hm
  have hn := d_neg hy
  have hr := r_neg hy
  refine fromMont_rep ?_
  generalize fpNeg m.y = ny at *
  refine ⟨⟨hx, hr⟩, ?_⟩
  cases Q with
  | zero => exact ⟨hq.1, hn.trans (by rw [hq.2, neg_zero])⟩
  | some x y hh =>
    rw [WeierstrassCurve.Affine.Point.neg_some]
    exact ⟨hq.1, hn.trans (by rw [hq.2, E_negY])⟩

theorem curveA_val : curveA.res = ((Yacl.Ecc.sm2.A : ℤ) : ZMod Pm) := by
  unfold Fe.res
  rw [show Yacl.Ecc.sm2.A = ((curveA.val : ℕ) : ℤ) from by decide +kernel, Int.cast_natCast]
theorem curveB_val : curveB.res = ((Yacl.Ecc.sm2.B : ℤ) : ZMod Pm) := by
  unfold Fe.res
  rw [show Yacl.Ecc.sm2.B = ((curveB.val : ℕ) : ℤ) from by decide +kernel, Int.cast_natCast]

/-- The constants in Montgomery form are those of the curve. -/
theorem aMont_eq : aMont = fpToMont curveA := by decide +kernel
theorem bMont_eq : bMont = fpToMont curveB := by decide +kernel

theorem one_alg {F : Type*} [Field F] (x : F) : x * (1 : F)⁻¹ ^ 2 = x := by simp
theorem one_alg' {F : Type*} [Field F] (x : F) : x * ((1 : F)⁻¹ ^ 2 * (1 : F)⁻¹) = x := by simp

/-- C151: the membership test accepts exactly infinity, as (0, 0), and the solutions of the curve equation, for any two 256-bit numbers. -/
theorem C151_on_curve (p : Aff) (hx : p.x.Wf) (hy : p.y.Wf) : onCurveOut p = true ↔
    ((p.x.res = 0 ∧ p.y.res = 0) ∨ p.y.res ^ 2 = rhsOf p.x.res) := by
  obtain ⟨a, b⟩ := toMont_res p.x hx
  obtain ⟨c, d⟩ := toMont_res p.y hy
  obtain ⟨ra, da⟩ := toMont_res curveA (by unfold Fe.Wf; decide)
  obtain ⟨rb, db⟩ := toMont_res curveB (by unfold Fe.Wf; decide)
  rw [curveA_val] at da
  rw [curveB_val] at db
  unfold onCurveOut affToMont
  rw [← b, ← d]
  clear b d
  generalize fpToMont p.x = X at *
  generalize fpToMont p.y = Y at *
  unfold affineToJacobian
  simp only [Bool.and_eq_true, z_iff a, z_iff c]
  by_cases h : X.dec = 0 ∧ Y.dec = 0
  · rw [if_pos h]
    refine ⟨fun _ => .inl h, fun _ => ?_⟩
    unfold pointIsOnCurve
    rw [if_pos (by decide)]
  · rw [if_neg h]
    have hz : jIsInf ⟨X, Y, fpOne⟩ = false := by show fpIsZero fpOne = false; decide
    obtain ⟨i1, i2⟩ := C150_inv fpOne red_one
    rw [dec_one] at i2
    unfold pointIsOnCurve jacobianToAffine
    generalize fpToMont curveA = A at *
    generalize fpToMont curveB = B at *
    simp only [hz, Bool.false_eq_true, if_false, or_iff_right h]
    generalize fpInv fpOne = zi at *
    have e1 : (fpMul X (fpSqr zi)).Red := by red
    have e2 : (fpMul X (fpSqr zi)).dec = X.dec := by rw [d_mul a (r_sqr i1), d_sqr i1, i2]; exact one_alg _
    have e3 : (fpMul Y (fpMul (fpSqr zi) zi)).Red := by red
    have e4 : (fpMul Y (fpMul (fpSqr zi) zi)).dec = Y.dec := by
      rw [d_mul c (r_mul (r_sqr i1) i1), d_mul (r_sqr i1) i1, d_sqr i1, i2]; exact one_alg' _
    generalize fpMul X (fpSqr zi) = X' at *
    generalize fpMul Y (fpMul (fpSqr zi) zi) = Y' at *
    rw [C148_equal _ _ (r_sqr e3) (by red), d_sqr e3, d_add (by red) rb, d_add (by red) (by red), d_mul (by red) e1, d_sqr e1, d_mul ra e1,
      da, db, e2, e4, rhsOf, ← pow_succ]

/-! ### Hash to curve -/

theorem digestToX_spec (d : Fe) (hd : d.Wf) : (digestToX d).Red ∧ (digestToX d).res = d.res := by
  have hp : prime.Wf := by unfold Fe.Wf; decide
  obtain ⟨h1, h2, h3⟩ := sub256_spec d prime hd hp
  have hv := val_lt d hd
  rw [prime_val] at h3
  have h4 := val_lt _ h1
  unfold digestToX
  simp only []
  split
  · next h =>
    rw [h, mul_zero, add_zero] at h3
    exact ⟨⟨h1, by omega⟩, by unfold Fe.res; rw [← h3, Nat.cast_add, ZMod.natCast_self, add_zero]⟩
  · next h => exact ⟨⟨hd, by omega⟩, rfl⟩

theorem even_neg {p : ℕ} [NeZero p] (hp : p % 2 = 1) (y : ZMod p) (h : y.val % 2 = 1) : (-y).val % 2 = 0 := by
  have h0 : y ≠ 0 := by rintro rfl; simp at h
  rw [ZMod.neg_val, if_neg h0]
  have := ZMod.val_lt y
  omega

theorem point_of {x y : ZMod Pm} (h : y ^ 2 = rhsOf x) : E.Nonsingular x y := by
  have he : E.Equation x y := by
    rw [WeierstrassCurve.Affine.equation_iff]
    simpa [E, Yacl.Ecc.curve, rhsOf] using h
  exact (WeierstrassCurve.Affine.equation_iff_nonsingular_of_Δ_ne_zero Yacl.Ecc.sm2_valid.elliptic).1 he

theorem aMont_spec : aMont.Red ∧ aMont.dec = ((Yacl.Ecc.sm2.A : ℤ) : ZMod Pm) := by
  obtain ⟨ra, da⟩ := toMont_res curveA (by unfold Fe.Wf; decide)
  rw [curveA_val] at da
  rw [aMont_eq]
  exact ⟨ra, da⟩
theorem bMont_spec : bMont.Red ∧ bMont.dec = ((Yacl.Ecc.sm2.B : ℤ) : ZMod Pm) := by
  obtain ⟨ra, da⟩ := toMont_res curveB (by unfold Fe.Wf; decide)
  rw [curveB_val] at da
  rw [bMont_eq]
  exact ⟨ra, da⟩

theorem even_case {y ny fm : Fe} (f1 : fm.Red) (f2 : fm.res = y.dec) (hn : ny.dec = -y.dec) :
    (fm.l0 % 2 = 1 → (ny.dec).val % 2 = 0) ∧ (¬ fm.l0 % 2 = 1 → (y.dec).val % 2 = 0) := by
  have hval : (y.dec).val = fm.val := by rw [← f2]; exact res_val f1
  have hl : fm.l0 % 2 = fm.val % 2 := by simp only [Fe.val]; omega
  constructor
  · intro hodd
    rw [hn]
    exact even_neg (by norm_num) _ (by rw [hval, ← hl]; exact hodd)
  · intro hev
    rw [hval, ← hl]; omega

theorem rep_some {X y : Fe} {u v : ZMod Pm} (h : E.Nonsingular u v) (hX : X.Red) (hy : y.Red) (e1 : X.dec = u) (e2 : y.dec = v) :
    RepA ⟨X, y⟩ (.some u v h) := ⟨⟨hX, hy⟩, e1, e2⟩

theorem hashFrom_spec (X : Fe) (a : X.Red) (x : ZMod Pm) (b : X.dec = x) :
    (IsSquare (rhsOf x) → ∃ P, hashFrom X = some P ∧ ∃ y, ∃ h : E.Nonsingular x y, RepA P (.some x y h) ∧ y.val % 2 = 0) ∧
    (¬ IsSquare (rhsOf x) → hashFrom X = none) := by
  obtain ⟨ra, da⟩ := aMont_spec
  obtain ⟨rb, db⟩ := bMont_spec
  unfold hashFrom
  generalize aMont = A at *
  generalize bMont = B at *
  have hr : (fpAdd (fpAdd (fpMul (fpSqr X) X) (fpMul A X)) B).Red := by red
  have hv : (fpAdd (fpAdd (fpMul (fpSqr X) X) (fpMul A X)) B).dec = rhsOf x := by
    rw [d_add (by red) rb, d_add (by red) (by red), d_mul (by red) a, d_sqr a, d_mul ra a, da, db, b, rhsOf, ← pow_succ]
  obtain ⟨s1, s2⟩ := C150_sqrt _ hr
  rw [hv] at s1 s2
  generalize fpAdd (fpAdd (fpMul (fpSqr X) X) (fpMul A X)) B = R at *
  constructor
  · intro h
    obtain ⟨y, e, ry, hy⟩ := s1 h
    rw [e, Option.map_some]
    obtain ⟨f1, f2⟩ := fromMont_res y ry
    have hn := d_neg ry
    have hnr := r_neg ry
    generalize fpNeg y = ny at *
    generalize fpFromMont y = fm at *
    obtain ⟨c1, c2⟩ := even_case f1 f2 hn
    by_cases hodd : fm.l0 % 2 = 1
    · exact ⟨⟨X, ny⟩, by rw [if_pos hodd], ny.dec, point_of (by rw [hn, neg_sq, hy]), rep_some _ a hnr b rfl, c1 hodd⟩
    · exact ⟨⟨X, y⟩, by rw [if_neg hodd], y.dec, point_of hy, rep_some _ a ry b rfl, c2 hodd⟩
  · intro h
    rw [s2 h, Option.map_none]

theorem hashStep_spec (d : Fe) (hd : d.Wf) :
    (IsSquare (rhsOf d.res) → ∃ P, hashStep d = some P ∧ ∃ y, ∃ h : E.Nonsingular d.res y,
      RepA P (.some d.res y h) ∧ y.val % 2 = 0) ∧
    (¬ IsSquare (rhsOf d.res) → hashStep d = none) := by
  obtain ⟨x1, x2⟩ := digestToX_spec d hd
  obtain ⟨a, b⟩ := toMont_res _ x1.1
  rw [x2] at b
  exact hashFrom_spec _ a _ b

theorem hashLoop_spec (sm3 : Fe → Fe) (hs : ∀ d, d.Wf → (sm3 d).Wf) (n : ℕ) : ∀ d : Fe, d.Wf →
    (∃ P t, hashLoop sm3 n d = some P ∧ t < n ∧ (∀ s < t, ¬ IsSquare (rhsOf (cand sm3 d s))) ∧ ∃ y, ∃ h : E.Nonsingular (cand sm3 d t) y,
      RepA P (.some (cand sm3 d t) y h) ∧ y.val % 2 = 0) ∨
    (hashLoop sm3 n d = none ∧ ∀ t < n, ¬ IsSquare (rhsOf (cand sm3 d t))) := by
  induction n with
  | zero => intro d _; exact .inr ⟨rfl, by simp⟩
  | succ n ih =>
    intro d hd
    obtain ⟨h1, h2⟩ := hashStep_spec d hd
    by_cases hq : IsSquare (rhsOf d.res)
    · obtain ⟨P, e, y, h, hP⟩ := h1 hq
      exact .inl ⟨P, 0, by rw [hashLoop, e, Option.some_or], by omega, by simp, y, h, hP⟩
    · rw [hashLoop, h2 hq, Option.none_or]
      rcases ih (sm3 d) (hs d hd) with ⟨P, t, e, ht, hlt, y, h, hP⟩ | ⟨e, ht⟩
      · refine .inl ⟨P, t + 1, e, by omega, ?_, y, h, hP⟩
        intro s hs'
        cases s with
        | zero => exact hq
        | succ s => exact hlt s (by omega)
      · refine .inr ⟨e, ?_⟩
        intro s hs'
        cases s with
        | zero => exact hq
        | succ s => exact ht s (by omega)

/-- C151: the device's hash to curve is try-and-rehash: the same point or the same failure. -/
theorem C151_hash (sm3 : Fe → Fe) (hs : ∀ d, d.Wf → (sm3 d).Wf) (d : Fe) (hd : d.Wf) :
    (∃ P Q, hashToCurve sm3 d = some P ∧ RepA P Q ∧ HashesTo sm3 d Q) ∨ (hashToCurve sm3 d = none ∧ HashFails sm3 d) := by
  rcases hashLoop_spec sm3 hs 100 d hd with ⟨P, t, e, ht, hlt, y, h, hP, hy⟩ | h
  · exact .inl ⟨P, _, e, hP, t, ht, hlt, y, h, rfl, hy⟩
  · exact .inr h

theorem val_parity {p : ℕ} [NeZero p] (hp : p % 2 = 1) {y z : ZMod p} (h : z = -y) (hy : y.val % 2 = 0) (hz : z.val % 2 = 0) : y = z := by
  by_cases h0 : y = 0
  · rw [h, h0, neg_zero]
  · rw [h, ZMod.neg_val, if_neg h0] at hz
    have := ZMod.val_lt y
    omega

theorem isSquare_of {x y : ZMod Pm} (h : E.Nonsingular x y) : IsSquare (rhsOf x) := by
  refine ⟨y, ?_⟩
  rw [rhsOf, ← Yacl.Ecc.eqn h, pow_two]

/-- C151: try-and-rehash determines the point, so that the CPU and the GPU agree; and it cannot both fail and succeed. -/
theorem C151_hash_unique (sm3 : Fe → Fe) (d : Fe) {Q R : E.Point} (h : HashesTo sm3 d Q) : (HashesTo sm3 d R → Q = R) ∧ ¬ HashFails sm3 d := by
  obtain ⟨t, ht, hlt, y, hy, rfl, he⟩ := h
  refine ⟨?_, fun hf => hf t ht (isSquare_of hy)⟩
  rintro ⟨u, hu, hlu, z, hz, rfl, hz2⟩
  have htu : t = u := by
    rcases lt_trichotomy t u with hh | hh | hh
    · exact absurd (isSquare_of hy) (hlu t hh)
    · exact hh
    · exact absurd (isSquare_of hz) (hlt u hh)
  subst htu
  have e : y ^ 2 = z ^ 2 := by rw [Yacl.Ecc.eqn hy, Yacl.Ecc.eqn hz]
  have : y = z := by
    rcases sq_eq_sq_iff_eq_or_eq_neg.1 e with h | h
    · exact h
    · exact val_parity (by norm_num) (by rw [h, neg_neg]) he hz2
  subst this
  rfl

/-- C151: hashing and multiplying a batch of up to `2 ^ 26` digests: the multiple of the point each digest hashes to, (0, 0) for the
digests on which try-and-rehash fails; the flag is set exactly when there is one of these. -/
theorem C151_hash_mul_partial (sm3 : Fe → Fe) (hs : ∀ d, d.Wf → (sm3 d).Wf) {ord : ℕ → ℕ → ℕ → List ℕ}
    (ho : ∀ b a s, Schedule (2 ^ 8) (ord b a s)) {count : ℤ} (h0 : 0 < count) (hc : count ≤ 2 ^ 26) (ds : ℕ → Fe) (hd : ∀ i, (ds i).Wf)
    (k : Fe) (hk : k.Wf) :
    ∃ out flag, batchHashMul ord sm3 ds k count = (.done out, flag) ∧
      (flag = true ↔ ∃ i : ℕ, (i : ℤ) < count ∧ HashFails sm3 (ds i)) ∧
      ∀ i : ℕ, (count ≤ i → out i = none) ∧ ((i : ℤ) < count → ∃ r, out i = some r ∧
        (∀ Q, HashesTo sm3 (ds i) Q → RepN r (k.val • Q)) ∧ (HashFails sm3 (ds i) → r = ⟨fpZero, fpZero⟩)) := by
  classical
  let Q : ℕ → E.Point := fun i => if h : ∃ Q, HashesTo sm3 (ds i) Q then k.val • h.choose else 0
  have hQ : ∀ i R, HashesTo sm3 (ds i) R → Q i = k.val • R := by
    intro i R hR
    have h : ∃ Q, HashesTo sm3 (ds i) Q := ⟨R, hR⟩
    simp only [Q, dif_pos h]
    rw [(C151_hash_unique sm3 (ds i) h.choose_spec).1 hR]
  obtain ⟨out, h1, h2⟩ := C151_launch ho h0 (by omega)
    (f := fun i => (hashToCurve sm3 (ds i)).elim jInf fun P => (scalarMulVarBase P k).getD jInf)
    (ok := fun i => (hashToCurve sm3 (ds i)).isSome) (Q := Q) (by
      intro i _ hok
      rcases C151_hash sm3 hs (ds i) (hd i) with ⟨P, R, e, hP, hR⟩ | ⟨e, -⟩
      · rw [e, Option.elim_some, hQ i R hR]
        obtain ⟨J, j1, j2⟩ := C149_var hP k hk
        rw [j1]; exact j2
      · rw [e] at hok; exact absurd hok (by simp))
  have hg : ((List.range count.toNat).any fun i => (digestOffset i).isNone) = false := by
    rw [List.any_eq_false]
    intro i hi
    rw [List.mem_range] at hi
    rw [digestOffset, if_pos (by omega)]; simp
  refine ⟨out, (List.range count.toNat).any fun i => (hashToCurve sm3 (ds i)).isNone, ?_, ?_, fun i => ⟨(h2 i).1, fun hi => ?_⟩⟩
  · rw [batchHashMul, hg, ← h1]; rfl
  · rw [List.any_eq_true]
    constructor
    · rintro ⟨i, hi, hn⟩
      rw [List.mem_range] at hi
      rcases C151_hash sm3 hs (ds i) (hd i) with ⟨P, R, e, hP, hR⟩ | ⟨e, hf⟩
      · rw [e] at hn; exact absurd hn (by simp)
      · exact ⟨i, by omega, hf⟩
    · rintro ⟨i, hi, hf⟩
      refine ⟨i, by rw [List.mem_range]; omega, ?_⟩
      rcases C151_hash sm3 hs (ds i) (hd i) with ⟨P, R, e, hP, hR⟩ | ⟨e, -⟩
      · exact absurd hf (C151_hash_unique sm3 (ds i) (R := R) hR).2
      · rw [e]; rfl
  · obtain ⟨r, a, b, c⟩ := (h2 i).2 hi
    refine ⟨r, a, fun R hR => ?_, fun hf => ?_⟩
    · rw [← hQ i R hR]
      apply b
      rcases C151_hash sm3 hs (ds i) (hd i) with ⟨P, R', e, -⟩ | ⟨-, hf⟩
      · rw [e]; rfl
      · exact absurd hf (C151_hash_unique sm3 (ds i) (R := R) hR).2
    · apply c
      rcases C151_hash sm3 hs (ds i) (hd i) with ⟨P, R, e, hP, hR⟩ | ⟨e, -⟩
      · exact absurd hf (C151_hash_unique sm3 (ds i) (R := R) hR).2
      · rw [e]; rfl

/-- C151: from `2 ^ 26 + 1` digests on, a digest is read at an offset that leaves `int`. -/
theorem C151_digest_offset_violated (ord : ℕ → ℕ → ℕ → List ℕ) (sm3 : Fe → Fe) (ds : ℕ → Fe) (k : Fe) {count : ℤ} (h : 2 ^ 26 < count) :
    (batchHashMul ord sm3 ds k count).1 = .undefined := by
  have : ((List.range count.toNat).any fun i => (digestOffset i).isNone) = true := by
    rw [List.any_eq_true]
    exact ⟨2 ^ 26, by rw [List.mem_range]; omega, by rw [digestOffset, if_neg (by norm_num)]; rfl⟩
  rw [batchHashMul, this]; rfl

/-- C151: the rounds of the device's SM3 in which the constant is rotated by zero shift a 32-bit word by 32. -/
theorem C151_sm3_shift_violated (j : ℕ) : sm3Const j = none ↔ j % 32 = 0 := by
  simp only [sm3Const, rotl32]
  split
  · next h => simp; omega
  · next h => simp; omega

/-- A batch of the generator and of infinity meets the hypotheses. -/
example : ∃ (ps : ℕ → Aff) (P : ℕ → E.Point) (ord : ℕ → ℕ → ℕ → List ℕ), (∀ b a s, Schedule (2 ^ 8) (ord b a s)) ∧
    (∀ i : ℕ, (i : ℤ) < 1000 → RepN (ps i) (P i)) ∧ P 0 ≠ 0 ∧ P 1 = 0 ∧
    Gives (batchAdd ord ps ps 1000) 1000 fun i => P i + P i := by
  obtain ⟨G, -, -, hne, h⟩ := C148_generator
  have hp : ∀ i : ℕ, (i : ℤ) < 1000 → RepN (if i = 1 then ⟨fpZero, fpZero⟩ else affFromMont ⟨fpToMont generator.x, fpToMont generator.y⟩)
      (if i = 1 then 0 else G) := by
    intro i _
    split
    · exact ⟨⟨red_zero, red_zero⟩, rfl, rfl⟩
    · exact fromMont_rep h
  have ho : ∀ b a s : ℕ, Schedule (2 ^ 8) (List.range (2 ^ 8)) := fun _ _ _ => ⟨List.nodup_range, by simp⟩
  exact ⟨_, _, fun _ _ _ => List.range (2 ^ 8), ho, hp, by simpa using hne, by simp, C151_add ho (by norm_num) (by norm_num) hp hp⟩

/-- Try-and-rehash succeeds on a digest that is an abscissa: that of the generator. -/
example (sm3 : Fe → Fe) : ∃ Q, HashesTo sm3 generator.x Q := by
  have hq : IsSquare (rhsOf generator.x.res) := by
    obtain ⟨G, hG, -, hne, -⟩ := C148_generator
    obtain ⟨-, -, hm⟩ := hG
    cases G with
    | zero => exact absurd rfl hne
    | some x y hh =>
      have : generator.x.res = x := by
        unfold Fe.res
        rw [← hm.1, show Yacl.Ecc.sm2.G.x = ((generator.x.val : ℕ) : ℤ) from by decide +kernel, Int.cast_natCast]
      rw [this]; exact isSquare_of hh
  obtain ⟨P, -, y, h, -, hy⟩ := (hashStep_spec generator.x (by unfold Fe.Wf; decide)).1 hq
  exact ⟨_, 0, by norm_num, by simp, y, h, rfl, hy⟩

end Yacl.Cuda
