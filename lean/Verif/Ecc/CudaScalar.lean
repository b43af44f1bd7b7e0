import Verif.Ecc.CudaPoint

/-! Model of the scalar multiplications, the inversion, the square root and the way back to affine coordinates of the GPU code for SM2
(yacl/crypto/ecc/cuda/kernels/sm2_kernels.cu), on top of `CudaField` and `CudaPoint`. -/

namespace Yacl.Cuda

/-! ### Recoding of the scalar -/

/-- sm2_kernels.cu L1384-1389: the subtraction loop of `scalarToWnaf`. -/
def subLoop : List ℕ → ℕ → ℕ → List ℕ
  | [], _, _ => []
  | k :: ks, m, borrow =>
    let n := (k + W + W - m - borrow) % W
    n :: subLoop ks 0 (if n > k then 1 else 0)

/-- sm2_kernels.cu L1391-1397: the addition loop of `scalarToWnaf`. -/
def addLoop : List ℕ → ℕ → ℕ → List ℕ
  | [], _, _ => []
  | k :: ks, m, carry =>
    let n := (k + m + carry) % W
    n :: addLoop ks 0 (if n < k then 1 else 0)

/-- sm2_kernels.cu L1404-1407: the right shift of `scalarToWnaf`. -/
def shiftLoop : List ℕ → List ℕ
  | [] => []
  | [k] => [k / 2]
  | k :: k' :: ks => (k / 2 + (k' % 2) * 2 ^ 63) :: shiftLoop (k' :: ks)

/-- The digit of an odd `k` (L1375-1379): `k mod 16`, moved to -8..7. -/
def digit (k0 : ℕ) : ℤ :=
  let mods : ℤ := (k0 % 16 : ℕ)
  if mods ≥ 8 then mods - 16 else mods

/-- One iteration of the loop of `scalarToWnaf` (L1372-1410): the digit and the new `k`. -/
def wnafStep (k : List ℕ) : ℤ × List ℕ :=
  if k.headD 0 % 2 = 1 then
    let d := digit (k.headD 0)
    (d, shiftLoop (if d > 0 then subLoop k d.toNat 0 else addLoop k (-d).toNat 0))
  else (0, shiftLoop k)

/-- The loop of `scalarToWnaf` (L1371-1412), with the number of entries of the output array: `none` is a write past its end. -/
def wnafLoop : ℕ → List ℕ → Option (List ℤ)
  | room, k =>
    if k.all (· == 0) then some [] else
    match room with
    | 0 => none
    | room + 1 => (wnafLoop room (wnafStep k).2).map fun ds => (wnafStep k).1 :: ds

/-- gpu_types.cuh: `kMaxWnafDigits + 1`. -/
def wnafRoom : ℕ := 257

/-- sm2_kernels.cu L1360-1413 `scalarToWnaf`. -/
def scalarToWnaf (k : Fe) : Option (List ℤ) := wnafLoop wnafRoom [k.l0, k.l1, k.l2, k.l3, 0]

/-- The number a list of signed digits stands for. -/
def digitsVal : List ℤ → ℤ
  | [] => 0
  | d :: ds => d + 2 * digitsVal ds

/-! ### Scalar multiplication -/

/-- sm2_kernels.cu L1416-1428 `buildVarBaseTable`: P, 3P, 5P, 7P. -/
def buildVarBaseTable (P : Jac) : List Jac :=
  let twoP := pointDouble P
  let t1 := pointAdd P twoP
  let t2 := pointAdd t1 twoP
  [P, t1, t2, pointAdd t2 twoP]

/-- The body of the loop of `scalarMulVarBase` (L1465-1485).  A table index out of range reads the default. -/
def mulStep (table : List Jac) (R : Jac) (d : ℤ) : Jac :=
  let tmp := pointDouble R
  if d = 0 then tmp else
    let q := table.getD ((d.natAbs - 1) / 2) ⟨fpZero, fpZero, fpOne⟩
    if d > 0 then pointAdd tmp q else pointAdd tmp (pointNegate q)

/-- The loop of `scalarMulVarBase`, from the last digit down to the first. -/
def mulDigits (table : List Jac) : List ℤ → Jac
  | [] => jInf
  | d :: ds => mulStep table (mulDigits table ds) d

/-- sm2_kernels.cu L1441-1486 `scalarMulVarBase`; `none` is a write past the end of the digit array. -/
def scalarMulVarBase (P : Aff) (k : Fe) : Option Jac :=
  if (k.l0 ||| k.l1 ||| k.l2 ||| k.l3) = 0 then some jInf else
    let table := buildVarBaseTable (affineToJacobian P)
    (scalarToWnaf k).map (mulDigits table)

/-- The limb of index `i`. -/
def Fe.limb (k : Fe) (i : ℕ) : ℕ := match i with | 0 => k.l0 | 1 => k.l1 | 2 => k.l2 | _ => k.l3

/-- The window of `scalarMulFixedBase` (L1500-1508). -/
def window (k : Fe) (i : ℕ) : ℕ := k.limb (i * 4 / 64) / 2 ^ (i * 4 % 64) % 16

/-- The first `n` iterations of the loop of `scalarMulFixedBase` (L1499-1518); the table has sixteen entries per window. -/
def fixedLoop (table : ℕ → Aff) (k : Fe) : ℕ → Jac
  | 0 => jInf
  | i + 1 =>
    let R := fixedLoop table k i
    if window k i = 0 then R else pointAddMixed R (table (i * 16 + window k i))

/-- sm2_kernels.cu L1487-1519 `scalarMulFixedBase`, with the table in place. -/
def scalarMulFixedBase (table : ℕ → Aff) (k : Fe) : Jac := fixedLoop table k 64

/-- cuda_sm2_group.cc L237-250: the points of the host table, computed with the CPU group: `base` of window `i`, and entry `w` of it. -/
def hostBase {M : Type} [Add M] (G : M) : ℕ → M
  | 0 => G
  | i + 1 =>
    let dbl := fun b : M => b + b
    dbl (dbl (dbl (dbl (hostBase G i))))
def hostCur {M : Type} [Add M] (base : M) : ℕ → M
  | 0 => base
  | w + 1 => hostCur base w + base
/-- Entry `w ≥ 1` of window `i`. -/
def hostEntry {M : Type} [Add M] (G : M) (i w : ℕ) : M := hostCur (hostBase G i) (w - 1)

/-- cuda_sm2_group.cc L224-229: a number below `2 ^ 256` as 32 little-endian bytes, read as four limbs. -/
def limbs (n : ℕ) : Fe := ⟨n % W, n / W % W, n / W ^ 2 % W, n / W ^ 3 % W⟩

/-- cuda_sm2_group.cc L218-230 `toMontField`. -/
def toMontField (v : ℕ) : Fe := limbs (v * (2 ^ 256 % Pm) % Pm)

/-- cuda_sm2_group.cc L232-252: the host table; `GetAffinePoint`, `Add` and `Double` are those of the CPU group, here the group of the
curve itself.  The entries 0 of the windows, which the device never reads, are (0, 0). -/
noncomputable def hostTable (G : E.Point) (idx : ℕ) : Aff :=
  if idx % 16 = 0 then ⟨fpZero, fpZero⟩ else
    match hostEntry G (idx / 16) (idx % 16) with
    | .zero => ⟨toMontField 0, toMontField 0⟩
    | .some x y _ => ⟨toMontField x.val, toMontField y.val⟩

/-! ### Proof -/

theorem subLoop_zero (ks : List ℕ) (h : ∀ k ∈ ks, k < W) : subLoop ks 0 0 = ks := by
  induction ks with
  | nil => rfl
  | cons k ks ih =>
    simp only [List.mem_cons, forall_eq_or_imp] at h
    have h1 := h.1
    have e : (k + W + W - 0 - 0) % W = k := by omega
    simp only [subLoop, e, gt_iff_lt, lt_irrefl, if_false, ih h.2]

theorem subLoop_spec (k : ℕ) (ks : List ℕ) (m : ℕ) (h : ∀ x ∈ k :: ks, x < W) (hm : m ≤ k) :
    subLoop (k :: ks) m 0 = (k - m) :: ks := by
  simp only [List.mem_cons, forall_eq_or_imp] at h
  have h1 := h.1
  have e : (k + W + W - m - 0) % W = k - m := by omega
  simp only [subLoop, e]
  rw [if_neg (by omega), subLoop_zero ks h.2]

theorem addLoop_spec (ks : List ℕ) : ∀ m c, (∀ k ∈ ks, k < W) → m + c < 9 →
    (addLoop ks m c).length = ks.length ∧ (∀ k ∈ addLoop ks m c, k < W) ∧ ∃ e, num (addLoop ks m c) + W ^ ks.length * e = num ks + m + c := by
  induction ks with
  | nil => intro m c _ _; exact ⟨rfl, by simp [addLoop], m + c, by simp [addLoop, num]⟩
  | cons k ks ih =>
    intro m c h hc
    simp only [List.mem_cons, forall_eq_or_imp] at h
    simp only [addLoop]
    obtain ⟨l, w, e, he⟩ := ih 0 (if (k + m + c) % W < k then 1 else 0) h.2 (by split <;> omega)
    refine ⟨by simp [l], ?_, e, ?_⟩
    · simp only [List.mem_cons, forall_eq_or_imp]; exact ⟨Nat.mod_lt _ (by norm_num), w⟩
    · simp only [num, List.length_cons, pow_succ]
      have : W ^ ks.length * W * e = W * (W ^ ks.length * e) := by ring
      rw [this]
      have h1 := h.1
      generalize W ^ ks.length * e = z at he ⊢
      generalize num (addLoop ks _ _) = q at he ⊢
      split at he <;> omega

theorem shiftLoop_spec (ks : List ℕ) (h : ∀ k ∈ ks, k < W) :
    (shiftLoop ks).length = ks.length ∧ (∀ k ∈ shiftLoop ks, k < W) ∧ num (shiftLoop ks) = num ks / 2 := by
  induction ks with
  | nil => exact ⟨rfl, by simp [shiftLoop], rfl⟩
  | cons k ks ih =>
    simp only [List.mem_cons, forall_eq_or_imp] at h
    obtain ⟨l, w, e⟩ := ih h.2
    cases ks with
    | nil =>
      have h1 := h.1
      refine ⟨rfl, ?_, ?_⟩
      · simp only [shiftLoop, List.mem_singleton, forall_eq]; omega
      · simp only [shiftLoop, num]; omega
    | cons k' ks =>
      have h1 := h.1
      have hk' := h.2 k' (by simp)
      simp only [shiftLoop]
      refine ⟨by simp only [List.length_cons] at l ⊢; omega, ?_, ?_⟩
      · simp only [List.mem_cons, forall_eq_or_imp]
        exact ⟨by omega, w⟩
      · simp only [num] at e ⊢
        rw [e]
        omega

theorem wnafStep_spec (k : List ℕ) (h : ∀ x ∈ k, x < W) (hne : k ≠ []) (hb : num k + 8 < W ^ k.length) :
    (wnafStep k).2.length = k.length ∧ (∀ x ∈ (wnafStep k).2, x < W) ∧
    (num k : ℤ) = (wnafStep k).1 + 2 * (num (wnafStep k).2 : ℤ) ∧
    ((wnafStep k).1 = 0 ∨ ((wnafStep k).1 % 2 = 1 ∧ -7 ≤ (wnafStep k).1 ∧ (wnafStep k).1 ≤ 7)) ∧
    (num k % 2 = 0 → (wnafStep k).1 = 0) ∧ (num k % 2 = 1 → ((num k : ℤ) - (wnafStep k).1) % 16 = 0) := by
  cases k with
  | nil => exact absurd rfl hne
  | cons k0 ks =>
    have h0 := h k0 (by simp)
    have hnum : num (k0 :: ks) = k0 + W * num ks := rfl
    have hst : wnafStep (k0 :: ks) = if k0 % 2 = 1 then
        (digit k0, shiftLoop (if digit k0 > 0 then subLoop (k0 :: ks) (digit k0).toNat 0 else addLoop (k0 :: ks) (-digit k0).toNat 0))
        else (0, shiftLoop (k0 :: ks)) := rfl
    rw [hst]
    by_cases hodd : k0 % 2 = 1
    · simp only [if_pos hodd]
      have hd : digit k0 % 2 = 1 ∧ -7 ≤ digit k0 ∧ digit k0 ≤ 7 ∧ ((k0 : ℤ) - digit k0) % 16 = 0 := by
        simp only [digit]; split <;> omega
      obtain ⟨d1, d2, d3, d4⟩ := hd
      by_cases hpos : digit k0 > 0
      · simp only [if_pos hpos]
        have hm : (digit k0).toNat ≤ k0 := by omega
        rw [subLoop_spec k0 ks _ h hm]
        obtain ⟨l, w, e⟩ := shiftLoop_spec ((k0 - (digit k0).toNat) :: ks) (by
          simp only [List.mem_cons, forall_eq_or_imp] at h ⊢
          exact ⟨by omega, h.2⟩)
        have hnum' : num ((k0 - (digit k0).toNat) :: ks) = k0 - (digit k0).toNat + W * num ks := rfl
        rw [hnum'] at e
        refine ⟨by simpa using l, w, ?_, .inr ⟨d1, d2, d3⟩, ?_, ?_⟩
        · rw [e, hnum]; omega
        · rw [hnum]; intro; omega
        · rw [hnum]; intro; omega
      · simp only [if_neg hpos]
        obtain ⟨al, aw, ae, ah⟩ := addLoop_spec (k0 :: ks) (-(digit k0)).toNat 0 h (by omega)
        have ah' := no_carry ah (by omega)
        obtain ⟨l, w, e⟩ := shiftLoop_spec _ aw
        refine ⟨by rw [l, al], w, ?_, .inr ⟨d1, d2, d3⟩, ?_, ?_⟩
        · rw [e, ah', hnum]; omega
        · rw [hnum]; intro; omega
        · rw [hnum]; intro; omega
    · simp only [if_neg hodd]
      obtain ⟨l, w, e⟩ := shiftLoop_spec (k0 :: ks) h
      refine ⟨l, w, ?_, .inl trivial, fun _ => trivial, ?_⟩
      · rw [e, hnum]; omega
      · rw [hnum]; intro; omega

theorem all_zero (k : List ℕ) : k.all (· == 0) = true ↔ num k = 0 := by
  induction k with
  | nil => simp [num]
  | cons x xs ih => 
    simp only [List.all_cons, Bool.and_eq_true, beq_iff_eq, ih, num]; omega

theorem wnafLoop_spec (n : ℕ) : ∀ k : List ℕ, (∀ x ∈ k, x < W) → k.length = 5 → num k ≤ 2 ^ n → n ≤ 256 →
    ∃ ds, wnafLoop (n + 1) k = some ds ∧ digitsVal ds = num k ∧ (∀ d ∈ ds, d = 0 ∨ (d % 2 = 1 ∧ -7 ≤ d ∧ d ≤ 7)) := by
  induction n with
  | zero =>
    intro k hw hl hb hn
    rw [wnafLoop]
    split
    · next h => exact ⟨[], rfl, by rw [(all_zero k).1 h]; rfl, by simp⟩
    · next h =>
      have h0 : num k ≠ 0 := fun e => h ((all_zero k).2 e)
      have h1 : num k = 1 := by simp at hb; omega
      obtain ⟨s1, s2, s3, s4, s5, s6⟩ := wnafStep_spec k hw (by intro e; simp [e] at hl) (by rw [hl, h1]; norm_num)
      have s6 := s6 (by rw [h1])
      rw [h1] at s3 s6
      have hd : (wnafStep k).1 = 1 := by rcases s4 with s4 | s4 <;> omega
      have hk : num (wnafStep k).2 = 0 := by omega
      rw [wnafLoop, if_pos ((all_zero _).2 hk)]
      refine ⟨[(wnafStep k).1], rfl, by rw [hd, h1]; rfl, by simpa using s4⟩
  | succ n ih =>
    intro k hw hl hb hn
    rw [wnafLoop]
    split
    · next h => exact ⟨[], rfl, by rw [(all_zero k).1 h]; rfl, by simp⟩
    · next h =>
      have h0 : num k ≠ 0 := fun e => h ((all_zero k).2 e)
      have hbig : num k + 8 < W ^ 5 := by
        have : 2 ^ (n + 1) ≤ 2 ^ 256 := Nat.pow_le_pow_right (by norm_num) hn
        norm_num at this ⊢
        omega
      obtain ⟨s1, s2, s3, s4, s5, s6⟩ := wnafStep_spec k hw (by intro e; simp [e] at hl) (by rw [hl]; exact hbig)
      have hnext : num (wnafStep k).2 ≤ 2 ^ n := by
        rcases Nat.mod_two_eq_zero_or_one (num k) with hp | hp
        · have := s5 hp
          rw [pow_succ] at hb
          omega
        · have := s6 hp
          by_cases h4 : 3 ≤ n
          · obtain ⟨q, rfl⟩ := Nat.exists_eq_add_of_le h4
            have e1 : 2 ^ (3 + q + 1) = 16 * 2 ^ q := by ring
            have e2 : 2 ^ (3 + q) = 8 * 2 ^ q := by ring
            rw [e1] at hb
            rw [e2]
            generalize 2 ^ q = z at *
            omega
          · have : num k ≤ 8 := by
              have : 2 ^ (n + 1) ≤ 2 ^ 3 := Nat.pow_le_pow_right (by norm_num) (by omega)
              omega
            have : 0 < 2 ^ n := by positivity
            omega
      obtain ⟨ds, d1, d2, d3⟩ := ih _ s2 (by rw [s1, hl]) hnext (by omega)
      refine ⟨(wnafStep k).1 :: ds, by rw [d1]; rfl, ?_, ?_⟩
      · simp only [digitsVal]; rw [d2, s3]
      · simp only [List.mem_cons, forall_eq_or_imp]; exact ⟨s4, d3⟩

/-- C149: the recoding of every 256-bit scalar stays within its array, its digits stand for the scalar, and every digit is 0 or odd and at
most 7 in absolute value (so the table index is in range). -/
theorem C149_wnaf (k : Fe) (hk : k.Wf) : ∃ ds, scalarToWnaf k = some ds ∧ digitsVal ds = k.val ∧
    (∀ d ∈ ds, d = 0 ∨ (d % 2 = 1 ∧ -7 ≤ d ∧ d ≤ 7)) := by
  have hv := val_lt k hk
  obtain ⟨h0, h1, h2, h3⟩ := hk
  have hn : num [k.l0, k.l1, k.l2, k.l3, 0] = k.val := by simp only [num, Fe.val]; ring
  have := wnafLoop_spec 256 [k.l0, k.l1, k.l2, k.l3, 0] (by simp; omega) rfl (by rw [hn]; omega) (le_refl _)
  rw [hn] at this
  exact this

theorem table_rep {P : Jac} {Q : E.Point} (h : RepJ P Q) (i : ℕ) (hi : i < 4) :
    RepJ ((buildVarBaseTable P).getD i ⟨fpZero, fpZero, fpOne⟩) ((2 * (i : ℤ) + 1) • Q) := by
  have h2 := C148_double h
  have t1 := C148_point_add h h2
  have t2 := C148_point_add t1 h2
  have t3 := C148_point_add t2 h2
  have e1 : (2 * ((1 : ℕ) : ℤ) + 1) • Q = Q + (Q + Q) := by norm_num; abel
  have e2 : (2 * ((2 : ℕ) : ℤ) + 1) • Q = Q + (Q + Q) + (Q + Q) := by norm_num; abel
  have e3 : (2 * ((3 : ℕ) : ℤ) + 1) • Q = Q + (Q + Q) + (Q + Q) + (Q + Q) := by norm_num; abel
  match i, hi with
  | 0, _ => simpa [buildVarBaseTable] using h
  | 1, _ => rw [e1]; exact t1
  | 2, _ => rw [e2]; exact t2
  | 3, _ => rw [e3]; exact t3

theorem mulDigits_rep {P : Jac} {Q : E.Point} (h : RepJ P Q) (ds : List ℤ) (hd : ∀ d ∈ ds, d = 0 ∨ (d % 2 = 1 ∧ -7 ≤ d ∧ d ≤ 7)) :
    RepJ (mulDigits (buildVarBaseTable P) ds) (digitsVal ds • Q) := by
  induction ds with
  | nil => simp only [mulDigits, digitsVal, zero_zsmul]; exact rep_inf
  | cons d ds ih =>
    simp only [List.mem_cons, forall_eq_or_imp] at hd
    have hr := C148_double (ih hd.2)
    simp only [mulDigits, mulStep, digitsVal]
    have e : (d + 2 * digitsVal ds) • Q = digitsVal ds • Q + digitsVal ds • Q + d • Q := by rw [add_zsmul, two_mul, add_zsmul]; abel
    rw [e]
    split
    · next h0 => rw [h0, zero_zsmul, add_zero]; exact hr
    · next h0 =>
      have hdd := hd.1.resolve_left h0
      have ht := table_rep h ((d.natAbs - 1) / 2) (by omega)
      split
      · next hp =>
        have : 2 * (((d.natAbs - 1) / 2 : ℕ) : ℤ) + 1 = d := by omega
        rw [this] at ht
        exact C148_point_add hr ht
      · next hp =>
        have : 2 * (((d.natAbs - 1) / 2 : ℕ) : ℤ) + 1 = -d := by omega
        rw [this] at ht
        have := C148_point_add hr (C148_negate ht)
        rwa [neg_zsmul, neg_neg] at this

/-- C149: multiplication of any point by any 256-bit scalar. -/
theorem C149_var {P : Aff} {Q : E.Point} (h : RepA P Q) (k : Fe) (hk : k.Wf) :
    ∃ R, scalarMulVarBase P k = some R ∧ RepJ R (k.val • Q) := by
  unfold scalarMulVarBase
  split
  · next h0 =>
    simp only [Nat.or_eq_zero_iff] at h0
    refine ⟨_, rfl, ?_⟩
    have : k.val = 0 := by simp only [Fe.val]; omega
    rw [this, zero_nsmul]; exact rep_inf
  · obtain ⟨ds, d1, d2, d3⟩ := C149_wnaf k hk
    refine ⟨_, by simp only []; rw [d1]; rfl, ?_⟩
    have := mulDigits_rep (C148_lift h) ds d3
    rw [d2] at this
    rwa [natCast_zsmul] at this

theorem limb_eq (k : Fe) (hk : k.Wf) (q : ℕ) (hq : q < 4) : k.limb q = k.val / 16 ^ (16 * q) % 16 ^ 16 := by
  obtain ⟨h0, h1, h2, h3⟩ := hk
  match q, hq with
  | 0, _ => simp only [Fe.limb, Fe.val]; norm_num; omega
  | 1, _ => simp only [Fe.limb, Fe.val]; norm_num; omega
  | 2, _ => simp only [Fe.limb, Fe.val]; norm_num; omega
  | 3, _ => simp only [Fe.limb, Fe.val]; norm_num; omega

theorem window_eq (k : Fe) (hk : k.Wf) (i : ℕ) (hi : i < 64) : window k i = k.val / 16 ^ i % 16 := by
  simp only [window]
  rw [show i * 4 / 64 = i / 16 by omega, show i * 4 % 64 = 4 * (i % 16) by omega, pow_mul, limb_eq k hk (i / 16) (by omega)]
  have hr : i % 16 < 16 := Nat.mod_lt _ (by norm_num)
  have e : (16 : ℕ) ^ 16 = 16 ^ (i % 16) * 16 ^ (15 - i % 16 + 1) := by rw [← pow_add]; congr 1; omega
  rw [show (2 : ℕ) ^ 4 = 16 by norm_num, e, Nat.mod_mul_right_div_self, Nat.div_div_eq_div_mul, ← pow_add,
    show 16 * (i / 16) + i % 16 = i by omega]
  exact Nat.mod_mod_of_dvd _ (dvd_pow_self 16 (by omega))

theorem fixedLoop_rep {G : E.Point} (table : ℕ → Aff) (ht : ∀ i w, i < 64 → 0 < w → w < 16 → RepA (table (i * 16 + w)) ((w * 16 ^ i) • G))
    (hne : ∀ i w, i < 64 → 0 < w → w < 16 → (w * 16 ^ i) • G ≠ 0) (k : Fe) (hk : k.Wf) (n : ℕ) (hn : n ≤ 64) :
    RepJ (fixedLoop table k n) ((k.val % 16 ^ n) • G) := by
  induction n with
  | zero => simp only [fixedLoop, pow_zero, Nat.mod_one, zero_nsmul]; exact rep_inf
  | succ n ih =>
    have := ih (by omega)
    have hw := window_eq k hk n (by omega)
    have hlt : window k n < 16 := by rw [hw]; exact Nat.mod_lt _ (by norm_num)
    simp only [fixedLoop]
    rw [Nat.mod_pow_succ, ← hw, add_nsmul, mul_comm (16 ^ n)]
    split
    · next h0 => rw [h0, zero_mul, zero_nsmul, add_zero]; exact this
    · next h0 => exact C148_mixed this (ht n _ (by omega) (by omega) hlt) (hne n _ (by omega) (by omega) hlt)

theorem hostEntry_eq {M : Type} [AddCommMonoid M] (G : M) (i w : ℕ) (hw : 0 < w) : hostEntry G i w = (w * 16 ^ i) • G := by
  have hb : ∀ i, hostBase G i = (16 ^ i) • G := by
    intro i
    induction i with
    | zero => simp [hostBase]
    | succ i ih =>
      simp only [hostBase, ih, ← add_smul]
      congr 1; ring
  have hc : ∀ w, hostCur (hostBase G i) w = (w + 1) • hostBase G i := by
    intro w
    induction w with
    | zero => simp [hostCur]
    | succ w ih => rw [hostCur, ih]; exact (succ_nsmul (hostBase G i) (w + 1)).symm
  rw [hostEntry, hc, hb, ← mul_smul, Nat.sub_add_cancel hw]

/-- C149: multiplication of the base point by any 256-bit scalar, with the table the host computes. -/
theorem C149_fixed {G : E.Point} (hG : addOrderOf G = Yacl.Ecc.Nsm2) (table : ℕ → Aff)
    (ht : ∀ i w, i < 64 → 0 < w → w < 16 → RepA (table (i * 16 + w)) (hostEntry G i w)) (k : Fe) (hk : k.Wf) :
    RepJ (scalarMulFixedBase table k) (k.val • G) := by
  have hv := val_lt k hk
  have hne : ∀ i w, i < 64 → 0 < w → w < 16 → (w * 16 ^ i) • G ≠ 0 := by
    intro i w _ h1 h2 h
    have hd := addOrderOf_dvd_of_nsmul_eq_zero h
    rw [hG] at hd
    rcases (Nat.Prime.dvd_mul Yacl.Ecc.Primes.nsm2).1 hd with h | h
    · have := Nat.le_of_dvd h1 h
      omega
    · have := Nat.le_of_dvd (by norm_num) (Nat.Prime.dvd_of_dvd_pow Yacl.Ecc.Primes.nsm2 h)
      norm_num at this
  have := fixedLoop_rep table (fun i w h1 h2 h3 => by rw [← hostEntry_eq G i w h2]; exact ht i w h1 h2 h3) hne k hk 64 (le_refl _)
  rwa [Nat.mod_eq_of_lt (by norm_num at hv ⊢; omega)] at this

theorem limbs_val {n : ℕ} (h : n < W ^ 4) : (limbs n).Wf ∧ (limbs n).val = n := by
  simp only [Fe.Wf, limbs, Fe.val]
  omega

theorem toMontField_spec (v : ℕ) : (toMontField v).Red ∧ (toMontField v).dec = (v : ZMod Pm) := by
  have hlt : v * (2 ^ 256 % Pm) % Pm < Pm := Nat.mod_lt _ (by norm_num)
  obtain ⟨h1, h2⟩ := limbs_val (Nat.lt_trans hlt (by norm_num))
  refine ⟨⟨h1, by rw [toMontField, h2]; exact hlt⟩, ?_⟩
  rw [Fe.dec, toMontField, h2, ZMod.natCast_mod, Nat.cast_mul, ZMod.natCast_mod, mul_assoc, show (2 : ℕ) ^ 256 = W ^ 4 from by norm_num,
    mul_inv_cancel₀ W_ne, mul_one]

/-- C149: with the table the host builds, the fixed-base multiplication is the multiple of the generator of the CPU code, for every scalar. -/
theorem C149_fixed_host : ∃ G : E.Point, Yacl.Ecc.Represents Yacl.Ecc.sm2.G G ∧ addOrderOf G = Yacl.Ecc.Nsm2 ∧
    ∀ k : Fe, k.Wf → RepJ (scalarMulFixedBase (hostTable G) k) (k.val • G) := by
  obtain ⟨G, hG, ho, -, -⟩ := C148_generator
  refine ⟨G, hG, ho, fun k hk => C149_fixed ho _ ?_ k hk⟩
  intro i w _ h0 hw
  rw [hostTable, show (i * 16 + w) % 16 = w by omega, show (i * 16 + w) / 16 = i by omega, if_neg (by omega)]
  cases hostEntry G i w with
  | zero =>
    obtain ⟨a, b⟩ := toMontField_spec 0
    exact ⟨⟨a, a⟩, by simpa using b, by simpa using b⟩
  | some x y hh =>
    obtain ⟨a, b⟩ := toMontField_spec x.val
    obtain ⟨c, d⟩ := toMontField_spec y.val
    exact ⟨⟨a, c⟩, by rw [b, ZMod.natCast_zmod_val], by rw [d, ZMod.natCast_zmod_val]⟩

/-- The variable-base multiplication on the generator and a scalar above the group order. -/
example : ∃ (G : E.Point) (P : Aff) (R : Jac), G ≠ 0 ∧ RepA P G ∧ scalarMulVarBase P ⟨W - 1, W - 1, W - 1, W - 1⟩ = some R ∧
    RepJ R ((⟨W - 1, W - 1, W - 1, W - 1⟩ : Fe).val • G) := by
  obtain ⟨G, -, -, hne, h⟩ := C148_generator
  obtain ⟨R, h1, h2⟩ := C149_var h ⟨W - 1, W - 1, W - 1, W - 1⟩ (by unfold Fe.Wf; decide)
  exact ⟨G, _, R, hne, h, h1, h2⟩

end Yacl.Cuda
