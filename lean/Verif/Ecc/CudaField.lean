import Verif.Ecc.Primes
import Mathlib.Data.ZMod.Basic
import Mathlib.Tactic.Common
import Mathlib.Tactic.Ring
import Mathlib.Tactic.LinearCombination
import Mathlib.Algebra.Field.ZMod

/-! Model of the field arithmetic the GPU code for SM2 uses (yacl/crypto/ecc/cuda/kernels/sm2_kernels.cu): four 64-bit limbs, Montgomery
form.  A 64-bit word is a natural number below `W`; every operation that wraps is written with `% W`. -/

namespace Yacl.Cuda

/-- 2^64. -/
scoped notation "W" => (18446744073709551616 : ℕ)

/-- gpu_types.cuh `GpuFieldElement`: four limbs, the least significant first. -/
@[ext] structure Fe where
  l0 : ℕ
  l1 : ℕ
  l2 : ℕ
  l3 : ℕ
deriving DecidableEq

/-- The limbs are 64-bit words. -/
def Fe.Wf (a : Fe) : Prop := a.l0 < W ∧ a.l1 < W ∧ a.l2 < W ∧ a.l3 < W

/-- The number the limbs stand for. -/
def Fe.val (a : Fe) : ℕ := a.l0 + W * a.l1 + W ^ 2 * a.l2 + W ^ 3 * a.l3

/-- sm2_kernels.cu L28-33 `kSm2Prime`. -/
def prime : Fe := ⟨0xFFFFFFFFFFFFFFFF, 0xFFFFFFFF00000000, 0xFFFFFFFFFFFFFFFF, 0xFFFFFFFEFFFFFFFF⟩
/-- sm2_kernels.cu L37-39 `kSm2R2`. -/
def r2 : Fe := ⟨0x0000000200000003, 0x00000002FFFFFFFF, 0x0000000100000001, 0x0000000400000002⟩
/-- sm2_kernels.cu L42 `kSm2Mu`. -/
def mu : ℕ := 1
/-- sm2_kernels.cu L45-47 `kSm2RModP`, L463-469 `fpSetOne`. -/
def fpOne : Fe := ⟨1, 0x00000000FFFFFFFF, 0, 0x0000000100000000⟩
/-- sm2_kernels.cu L447-452 `fpSetZero`. -/
def fpZero : Fe := ⟨0, 0, 0, 0⟩

/-- sm2_kernels.cu L360-413 `add256`: sum and carry (the PTX instructions add with carry; the portable branch computes the same). -/
def add256 (a b : Fe) : Fe × ℕ :=
  let s0 := a.l0 + b.l0
  let s1 := a.l1 + b.l1 + s0 / W
  let s2 := a.l2 + b.l2 + s1 / W
  let s3 := a.l3 + b.l3 + s2 / W
  (⟨s0 % W, s1 % W, s2 % W, s3 % W⟩, s3 / W)

/-- One limb of `sub256`: difference and borrow. -/
def sub64 (a b borrow : ℕ) : ℕ × ℕ := ((a + W + W - b - borrow) % W, if borrow ≠ 0 then (if a ≤ b then 1 else 0) else (if a < b then 1 else 0))

/-- sm2_kernels.cu L416-436 `sub256`: difference and borrow. -/
def sub256 (a b : Fe) : Fe × ℕ :=
  let d0 := sub64 a.l0 b.l0 0
  let d1 := sub64 a.l1 b.l1 d0.2
  let d2 := sub64 a.l2 b.l2 d1.2
  let d3 := sub64 a.l3 b.l3 d2.2
  (⟨d0.1, d1.1, d2.1, d3.1⟩, d3.2)

/-- sm2_kernels.cu L454-456 `fpIsZero` (the limbs or-ed together are zero). -/
def fpIsZero (a : Fe) : Bool := (a.l0 ||| a.l1 ||| a.l2 ||| a.l3) == 0

/-- sm2_kernels.cu L458-461 `fpEqual`. -/
def fpEqual (a b : Fe) : Bool := a.l0 == b.l0 && a.l1 == b.l1 && a.l2 == b.l2 && a.l3 == b.l3

/-- sm2_kernels.cu L471-485 `fpAdd`. -/
def fpAdd (a b : Fe) : Fe :=
  let s := add256 a b
  let d := sub256 s.1 prime
  if s.2 ≠ 0 ∨ d.2 = 0 then d.1 else s.1

/-- sm2_kernels.cu L487-495 `fpSub`. -/
def fpSub (a b : Fe) : Fe :=
  let d := sub256 a b
  if d.2 ≠ 0 then (add256 d.1 prime).1 else d.1

/-- sm2_kernels.cu L497-503 `fpNeg`. -/
def fpNeg (a : Fe) : Fe := if fpIsZero a then fpZero else (sub256 prime a).1

/-- sm2_kernels.cu L505-513 `fpDouble`, `fpTriple`. -/
def fpDouble (a : Fe) : Fe := fpAdd a a
def fpTriple (a : Fe) : Fe := fpAdd (fpDouble a) a

/-- sm2_kernels.cu L561-576 `addMulAcc`: the limb, and the 65-bit carry as low word and high bit. -/
def addMulAcc (acc lo hi carryLo carryHi : ℕ) : ℕ × ℕ × ℕ :=
  let sum := (acc + lo) % W
  let c1 := if sum < acc then 1 else 0
  let sum2 := (sum + carryLo) % W
  let c2 := if sum2 < sum then 1 else 0
  let carryOut := (c1 + c2 + carryHi) % W
  let tmp := (hi + carryOut) % W
  (sum2, tmp, if tmp < hi then 1 else 0)

/-- The loop of `addCarry` (L586-590): a carry running through the limbs that follow. -/
def ripple : List ℕ → ℕ → List ℕ
  | [], _ => []
  | t :: ts, c => if c = 0 then t :: ts else ((t + c) % W) :: ripple ts (if (t + c) % W < t then 1 else 0)

/-- sm2_kernels.cu L579-591 `addCarry` on the limbs from `start` on. -/
def addCarry : List ℕ → ℕ → ℕ → List ℕ
  | [], _, _ => []
  | t :: ts, lo, hi => ((t + lo) % W) :: ripple ts ((if (t + lo) % W < t then 1 else 0) + hi)

/-- One round of the loops of `fpMul` (L605-613, L617-627): `x` times the limbs `ys` is added to the accumulator from limb `i` on.
`x * y` is split by `mul64` (L552-556). -/
def row (x : ℕ) : List ℕ → List ℕ → ℕ → ℕ → List ℕ
  | ts, [], lo, hi => addCarry ts lo hi
  | [], _ :: _, _, _ => []
  | t :: ts, y :: ys, lo, hi =>
    let r := addMulAcc t (x * y % W) (x * y / W) lo hi
    r.1 :: row x ts ys r.2.1 r.2.2

/-- The multiplication loop (L604-614): round `i` works on the limbs from `i` on; the limbs below are not touched again. -/
def mulRows (ys : List ℕ) : List ℕ → List ℕ → List ℕ
  | [], ts => ts
  | x :: xs, ts =>
    match row x ts ys 0 0 with
    | [] => []
    | t :: ts' => t :: mulRows ys xs ts'

/-- One round of the reduction loop (L617-627).  Limb `i` is not read again, so the list goes on without it. -/
def redStep (ts : List ℕ) : List ℕ := (row (ts.headD 0 * mu % W) ts [prime.l0, prime.l1, prime.l2, prime.l3] 0 0).tail

/-- The end of `fpMul` (L629-644): the result is `t[4..7]`, with `t[8]` above it. -/
def finish (ts : List ℕ) : Fe :=
  let r : Fe := ⟨ts.getD 0 0, ts.getD 1 0, ts.getD 2 0, ts.getD 3 0⟩
  let d := sub256 r prime
  if d.2 = 0 ∨ ts.getD 4 0 ≠ 0 then d.1 else r

/-- sm2_kernels.cu L598-645 `fpMul`. -/
def fpMul (a b : Fe) : Fe :=
  let t := mulRows [b.l0, b.l1, b.l2, b.l3] [a.l0, a.l1, a.l2, a.l3] [0, 0, 0, 0, 0, 0, 0, 0, 0]
  finish (redStep (redStep (redStep (redStep t))))

/-- sm2_kernels.cu L552-556 `mul64`: low and high word of a product. -/
def mul64 (x y : ℕ) : ℕ × ℕ := (x * y % W, x * y / W)

/-- One round of the multiplication loop of `fpSqr` (L694-703), with the products of the row already computed. -/
def sqrRow : List ℕ → List (ℕ × ℕ) → ℕ → ℕ → List ℕ
  | ts, [], lo, hi => addCarry ts lo hi
  | [], _ :: _, _, _ => []
  | t :: ts, p :: ps, lo, hi =>
    let r := addMulAcc t p.1 p.2 lo hi
    r.1 :: sqrRow ts ps r.2.1 r.2.2

/-- The multiplication loop of `fpSqr` (L693-704). -/
def sqrRows : List (List (ℕ × ℕ)) → List ℕ → List ℕ
  | [], ts => ts
  | ps :: pss, ts =>
    match sqrRow ts ps 0 0 with
    | [] => []
    | t :: ts' => t :: sqrRows pss ts'

/-- sm2_kernels.cu L648-734 `fpSqr`: the products of different limbs are computed once and used twice. -/
def fpSqr (a : Fe) : Fe :=
  let p00 := mul64 a.l0 a.l0
  let p11 := mul64 a.l1 a.l1
  let p22 := mul64 a.l2 a.l2
  let p33 := mul64 a.l3 a.l3
  let p01 := mul64 a.l0 a.l1
  let p02 := mul64 a.l0 a.l2
  let p03 := mul64 a.l0 a.l3
  let p12 := mul64 a.l1 a.l2
  let p13 := mul64 a.l1 a.l3
  let p23 := mul64 a.l2 a.l3
  let t := sqrRows [[p00, p01, p02, p03], [p01, p11, p12, p13], [p02, p12, p22, p23], [p03, p13, p23, p33]] [0, 0, 0, 0, 0, 0, 0, 0, 0]
  finish (redStep (redStep (redStep (redStep t))))

/-- sm2_kernels.cu L737-748 `fpToMont`, `fpFromMont`. -/
def fpToMont (a : Fe) : Fe := fpMul a r2
def fpFromMont (a : Fe) : Fe := fpMul a ⟨1, 0, 0, 0⟩

/-- sm2_kernels.cu L924-940 `fpHalve`. -/
def fpHalve (a : Fe) : Fe :=
  let s := if a.l0 % 2 = 1 then add256 a prime else (a, 0)
  let r := s.1
  ⟨r.l0 / 2 + (r.l1 % 2) * 2 ^ 63, r.l1 / 2 + (r.l2 % 2) * 2 ^ 63, r.l2 / 2 + (r.l3 % 2) * 2 ^ 63, r.l3 / 2 + s.2 * 2 ^ 63⟩

/-! ### Specification -/

/-- The SM2 prime. -/
scoped notation "Pm" => (115792089210356248756420345214020892766250353991924191454421193933289684991999 : ℕ)

/-- A fully reduced element. -/
def Fe.Red (a : Fe) : Prop := a.Wf ∧ a.val < Pm

/-- The field element an `Fe` in Montgomery form stands for. -/
noncomputable def Fe.dec (a : Fe) : ZMod Pm := (a.val : ZMod Pm) * ((W ^ 4 : ℕ) : ZMod Pm)⁻¹

/-! ### Proof -/

theorem prime_val : prime.val = Pm := by decide
theorem prime_wf : prime.Wf := by unfold Fe.Wf; decide

theorem add256_spec (a b : Fe) : (add256 a b).1.Wf ∧ (add256 a b).1.val + W ^ 4 * (add256 a b).2 = a.val + b.val := by
  simp only [add256, Fe.Wf, Fe.val]
  refine ⟨⟨Nat.mod_lt _ (by norm_num), Nat.mod_lt _ (by norm_num), Nat.mod_lt _ (by norm_num), Nat.mod_lt _ (by norm_num)⟩, ?_⟩
  omega

theorem sub64_spec (a b c : ℕ) (ha : a < W) (hb : b < W) (hc : c ≤ 1) :
    (sub64 a b c).1 < W ∧ (sub64 a b c).2 ≤ 1 ∧ (sub64 a b c).1 + b + c = a + W * (sub64 a b c).2 := by
  simp only [sub64]
  refine ⟨Nat.mod_lt _ (by norm_num), ?_, ?_⟩
  · split <;> split <;> omega
  · split <;> split <;> omega

theorem sub256_spec (a b : Fe) (ha : a.Wf) (hb : b.Wf) :
    (sub256 a b).1.Wf ∧ (sub256 a b).2 ≤ 1 ∧ (sub256 a b).1.val + b.val = a.val + W ^ 4 * (sub256 a b).2 := by
  obtain ⟨a0, a1, a2, a3⟩ := ha
  obtain ⟨b0, b1, b2, b3⟩ := hb
  simp only [sub256, Fe.Wf, Fe.val]
  obtain ⟨x1, x2, x3⟩ := sub64_spec a.l0 b.l0 0 a0 b0 (by omega)
  obtain ⟨y1, y2, y3⟩ := sub64_spec a.l1 b.l1 (sub64 a.l0 b.l0 0).2 a1 b1 x2
  obtain ⟨z1, z2, z3⟩ := sub64_spec a.l2 b.l2 (sub64 a.l1 b.l1 (sub64 a.l0 b.l0 0).2).2 a2 b2 y2
  obtain ⟨w1, w2, w3⟩ := sub64_spec a.l3 b.l3 (sub64 a.l2 b.l2 (sub64 a.l1 b.l1 (sub64 a.l0 b.l0 0).2).2).2 a3 b3 z2
  generalize sub64 a.l3 b.l3 (sub64 a.l2 b.l2 (sub64 a.l1 b.l1 (sub64 a.l0 b.l0 0).2).2).2 = w at *
  generalize sub64 a.l2 b.l2 (sub64 a.l1 b.l1 (sub64 a.l0 b.l0 0).2).2 = z at *
  generalize sub64 a.l1 b.l1 (sub64 a.l0 b.l0 0).2 = y at *
  generalize sub64 a.l0 b.l0 0 = x at *
  exact ⟨⟨x1, y1, z1, w1⟩, w2, by omega⟩

theorem val_lt (a : Fe) (h : a.Wf) : a.val < W ^ 4 := by
  obtain ⟨h0, h1, h2, h3⟩ := h
  simp only [Fe.val]; omega

theorem fpAdd_spec (a b : Fe) (ha : a.Red) (hb : b.Red) :
    (fpAdd a b).Red ∧ ((fpAdd a b).val = a.val + b.val ∨ (fpAdd a b).val + Pm = a.val + b.val) := by
  obtain ⟨s1, s2⟩ := add256_spec a b
  obtain ⟨d1, d2, d3⟩ := sub256_spec (add256 a b).1 prime s1 prime_wf
  rw [prime_val] at d3
  have h1 := val_lt _ s1
  have h2 := val_lt _ d1
  have ha2 := ha.2
  have hb2 := hb.2
  simp only [fpAdd]
  generalize sub256 (add256 a b).1 prime = d at *
  generalize add256 a b = s at *
  split
  · next hc => exact ⟨⟨d1, by omega⟩, by omega⟩
  · next hc => exact ⟨⟨s1, by omega⟩, by omega⟩

theorem fpSub_spec (a b : Fe) (ha : a.Red) (hb : b.Red) :
    (fpSub a b).Red ∧ ((fpSub a b).val + b.val = a.val ∨ (fpSub a b).val + b.val = a.val + Pm) := by
  obtain ⟨d1, d2, d3⟩ := sub256_spec a b ha.1 hb.1
  obtain ⟨s1, s2⟩ := add256_spec (sub256 a b).1 prime
  rw [prime_val] at s2
  have h1 := val_lt _ s1
  have h2 := val_lt _ d1
  have ha2 := ha.2
  have hb2 := hb.2
  simp only [fpSub]
  generalize add256 (sub256 a b).1 prime = s at *
  generalize sub256 a b = d at *
  split
  · next hc => exact ⟨⟨s1, by omega⟩, by omega⟩
  · next hc => exact ⟨⟨d1, by omega⟩, by omega⟩

theorem fpIsZero_iff (a : Fe) : fpIsZero a = true ↔ a = fpZero := by
  simp only [fpIsZero, beq_iff_eq, Nat.or_eq_zero_iff, fpZero, Fe.ext_iff, and_assoc]

theorem fpEqual_iff (a b : Fe) : fpEqual a b = true ↔ a = b := by
  simp [fpEqual, Fe.ext_iff, and_assoc]

theorem val_inj (a b : Fe) (ha : a.Wf) (hb : b.Wf) (h : a.val = b.val) : a = b := by
  obtain ⟨a0, a1, a2, a3⟩ := ha
  obtain ⟨b0, b1, b2, b3⟩ := hb
  simp only [Fe.val] at h
  ext <;> omega

theorem fpNeg_spec (a : Fe) (ha : a.Red) : (fpNeg a).Red ∧ ((fpNeg a).val + a.val = 0 ∨ (fpNeg a).val + a.val = Pm) := by
  simp only [fpNeg]
  split
  · next h =>
    rw [fpIsZero_iff] at h
    subst h
    exact ⟨⟨by unfold Fe.Wf; decide, by decide⟩, .inl rfl⟩
  · next h =>
    have h0 : a.val ≠ 0 := by
      intro hv
      apply h
      rw [fpIsZero_iff]
      exact val_inj _ _ ha.1 (by unfold Fe.Wf; decide) hv
    obtain ⟨d1, d2, d3⟩ := sub256_spec prime a prime_wf ha.1
    rw [prime_val] at d3
    have := val_lt _ d1
    have := ha.2
    exact ⟨⟨d1, by omega⟩, by omega⟩

/-- The number a list of limbs stands for. -/
def num : List ℕ → ℕ
  | [] => 0
  | t :: ts => t + W * num ts

theorem ite_le_one (q : Prop) [Decidable q] : (if q then 1 else 0 : ℕ) ≤ 1 := by split <;> omega

theorem addMulAcc_spec (acc lo hi cl ch : ℕ) (h1 : acc < W) (h2 : lo < W) (h3 : hi < W) (h4 : cl < W) (h5 : ch ≤ 1) :
    (addMulAcc acc lo hi cl ch).1 < W ∧ (addMulAcc acc lo hi cl ch).2.1 < W ∧ (addMulAcc acc lo hi cl ch).2.2 ≤ 1 ∧
    (addMulAcc acc lo hi cl ch).1 + W * ((addMulAcc acc lo hi cl ch).2.1 + W * (addMulAcc acc lo hi cl ch).2.2) =
      acc + (lo + W * hi) + (cl + W * ch) := by
  simp only [addMulAcc]
  refine ⟨Nat.mod_lt _ (by norm_num), Nat.mod_lt _ (by norm_num), ite_le_one _, ?_⟩
  split <;> split <;> split <;> omega

theorem ripple_spec (ts : List ℕ) : ∀ c, (∀ t ∈ ts, t < W) → c ≤ 2 →
    (ripple ts c).length = ts.length ∧ (∀ t ∈ ripple ts c, t < W) ∧ ∃ e, num (ripple ts c) + W ^ ts.length * e = num ts + c := by
  induction ts with
  | nil => intro c _ _; exact ⟨rfl, by simp [ripple], c, by simp [ripple, num]⟩
  | cons t ts ih =>
    intro c h hc
    simp only [List.mem_cons, forall_eq_or_imp] at h
    simp only [ripple]
    split
    · next h0 => exact ⟨rfl, by simpa using h, 0, by subst h0; rfl⟩
    · obtain ⟨l, w, e, he⟩ := ih (if (t + c) % W < t then 1 else 0) h.2 (by split <;> omega)
      refine ⟨by simp [l], ?_, e, ?_⟩
      · simp only [List.mem_cons, forall_eq_or_imp]; exact ⟨Nat.mod_lt _ (by norm_num), w⟩
      · simp only [num, List.length_cons, pow_succ]
        have : W ^ ts.length * W * e = W * (W ^ ts.length * e) := by ring
        rw [this]
        have h1 := h.1
        generalize W ^ ts.length * e = z at he ⊢
        generalize num (ripple ts _) = q at he ⊢
        split at he <;> omega

theorem addCarry_spec (ts : List ℕ) (lo hi : ℕ) (h : ∀ t ∈ ts, t < W) (h1 : lo < W) (h2 : hi ≤ 1) :
    (addCarry ts lo hi).length = ts.length ∧ (∀ t ∈ addCarry ts lo hi, t < W) ∧
    ∃ e, num (addCarry ts lo hi) + W ^ ts.length * e = num ts + (lo + W * hi) := by
  cases ts with
  | nil => exact ⟨rfl, by simp [addCarry], lo + W * hi, by simp [addCarry, num]⟩
  | cons t ts =>
    simp only [List.mem_cons, forall_eq_or_imp] at h
    simp only [addCarry]
    obtain ⟨l, w, e, he⟩ := ripple_spec ts ((if (t + lo) % W < t then 1 else 0) + hi) h.2 (by split <;> omega)
    refine ⟨by simp [l], ?_, e, ?_⟩
    · simp only [List.mem_cons, forall_eq_or_imp]; exact ⟨Nat.mod_lt _ (by norm_num), w⟩
    · simp only [num, List.length_cons, pow_succ]
      have : W ^ ts.length * W * e = W * (W ^ ts.length * e) := by ring
      rw [this]
      have h1 := h.1
      generalize W ^ ts.length * e = z at he ⊢
      generalize num (ripple ts _) = q at he ⊢
      split at he <;> omega

theorem row_spec (x : ℕ) (hx : x < W) (ys : List ℕ) : ∀ (ts : List ℕ) (lo hi : ℕ), ys.length ≤ ts.length → (∀ t ∈ ts, t < W) →
    (∀ y ∈ ys, y < W) → lo < W → hi ≤ 1 →
    (row x ts ys lo hi).length = ts.length ∧ (∀ t ∈ row x ts ys lo hi, t < W) ∧
    ∃ e, num (row x ts ys lo hi) + W ^ ts.length * e = num ts + x * num ys + (lo + W * hi) := by
  induction ys with
  | nil =>
    intro ts lo hi _ ht _ hl hh
    have := addCarry_spec ts lo hi ht hl hh
    simpa [row, num] using this
  | cons y ys ih =>
    intro ts lo hi hlen ht hy hl hh
    cases ts with
    | nil => simp at hlen
    | cons t ts =>
      simp only [List.mem_cons, forall_eq_or_imp] at ht hy
      simp only [List.length_cons, Nat.add_le_add_iff_right] at hlen
      have hxy : x * y / W < W := Nat.div_lt_of_lt_mul (Nat.mul_lt_mul'' hx hy.1)
      obtain ⟨a1, a2, a3, a4⟩ := addMulAcc_spec t (x * y % W) (x * y / W) lo hi ht.1 (Nat.mod_lt _ (by norm_num)) hxy hl hh
      rw [Nat.mod_add_div] at a4
      simp only [row]
      generalize addMulAcc t (x * y % W) (x * y / W) lo hi = r at *
      obtain ⟨l, w, e, he⟩ := ih ts r.2.1 r.2.2 hlen ht.2 hy.2 a2 a3
      refine ⟨by simp [l], ?_, e, ?_⟩
      · simp only [List.mem_cons, forall_eq_or_imp]; exact ⟨a1, w⟩
      · simp only [num, List.length_cons, pow_succ]
        have e1 : W ^ ts.length * W * e = W * (W ^ ts.length * e) := by ring
        have e2 : x * (y + W * num ys) = x * y + W * (x * num ys) := by ring
        rw [e1, e2]
        generalize W ^ ts.length * e = z at he ⊢
        generalize x * num ys = v at he ⊢
        generalize x * y = u at a4 ⊢
        omega

theorem num_lt (ts : List ℕ) (h : ∀ t ∈ ts, t < W) : num ts < W ^ ts.length := by
  induction ts with
  | nil => simp [num]
  | cons t ts ih =>
    simp only [List.mem_cons, forall_eq_or_imp] at h
    have := ih h.2
    have h1 := h.1
    simp only [num, List.length_cons, pow_succ]
    generalize W ^ ts.length = z at *
    omega

theorem no_carry {n : ℕ} {a b e : ℕ} (h : a + n * e = b) (hb : b < n) : a = b := by
  rcases Nat.eq_zero_or_pos e with h0 | h0
  · subst h0; omega
  · have : n * 1 ≤ n * e := Nat.mul_le_mul_left _ h0
    omega

theorem mulRows_spec (ys : List ℕ) (hy : ∀ y ∈ ys, y < W) (xs : List ℕ) : ∀ ts : List ℕ, (∀ x ∈ xs, x < W) → (∀ t ∈ ts, t < W) →
    xs.length + ys.length ≤ ts.length → num ts + num xs * num ys < W ^ ts.length →
    (mulRows ys xs ts).length = ts.length ∧ (∀ t ∈ mulRows ys xs ts, t < W) ∧ num (mulRows ys xs ts) = num ts + num xs * num ys := by
  induction xs with
  | nil => intro ts _ ht _ _; exact ⟨rfl, ht, by simp [mulRows, num]⟩
  | cons x xs ih =>
    intro ts hx ht hl hb
    simp only [List.mem_cons, forall_eq_or_imp] at hx
    simp only [List.length_cons] at hl
    obtain ⟨l, w, e, he⟩ := row_spec x hx.1 ys ts 0 0 (by omega) ht hy (by norm_num) (by norm_num)
    simp only [mulRows]
    have hb' : num (x :: xs) * num ys = x * num ys + W * (num xs * num ys) := by simp only [num]; ring
    rw [hb'] at hb ⊢
    have he' := no_carry he (by omega)
    generalize row x ts ys 0 0 = r at *
    cases r with
    | nil => simp at l; omega
    | cons t' ts' =>
      simp only [List.length_cons] at l
      simp only [List.mem_cons, forall_eq_or_imp] at w
      simp only [num] at he'
      rw [← l, pow_succ] at hb
      obtain ⟨l2, w2, e2⟩ := ih ts' hx.2 w.2 (by omega) (by
        generalize W ^ ts'.length = z at *
        generalize num xs * num ys = u at *
        generalize x * num ys = v at *
        omega)
      simp only [List.length_cons, List.mem_cons, forall_eq_or_imp, num]
      refine ⟨by omega, ⟨w.1, w2⟩, ?_⟩
      rw [e2]
      generalize num xs * num ys = u at *
      generalize x * num ys = v at *
      omega

theorem redStep_spec (ts : List ℕ) (ht : ∀ t ∈ ts, t < W) (hl : 5 ≤ ts.length) (hb : num ts + W * Pm ≤ W ^ ts.length) :
    (redStep ts).length + 1 = ts.length ∧ (∀ t ∈ redStep ts, t < W) ∧ ∃ m < W, W * num (redStep ts) = num ts + m * Pm := by
  cases ts with
  | nil => simp at hl
  | cons t ts =>
    have hm : t * mu % W < W := Nat.mod_lt _ (by norm_num)
    have ht1 : t < W := ht t (by simp)
    have hp : ∀ y ∈ [prime.l0, prime.l1, prime.l2, prime.l3], y < W := by decide
    have hpv : num [prime.l0, prime.l1, prime.l2, prime.l3] = Pm := by decide
    have hmt : t * mu % W = t := by simp only [mu, mul_one]; exact Nat.mod_eq_of_lt ht1
    obtain ⟨l, w, e, he⟩ := row_spec (t * mu % W) hm [prime.l0, prime.l1, prime.l2, prime.l3] (t :: ts) 0 0
      (by simpa using by simpa using (by omega : 4 ≤ (t :: ts).length)) ht hp (by norm_num) (by norm_num)
    simp only [redStep, List.headD_cons]
    rw [hpv] at he
    have he' := no_carry he (by
      have := Nat.mul_lt_mul_of_pos_right hm (by norm_num : 0 < Pm)
      omega)
    rw [hmt] at *
    generalize row t (t :: ts) [prime.l0, prime.l1, prime.l2, prime.l3] 0 0 = r at *
    cases r with
    | nil => simp at l
    | cons t' ts' =>
      simp only [List.length_cons] at l
      simp only [List.mem_cons, forall_eq_or_imp] at w
      simp only [List.tail_cons]
      refine ⟨by simpa using l, w.2, t, ht1, ?_⟩
      simp only [num] at he' ⊢
      have := w.1
      omega

theorem finish_spec (ts : List ℕ) (ht : ∀ t ∈ ts, t < W) (hl : ts.length = 5) (hb : num ts < 2 * Pm) :
    (finish ts).Red ∧ ((finish ts).val = num ts ∨ (finish ts).val + Pm = num ts) := by
  match ts, hl with
  | [a, b, c, d, e], _ =>
    simp only [List.mem_cons, forall_eq_or_imp, List.not_mem_nil, false_imp_iff, implies_true, and_true] at ht
    obtain ⟨h0, h1, h2, h3, h4⟩ := ht
    simp only [num] at hb ⊢
    simp only [finish, List.getD_cons_zero, List.getD_cons_succ]
    have hw : (⟨a, b, c, d⟩ : Fe).Wf := ⟨h0, h1, h2, h3⟩
    have hv : (⟨a, b, c, d⟩ : Fe).val = a + W * b + W ^ 2 * c + W ^ 3 * d := rfl
    obtain ⟨d1, d2, d3⟩ := sub256_spec ⟨a, b, c, d⟩ prime hw prime_wf
    rw [prime_val, hv] at d3
    have := val_lt _ d1
    generalize sub256 ⟨a, b, c, d⟩ prime = s at *
    split
    · exact ⟨⟨d1, by omega⟩, by omega⟩
    · exact ⟨⟨hw, by rw [hv]; omega⟩, by rw [hv]; omega⟩

theorem fpMul_spec (a b : Fe) (ha : a.Wf) (hb : b.Wf) (hab : a.val * b.val < W ^ 4 * Pm) :
    (fpMul a b).Red ∧ ∃ m, (fpMul a b).val * W ^ 4 = a.val * b.val + m * Pm ∨ ((fpMul a b).val + Pm) * W ^ 4 = a.val * b.val + m * Pm := by
  obtain ⟨a0, a1, a2, a3⟩ := ha
  obtain ⟨b0, b1, b2, b3⟩ := hb
  have na : num [a.l0, a.l1, a.l2, a.l3] = a.val := by simp only [num, Fe.val]; ring
  have nb : num [b.l0, b.l1, b.l2, b.l3] = b.val := by simp only [num, Fe.val]; ring
  obtain ⟨l, w, v⟩ := mulRows_spec [b.l0, b.l1, b.l2, b.l3] (by simp; omega) [a.l0, a.l1, a.l2, a.l3] [0, 0, 0, 0, 0, 0, 0, 0, 0]
    (by simp; omega) (by simp) (by simp) (by
      rw [na, nb]; simp only [num, List.length_cons, List.length_nil]
      generalize a.val * b.val = z at *
      omega)
  simp only [fpMul]
  rw [na, nb] at v
  simp only [num, Nat.mul_zero, Nat.add_zero, Nat.zero_add] at v
  generalize mulRows [b.l0, b.l1, b.l2, b.l3] [a.l0, a.l1, a.l2, a.l3] [0, 0, 0, 0, 0, 0, 0, 0, 0] = t at *
  simp only [List.length_cons, List.length_nil] at l
  generalize a.val * b.val = z at *
  obtain ⟨l1, w1, m1, q1, v1⟩ := redStep_spec t w (by omega) (by rw [l]; omega)
  generalize redStep t = t1 at *
  obtain ⟨l2, w2, m2, q2, v2⟩ := redStep_spec t1 w1 (by omega) (by rw [show t1.length = 8 by omega]; omega)
  generalize redStep t1 = t2 at *
  obtain ⟨l3, w3, m3, q3, v3⟩ := redStep_spec t2 w2 (by omega) (by rw [show t2.length = 7 by omega]; omega)
  generalize redStep t2 = t3 at *
  obtain ⟨l4, w4, m4, q4, v4⟩ := redStep_spec t3 w3 (by omega) (by rw [show t3.length = 6 by omega]; omega)
  generalize redStep t3 = t4 at *
  obtain ⟨r, hr⟩ := finish_spec t4 w4 (by omega) (by omega)
  refine ⟨r, m1 + W * m2 + W ^ 2 * m3 + W ^ 3 * m4, ?_⟩
  generalize (finish t4).val = f at *
  omega

theorem fpHalve_spec (a : Fe) (ha : a.Red) : (fpHalve a).Red ∧ ((fpHalve a).val * 2 = a.val ∨ (fpHalve a).val * 2 = a.val + Pm) := by
  obtain ⟨⟨a0, a1, a2, a3⟩, av⟩ := ha
  simp only [fpHalve]
  split
  · next h =>
    obtain ⟨⟨s0, s1, s2, s3⟩, sv⟩ := add256_spec a prime
    rw [prime_val] at sv
    generalize add256 a prime = s at *
    simp only [Fe.Red, Fe.Wf, Fe.val] at *
    have : s.2 ≤ 1 := by omega
    refine ⟨⟨⟨?_, ?_, ?_, ?_⟩, ?_⟩, .inr ?_⟩ <;> omega
  · next h =>
    simp only [Fe.Red, Fe.Wf, Fe.val] at *
    refine ⟨⟨⟨?_, ?_, ?_, ?_⟩, ?_⟩, .inl ?_⟩ <;> omega

instance : Fact (Nat.Prime Pm) := ⟨Yacl.Ecc.Primes.psm2⟩

theorem W_ne : ((W ^ 4 : ℕ) : ZMod Pm) ≠ 0 := by
  rw [Ne, ZMod.natCast_eq_zero_iff]; decide +kernel

section generic
variable {p : ℕ} [Fact p.Prime] {w : ℕ}

theorem dec_mul (hw : ((w : ℕ) : ZMod p) ≠ 0) {a x y m : ℕ} (h : a * w = x * y + m * p) :
    (a : ZMod p) * (w : ZMod p)⁻¹ = ((x : ZMod p) * (w : ZMod p)⁻¹) * ((y : ZMod p) * (w : ZMod p)⁻¹) := by
  have := congrArg (Nat.cast (R := ZMod p)) h
  push_cast at this
  rw [ZMod.natCast_self, mul_zero, add_zero] at this
  field_simp
  exact this

theorem cast_mul_p (a : ℕ) : ((a + p : ℕ) : ZMod p) = a := by
  push_cast; rw [ZMod.natCast_self, add_zero]

theorem dec_inj (hw : ((w : ℕ) : ZMod p) ≠ 0) {a b : ℕ} (ha : a < p) (hb : b < p)
    (h : (a : ZMod p) * (w : ZMod p)⁻¹ = (b : ZMod p) * (w : ZMod p)⁻¹) : a = b := by
  have := mul_right_cancel₀ (inv_ne_zero hw) h
  have := (ZMod.natCast_eq_natCast_iff' _ _ _).1 this
  rwa [Nat.mod_eq_of_lt ha, Nat.mod_eq_of_lt hb] at this

end generic

/-- C148: the product of reduced elements is reduced and stands for the product. -/
theorem C148_mul (a b : Fe) (ha : a.Red) (hb : b.Red) : (fpMul a b).Red ∧ (fpMul a b).dec = a.dec * b.dec := by
  have := val_lt _ ha.1
  obtain ⟨r, m, h⟩ := fpMul_spec a b ha.1 hb.1 (Nat.mul_lt_mul'' this hb.2)
  refine ⟨r, ?_⟩
  simp only [Fe.dec]
  rcases h with h | h
  · exact dec_mul W_ne h
  · rw [← cast_mul_p (fpMul a b).val]
    exact dec_mul W_ne h

theorem sqrRow_eq (x : ℕ) (ys : List ℕ) : ∀ (ts : List ℕ) (lo hi : ℕ), sqrRow ts (ys.map (mul64 x)) lo hi = row x ts ys lo hi := by
  induction ys with
  | nil => intro ts lo hi; cases ts <;> rfl
  | cons y ys ih =>
    intro ts lo hi
    cases ts with
    | nil => rfl
    | cons t ts => simp only [List.map_cons, sqrRow, row, ih, mul64]

theorem sqrRows_eq (ys : List ℕ) (xs : List ℕ) : ∀ ts : List ℕ, sqrRows (xs.map fun x => ys.map (mul64 x)) ts = mulRows ys xs ts := by
  induction xs with
  | nil => intro ts; rfl
  | cons x xs ih =>
    intro ts
    simp only [List.map_cons, sqrRows, mulRows, sqrRow_eq]
    split <;> simp_all

theorem mul64_comm (x y : ℕ) : mul64 x y = mul64 y x := by rw [mul64, mul64, mul_comm]

theorem fpSqr_eq (a : Fe) : fpSqr a = fpMul a a := by
  have h := sqrRows_eq [a.l0, a.l1, a.l2, a.l3] [a.l0, a.l1, a.l2, a.l3] [0, 0, 0, 0, 0, 0, 0, 0, 0]
  simp only [List.map_cons, List.map_nil] at h
  rw [mul64_comm a.l1 a.l0, mul64_comm a.l2 a.l0, mul64_comm a.l3 a.l0, mul64_comm a.l2 a.l1, mul64_comm a.l3 a.l1, mul64_comm a.l3 a.l2] at h
  unfold fpSqr fpMul
  simp only []
  rw [h]

theorem C148_sqr (a : Fe) (ha : a.Red) : (fpSqr a).Red ∧ (fpSqr a).dec = a.dec ^ 2 := by
  rw [fpSqr_eq, pow_two]; exact C148_mul a a ha ha

/-- C148: the sum, the difference, the opposite and the half of reduced elements. -/
theorem C148_add (a b : Fe) (ha : a.Red) (hb : b.Red) : (fpAdd a b).Red ∧ (fpAdd a b).dec = a.dec + b.dec := by
  obtain ⟨r, h⟩ := fpAdd_spec a b ha hb
  refine ⟨r, ?_⟩
  simp only [Fe.dec]
  rw [← add_mul, ← Nat.cast_add]
  rcases h with h | h
  · rw [h]
  · rw [← h, cast_mul_p]

theorem C148_sub (a b : Fe) (ha : a.Red) (hb : b.Red) : (fpSub a b).Red ∧ (fpSub a b).dec = a.dec - b.dec := by
  obtain ⟨r, h⟩ := fpSub_spec a b ha hb
  refine ⟨r, ?_⟩
  simp only [Fe.dec]
  rw [eq_sub_iff_add_eq, ← add_mul, ← Nat.cast_add]
  rcases h with h | h
  · rw [h]
  · rw [h, cast_mul_p]

theorem C148_neg (a : Fe) (ha : a.Red) : (fpNeg a).Red ∧ (fpNeg a).dec = - a.dec := by
  obtain ⟨r, h⟩ := fpNeg_spec a ha
  refine ⟨r, ?_⟩
  simp only [Fe.dec]
  rw [eq_neg_iff_add_eq_zero, ← add_mul, ← Nat.cast_add]
  rcases h with h | h
  · rw [h, Nat.cast_zero, zero_mul]
  · rw [h, ZMod.natCast_self, zero_mul]

theorem C148_halve (a : Fe) (ha : a.Red) : (fpHalve a).Red ∧ (fpHalve a).dec * 2 = a.dec := by
  obtain ⟨r, h⟩ := fpHalve_spec a ha
  refine ⟨r, ?_⟩
  simp only [Fe.dec]
  have e : ((fpHalve a).val : ZMod Pm) * 2 = a.val := by
    have : (((fpHalve a).val * 2 : ℕ) : ZMod Pm) = a.val := by
      rcases h with h | h
      · rw [h]
      · rw [h, cast_mul_p]
    rw [Nat.cast_mul] at this
    exact this
  rw [mul_right_comm, e]

/-- C148: on reduced elements the two tests decide equality of the field elements. -/
theorem C148_equal (a b : Fe) (ha : a.Red) (hb : b.Red) : fpEqual a b = true ↔ a.dec = b.dec := by
  rw [fpEqual_iff]
  refine ⟨fun h => by rw [h], fun h => val_inj _ _ ha.1 hb.1 (dec_inj W_ne ha.2 hb.2 h)⟩

theorem red_zero : fpZero.Red := ⟨by unfold Fe.Wf; decide, by decide⟩
theorem dec_zero : fpZero.dec = 0 := by
  simp only [Fe.dec, show fpZero.val = 0 from rfl, Nat.cast_zero, zero_mul]

theorem C148_zero (a : Fe) (ha : a.Red) : fpIsZero a = true ↔ a.dec = 0 := by
  rw [fpIsZero_iff, ← fpEqual_iff, C148_equal a _ ha red_zero, dec_zero]

theorem red_one : fpOne.Red := ⟨by unfold Fe.Wf; decide, by decide⟩
theorem dec_one : fpOne.dec = 1 := by
  simp only [Fe.dec]
  rw [show fpOne.val = W ^ 4 - Pm from by decide]
  rw [← cast_mul_p, Nat.sub_add_cancel (by norm_num)]
  exact mul_inv_cancel₀ W_ne

/-- C148: any 256-bit number enters the Montgomery form as the field element it stands for, even one at or above the field size; and a
reduced element leaves it as the canonical number. -/
theorem C148_toMont (a : Fe) (ha : a.Wf) : (fpToMont a).Red ∧ (fpToMont a).dec = (a.val : ZMod Pm) := by
  have h1 := val_lt _ ha
  have hr : r2.Red := ⟨by unfold Fe.Wf; decide, by decide⟩
  obtain ⟨r, m, h⟩ := fpMul_spec a r2 ha hr.1 (Nat.mul_lt_mul'' h1 hr.2)
  refine ⟨r, ?_⟩
  have hd : (fpToMont a).dec = ((a.val : ZMod Pm) * ((W ^ 4 : ℕ) : ZMod Pm)⁻¹) * ((r2.val : ZMod Pm) * ((W ^ 4 : ℕ) : ZMod Pm)⁻¹) := by
    simp only [Fe.dec, fpToMont]
    rcases h with h | h
    · exact dec_mul W_ne h
    · rw [← cast_mul_p (fpMul a r2).val]
      exact dec_mul W_ne h
  rw [hd]
  have h2 : ((r2.val : ℕ) : ZMod Pm) = ((W ^ 4 : ℕ) : ZMod Pm) * ((W ^ 4 : ℕ) : ZMod Pm) := by
    rw [← Nat.cast_mul, ZMod.natCast_eq_natCast_iff']
    decide +kernel
  rw [h2]
  have := W_ne
  generalize ((W ^ 4 : ℕ) : ZMod Pm) = z at *
  field_simp

theorem C148_fromMont (a : Fe) (ha : a.Red) : (fpFromMont a).Red ∧ ((fpFromMont a).val : ZMod Pm) = a.dec := by
  have hr : (⟨1, 0, 0, 0⟩ : Fe).Red := ⟨by unfold Fe.Wf; decide, by decide⟩
  obtain ⟨r, h⟩ := C148_mul a ⟨1, 0, 0, 0⟩ ha hr
  refine ⟨r, ?_⟩
  have : (fpFromMont a).dec = a.dec * (⟨1, 0, 0, 0⟩ : Fe).dec := h
  simp only [Fe.dec] at this ⊢
  rw [show (⟨1, 0, 0, 0⟩ : Fe).val = 1 from rfl, Nat.cast_one, one_mul] at this
  exact mul_right_cancel₀ (inv_ne_zero W_ne) this

/-- Two reduced elements whose product and sum both need the final subtraction or more than one limb. -/
example : ∃ a b : Fe, a.Red ∧ b.Red ∧ a ≠ b ∧ a.val + b.val ≥ Pm ∧ (fpMul a b).val ≠ 0 :=
  ⟨⟨0xFFFFFFFFFFFFFFFE, 0xFFFFFFFF00000000, 0xFFFFFFFFFFFFFFFF, 0xFFFFFFFEFFFFFFFF⟩, fpOne, ⟨by unfold Fe.Wf; decide, by decide⟩, red_one,
    by decide, by decide, by decide⟩

end Yacl.Cuda
