import Verif.Kernel.SilentVole
import Verif.Kernel.Silver

/-! Silent VOLE with a Silver code: yacl/kernel/algorithms/silent_vole.cc. Property C80. -/
namespace Yacl.SilentVole
open Ggm Mpfss Gf MpVole Code

/-! ### Model -/

/-- silent_vole.cc L68-92: the number of multi-point elements for a Silver code, with its gap of 16 or 32. -/
def mpSizeSilver (weight noise num : Nat) : Nat := max (divCeil (num * 2) noise) 2 * noise + (if weight = 5 then 16 else 32)

/-- silent_vole.cc L101-124 `GetEncoder`: the Silver code of length `code_size_ = mp_vole_size_ / 2`. `starts` are the floating-point start positions of its left matrix, by length. -/
def getSilver (weight : Nat) (starts : Nat → List Nat) (size : Nat) : Option Silver.Code := Silver.mk (size / 2) weight (starts (size / 2))

/-- silent_vole.cc L139-155 `DualLpnEncode`: encode in place, then copy the first `num` elements out. -/
def silverOut {w : Nat} (weight : Nat) (starts : Nat → List Nat) (size num : Nat) (inp out : List (BitVec w)) : Option (List (BitVec w)) :=
  match getSilver weight starts size with
  | none => none
  | some c =>
    match Silver.dualEncodeInplace c inp with
    | none => none
    | some r => if num ≤ r.length ∧ num ≤ out.length then some (r.take num ++ out.drop num) else none

/-- silent_vole.cc L157-174 `DualLpnEncode2`. -/
def silverOut2 {v w : Nat} (weight : Nat) (starts : Nat → List Nat) (size num : Nat) (in0 out0 : List (BitVec v)) (in1 out1 : List (BitVec w)) : Option (List (BitVec v) × List (BitVec w)) :=
  match getSilver weight starts size with
  | none => none
  | some c =>
    match Silver.dualEncodeInplace2 c in0 in1 with
    | none => none
    | some (r, s) =>
      if num ≤ r.length ∧ num ≤ out0.length ∧ num ≤ s.length ∧ num ≤ out1.length then some (r.take num ++ out0.drop num, s.take num ++ out1.drop num) else none

/-- silent_vole.cc L213-310 `SendImpl`, `RecvImpl` for a Silver code, both parties. -/
def runSilver {w v : Nat} (mul : BitVec w → BitVec w → BitVec w) (inner : List (BitVec w) → List (BitVec v) → Option (BitVec w))
    (innerK : List (BitVec w) → List (BitVec w) → Option (BitVec w)) (conv : B → BitVec w) (e : Env w) (weight : Nat) (starts : Nat → List Nat) (noise : Nat) (mal : Bool)
    (oc : List (BitVec w)) (oa : List (BitVec v)) (ob : List (BitVec w)) : Option (List (BitVec w) × List (BitVec v) × List (BitVec w)) :=
  match mpStage mul inner innerK conv e noise (mpSizeSilver weight noise oc.length) mal with
  | none => none
  | some (c, a, b) =>
    match silverOut weight starts (mpSizeSilver weight noise oc.length) oc.length c oc, silverOut2 weight starts (mpSizeSilver weight noise oa.length) oa.length a oa b ob with
    | some rc, some (ra, rb) => some (rc, ra, rb)
    | _, _ => none

/-! ### C80 -/

theorem mpSizeSilver_ge (weight noise num : Nat) (hn : 0 < noise) : 2 * num ≤ mpSizeSilver weight noise num ∧ 2 * noise ≤ mpSizeSilver weight noise num ∧
    2 + (if weight = 5 then 16 else 32) ≤ mpSizeSilver weight noise num := by
  obtain ⟨h1, h2⟩ := mpSize_ge noise num hn
  unfold mpSizeSilver
  unfold mpSize at h1 h2
  omega

/-- C80, in part. Silent VOLE with a Silver code of weight 5 or 11, for all three element types, any output length, any noise weight, all randomness and any ideal primitives: the run
succeeds, and the outputs are a VOLE under `delta`, whatever the buffers held before. Missing: sizes above `2^30`, a malicious-secure run with noise weight 1. -/
theorem C80_silver_partial {w v : Nat} (I : Inst w v) (conv : B → BitVec w) (e : Env w) (hcot : ∀ i, e.blk i true = e.blk i false ^^^ e.otDelta) (weight : Nat) (hw : weight = 5 ∨ weight = 11)
    (starts : Nat → List Nat) (hst : ∀ n, (starts n).length = weight) (noise : Nat) (mal : Bool) (hn : 0 < noise) (hmal : mal = true → 2 ≤ noise) (oc : List (BitVec w)) (oa : List (BitVec v))
    (ob : List (BitVec w)) (hoa : oa.length = oc.length) (hob : ob.length = oc.length) (hs : mpSizeSilver weight noise oc.length ≤ 2 ^ 30) :
    ∃ rc ra rb, runSilver I.F.mul I.F.inner I.G.inner conv e weight starts noise mal oc oa ob = some (rc, ra, rb) ∧ rc.length = oc.length ∧
      IsVole I.F.mul (e.otDelta.setWidth w) rc ra rb := by
  obtain ⟨hs1, hs2, hs3⟩ := mpSizeSilver_ge weight noise oc.length hn
  obtain ⟨c, a, b, r1, r2, r3⟩ := mpStage_ok I conv e hcot noise (mpSizeSilver weight noise oc.length) mal hn hmal hs2 hs
  have hle : weight ≤ mpSizeSilver weight noise oc.length / 2 := by
    rcases hw with rfl | rfl
    · simp only [if_true] at hs3
      omega
    · rw [if_neg (by omega)] at hs3
      omega
  obtain ⟨code, k1, -⟩ := (Silver.C117_construct (mpSizeSilver weight noise oc.length / 2) weight (starts (mpSizeSilver weight noise oc.length / 2)) (hst _) (by omega)).1 ⟨hw, hle⟩
  obtain ⟨rc, ra, rb, e1, e2, e3, e4, e5, e6⟩ := Silver.C117_correlated _ weight _ (hst _) (by omega) code k1 _ (mul_additive I.F (e.otDelta.setWidth w)) c a b (by omega) r3
  have hlen : rc.length = c.length := by
    obtain ⟨r, q1, q2, -⟩ := (Silver.C117_inplace _ weight _ (hst _) (by omega) code k1 c).1 (by omega)
    rw [e1] at q1
    rw [Option.some.inj q1, q2]
  have hbig : oc.length ≤ rc.length := by omega
  refine ⟨rc.take oc.length, ra.take oc.length, rb.take oc.length, ?_, by rw [List.length_take]; omega, ⟨by rw [List.length_take, List.length_take]; omega, by rw [List.length_take, List.length_take]; omega, ?_⟩⟩
  · unfold runSilver silverOut silverOut2 getSilver
    simp only [r1, hoa, k1, e1, (Silver.C117_two code a b a b).1, e2, e3, Option.bind_some, Option.map_some]
    rw [if_pos (by omega), if_pos (by omega)]
    rw [List.drop_of_length_le (Nat.le_refl _), List.drop_of_length_le (by omega), List.drop_of_length_le (by omega)]
    simp
  · intro i hi
    rw [List.length_take] at hi
    have h1 := Silver.at_take rc oc.length i (by omega)
    have h2 := Silver.at_take ra oc.length i (by omega)
    have h3 := Silver.at_take rb oc.length i (by omega)
    unfold Silver.at_ at h1 h2 h3
    rw [h1, h2, h3]
    exact e6 i (by omega)

/-- The hypotheses hold for 10 VOLEs into dirty buffers, noise weight 3, Silver-5, malicious security. -/
example : ∃ c a b, runSilver field128.mul field128.inner field128.inner id ⟨7, id, true, id, id, fun _ => 0, fun i b => BitVec.ofNat 128 i ^^^ (if b then 5 else 0), 5, fun _ => 1, [3, 1, 2],
      [true], 9⟩ 5 (fun n => [0, n / 3, n / 2, n * 3 / 5, n * 4 / 5]) 3 true (List.replicate 10 1) (List.replicate 10 2) (List.replicate 10 3) = some (c, a, b) ∧ c.length = 10 ∧
      IsVole field128.mul (BitVec.setWidth 128 (5 : B)) c a b := by
  have h := C80_silver_partial inst128 id ⟨7, id, true, id, id, fun _ => 0, fun i b => BitVec.ofNat 128 i ^^^ (if b then 5 else 0), 5, fun _ => 1, [3, 1, 2], [true], 9⟩ (fun i => by simp) 5
    (Or.inl rfl) (fun n => [0, n / 3, n / 2, n * 3 / 5, n * 4 / 5]) (fun _ => rfl) 3 true (by decide) (by decide) (List.replicate 10 1) (List.replicate 10 2) (List.replicate 10 3)
    (by simp) (by simp) (by decide +kernel)
  rw [List.length_replicate] at h
  exact h

end Yacl.SilentVole
