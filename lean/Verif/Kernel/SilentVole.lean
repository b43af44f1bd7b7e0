import Verif.Kernel.MpVole
import Verif.Kernel.LinearCode

/-! Base VOLE from correlated OT and silent VOLE with an expand-accumulate code: yacl/kernel/algorithms/base_vole.h, silent_vole.cc. Properties C79, C80. -/
namespace Yacl.SilentVole
open Ggm Mpfss Gf MpVole Code

/-! ### Model -/

/-- gf_intrinsic.h L46-62 `kGf64Basis`, `kGf128Basis`, the first `n` elements. -/
def basis (w n : Nat) : List (BitVec w) := (List.range n).map fun j => (1 : BitVec w) <<< j

/-- The word whose bit `j` is `c j`: what `memcpy` from a bit buffer gives. -/
def pack (n : Nat) (c : Nat → Bool) : BitVec n := (List.range n).foldl (fun t j => if c j then t ||| (1 : BitVec n) <<< j else t) 0

/-- base_vole.h L45-69 `Ot2VoleSend<T, K>` on `otSize` correlated OTs; `T` has `v` bits, `K` has `w`. `inner` is `math::GfMul` on two spans of `K`. -/
def ot2VoleSend {w : Nat} (inner : List (BitVec w) → List (BitVec w) → Option (BitVec w)) (v : Nat) (ot : Base) (otSize size : Nat) : Option (List (BitVec w)) :=
  if otSize ≥ size * v then
    (List.range size).mapM fun i => inner ((List.range v).map fun j => (ot.blk (i * v + j) false).setWidth w) (basis w v)
  else none

/-- base_vole.h L71-100 `Ot2VoleRecv<T, K>`. -/
def ot2VoleRecv {w : Nat} (inner : List (BitVec w) → List (BitVec w) → Option (BitVec w)) (v : Nat) (ot : Base) (otSize size : Nat) : Option (List (BitVec v) × List (BitVec w)) :=
  if otSize ≥ size * v then
    let u := (List.range size).map fun i => pack v fun j => ot.c (i * v + j)
    match (List.range size).mapM fun i => inner ((List.range v).map fun j => (ot.blk (i * v + j) (ot.c (i * v + j))).setWidth w) (basis w v) with
    | none => none
    | some r => some (u, r)
  else none

/-- gadget.h L33-35 `DivCeil`. -/
def divCeil (x y : Nat) : Nat := if x = 0 then 0 else 1 + (x - 1) / y

/-- silent_vole.cc L56-96: the number of multi-point elements for `num` VOLEs and an expand-accumulate code (no gap). `noise` is what `GenRegNoiseWeight` returns;
its floating-point formula is not modelled. -/
def mpSize (noise num : Nat) : Nat := max (divCeil (num * 2) noise) 2 * noise

/-- The randomness and the ideal primitives of one run. `blk` are the correlated OT messages. -/
structure Env (w : Nat) where
  d : Nat
  rp : B → B
  full : Bool
  h : B → B
  crh : B → B
  blake : BitVec w → BitVec 256
  blk : Nat → Bool → B
  otDelta : B
  seeds : Nat → B
  rnd : List Nat
  baseChoices : List Bool
  seed : BitVec w

/-- silent_vole.cc L213-310 `SendImpl`, `RecvImpl` up to the multi-point VOLE on `size` elements, both parties; `none` if anything throws.
The OT extension is ideal: it delivers OTs with the receiver's choices and the sender's `delta`. -/
def mpStage {w v : Nat} (mul : BitVec w → BitVec w → BitVec w) (inner : List (BitVec w) → List (BitVec v) → Option (BitVec w))
    (innerK : List (BitVec w) → List (BitVec w) → Option (BitVec w)) (conv : B → BitVec w) (e : Env w) (noise size : Nat) (mal : Bool) : Option (List (BitVec w) × List (BitVec v) × List (BitVec w)) :=
  match mkParam noise size mal with
  | none => none
  | some p =>
    let q := genIndexes p e.rnd
    match genChoices q with
    | none => none
    | some cs =>
      let choices := cs ++ (List.range (p.baseNum * v)).map fun i => e.baseChoices.getD i false
      let ot : Base := ⟨e.blk, fun i => choices.getD i false⟩
      let base := slice ot p.otNum
      match ot2VoleSend innerK v base (p.baseNum * v) p.baseNum, ot2VoleRecv innerK v base (p.baseNum * v) p.baseNum with
      | some preC, some (preA, preB) => runFixed mul inner conv e.full e.h e.crh e.blake ot e.otDelta e.seeds mal q preA preB preC (e.otDelta.setWidth w) e.seed
      | _, _ => none

/-- silent_vole.cc L139-174, L213-310 `SendImpl`, `RecvImpl` for an expand-accumulate code, both parties, on the output buffers `oc`, `oa`, `ob`. `none` if anything throws.
Both parties derive their parameters from their own buffer; the theorems ask for equal lengths. -/
def run {w v : Nat} (mul : BitVec w → BitVec w → BitVec w) (inner : List (BitVec w) → List (BitVec v) → Option (BitVec w))
    (innerK : List (BitVec w) → List (BitVec w) → Option (BitVec w)) (conv : B → BitVec w) (e : Env w) (noise : Nat) (mal : Bool)
    (oc : List (BitVec w)) (oa : List (BitVec v)) (ob : List (BitVec w)) : Option (List (BitVec w) × List (BitVec v) × List (BitVec w)) :=
  let num := oc.length
  match mpStage mul inner innerK conv e noise (mpSize noise num) mal with
  | none => none
  | some (c, a, b) =>
    match dualEncode e.d e.rp num (mpSize noise num) c oc, dualEncode2 e.d e.rp oa.length (mpSize noise oa.length) a oa b ob with
    | some rc, some (ra, rb) => some (rc, ra, rb)
    | _, _ => none

/-! ### Specification -/

/-- The three instances: `F` multiplies `K` by `T`, `G` multiplies `K` by `K`, in the same field. -/
structure Inst (w v : Nat) where
  F : Field w v
  G : Field w w
  mul_eq : G.mul = F.mul
  le : v ≤ w
  pos : 0 < v

noncomputable def inst128 : Inst 128 128 := ⟨field128, field128, rfl, by omega, by omega⟩
noncomputable def inst64 : Inst 64 64 := ⟨field64, field64, rfl, by omega, by omega⟩
noncomputable def instMixed : Inst 128 64 := ⟨fieldMixed, field128, rfl, by omega, by omega⟩

/-- `w = u * delta + v`, element by element. -/
def IsVole {w v : Nat} (mul : BitVec w → BitVec w → BitVec w) (delta : BitVec w) (c : List (BitVec w)) (a : List (BitVec v)) (b : List (BitVec w)) : Prop :=
  c.length = a.length ∧ c.length = b.length ∧ ∀ i < c.length, c.getD i 0 = mul ((a.getD i 0).setWidth w) delta ^^^ b.getD i 0

/-! ### Lemmas -/

theorem pack_bit (n : Nat) (c : Nat → Bool) (i : Nat) (hi : i < n) : (pack n c).getLsbD i = c i := by
  unfold pack
  have key : ∀ m, m ≤ n → ((List.range m).foldl (fun t j => if c j then t ||| (1 : BitVec n) <<< j else t) 0).getLsbD i = (decide (i < m) && c i) := by
    intro m hm
    induction m with
    | zero => simp
    | succ m ih =>
      rw [List.range_succ, List.foldl_append]
      simp only [List.foldl_cons, List.foldl_nil]
      have h1 : ((1 : BitVec n) <<< m).getLsbD i = decide (i = m) := by
        rw [BitVec.getLsbD_shiftLeft]
        by_cases h : i < m
        · simp [h]
          omega
        · have : (1 : BitVec n).getLsbD (i - m) = decide (i - m = 0) := by
            have h1n : 0 < n := by omega
            show (BitVec.ofNat n 1).getLsbD (i - m) = _
            rw [BitVec.getLsbD_ofNat]
            cases hk : i - m with
            | zero => simp [h1n]
            | succ k =>
              rw [Nat.testBit_succ]
              simp
          rw [this]
          by_cases h2 : i = m
          · subst h2
            simp [hi]
          · have : i - m ≠ 0 := by omega
            simp [h2, this]
      by_cases hc : c m = true
      · rw [if_pos hc, BitVec.getLsbD_or, ih (by omega), h1]
        by_cases h2 : i = m
        · subst h2
          simp [hc]
        · by_cases h3 : i < m
          · have : i < m + 1 := by omega
            simp [h2, h3, this]
          · have : ¬ i < m + 1 := by omega
            simp [h2, h3, this]
      · rw [if_neg hc, ih (by omega)]
        by_cases h2 : i = m
        · subst h2
          simp [hc]
        · by_cases h3 : i < m
          · have : i < m + 1 := by omega
            simp [h3, this]
          · have : ¬ i < m + 1 := by omega
            simp [h3, this]
  rw [key n (Nat.le_refl n)]
  simp [hi]

theorem val_pack {w v : Nat} (I : Inst w v) (c : Nat → Bool) :
    I.G.val ((pack v c).setWidth w) = ((List.range v).map fun j => if c j then I.G.val ((1 : BitVec w) <<< j) else 0).sum := by
  have hle := I.le
  have key : ∀ m, m ≤ v → ∃ x : BitVec w, I.G.val x = ((List.range m).map fun j => if c j then I.G.val ((1 : BitVec w) <<< j) else 0).sum ∧
      ∀ i, x.getLsbD i = (decide (i < m) && c i) := by
    intro m hm
    induction m with
    | zero => exact ⟨0, by rw [I.G.rep.zero]; rfl, fun i => by simp⟩
    | succ m ih =>
      obtain ⟨x, hx, hb⟩ := ih (by omega)
      refine ⟨x ^^^ (if c m then (1 : BitVec w) <<< m else 0), ?_, ?_⟩
      · rw [I.G.rep.add, hx, List.range_succ, List.map_append, List.sum_append]
        simp only [List.map_cons, List.map_nil, List.sum_cons, List.sum_nil, add_zero]
        congr 1
        split
        · rfl
        · exact I.G.rep.zero
      · intro i
        rw [BitVec.getLsbD_xor, hb]
        have h1 : ((1 : BitVec w) <<< m).getLsbD i = decide (i = m) := by
          rw [BitVec.getLsbD_shiftLeft]
          by_cases hw : i < w
          · by_cases h : i < m
            · simp [h]
              omega
            · have : (1 : BitVec w).getLsbD (i - m) = decide (i - m = 0) := by
                show (BitVec.ofNat w 1).getLsbD (i - m) = _
                rw [BitVec.getLsbD_ofNat]
                have h1n : 0 < w := by omega
                cases hk : i - m with
                | zero => simp [h1n]
                | succ k =>
                  rw [Nat.testBit_succ]
                  simp
              rw [this]
              by_cases h2 : i = m
              · subst h2
                simp [hw]
              · have : i - m ≠ 0 := by omega
                simp [h2, this]
          · have : i ≠ m := by omega
            simp [hw, this]
        by_cases hc : c m = true
        · rw [if_pos hc, h1]
          by_cases h2 : i = m
          · subst h2
            simp [hc]
          · by_cases h3 : i < m
            · have : i < m + 1 := by omega
              simp [h2, h3, this]
            · have : ¬ i < m + 1 := by omega
              simp [h2, h3, this]
        · rw [if_neg hc]
          by_cases h2 : i = m
          · subst h2
            simp [hc]
          · by_cases h3 : i < m
            · have : i < m + 1 := by omega
              simp [h3, this]
            · have : ¬ i < m + 1 := by omega
              simp [h3, this]
  obtain ⟨x, hx, hb⟩ := key v (Nat.le_refl v)
  rw [← hx]
  congr 1
  apply BitVec.eq_of_getLsbD_eq
  intro i hi
  rw [hb, BitVec.getLsbD_setWidth]
  by_cases h : i < v
  · rw [pack_bit v c i h]
    simp [h, hi]
  · rw [BitVec.getLsbD_of_ge _ _ (by omega)]
    simp [h]

theorem zip_map_range {α β γ : Type} (n : Nat) (f : Nat → α) (g : Nat → β) (k : α × β → γ) :
    (((List.range n).map f).zip ((List.range n).map g)).map k = (List.range n).map fun j => k (f j, g j) := by
  rw [List.zip_map']
  rw [List.map_map]
  rfl

/-! ### C79 -/

/-- C79. For all three element types and all correlated OTs (`message1 = message0 + delta`), `Ot2VoleSend` and `Ot2VoleRecv` on enough OTs return `w` and `(u, v)` of the requested
length with `w = u * delta + v`, where `delta` is cut to the width of `K`, and `u` is spelled by the choice bits, lowest bit first. With too few OTs both throw. -/
theorem C79_ot2vole {w v : Nat} (I : Inst w v) (ot : Base) (otDelta : B) (otSize size : Nat) (hcot : ∀ i < otSize, ot.blk i true = ot.blk i false ^^^ otDelta) :
    (size * v ≤ otSize →
      ∃ cw u cv, ot2VoleSend I.G.inner v ot otSize size = some cw ∧ ot2VoleRecv I.G.inner v ot otSize size = some (u, cv) ∧ cw.length = size ∧
        IsVole I.F.mul (otDelta.setWidth w) cw u cv ∧ ∀ i < size, ∀ j < v, (u.getD i 0).getLsbD j = ot.c (i * v + j)) ∧
    (otSize < size * v → ot2VoleSend I.G.inner v ot otSize size = none ∧ ot2VoleRecv I.G.inner v ot otSize size = none) := by
  refine ⟨fun hs => ?_, fun hs => ⟨by unfold ot2VoleSend; rw [if_neg (by omega)], by unfold ot2VoleRecv; rw [if_neg (by omega)]⟩⟩
  have hw := fun i => I.G.inner_val ((List.range v).map fun j => (ot.blk (i * v + j) false).setWidth w) (basis w v) (by simp [basis])
  have hv := fun i => I.G.inner_val ((List.range v).map fun j => (ot.blk (i * v + j) (ot.c (i * v + j))).setWidth w) (basis w v) (by simp [basis])
  choose zw hw1 hw2 using hw
  choose zv hv1 hv2 using hv
  refine ⟨(List.range size).map zw, (List.range size).map fun i => pack v fun j => ot.c (i * v + j), (List.range size).map zv, ?_, ?_, by simp, ⟨by simp, by simp, ?_⟩, ?_⟩
  · unfold ot2VoleSend
    rw [if_pos hs]
    exact mapM_some _ _ zw fun i _ => hw1 i
  · unfold ot2VoleRecv
    rw [if_pos hs, mapM_some _ _ zv fun i _ => hv1 i]
  · intro i hi
    rw [List.length_map, List.length_range] at hi
    rw [getD_map_range _ _ _ _ hi, getD_map_range _ _ _ _ hi, getD_map_range _ _ _ _ hi]
    apply I.G.inj
    rw [I.G.rep.add, ← I.mul_eq, I.G.rep.mul, val_pack, hw2, hv2]
    unfold basis
    rw [zip_map_range, zip_map_range]
    have hww : ∀ x : BitVec w, x.setWidth w = x := fun x => BitVec.setWidth_eq x
    simp only [hww]
    have hadd : ∀ j < v, I.G.val ((ot.blk (i * v + j) (ot.c (i * v + j))).setWidth w) =
        I.G.val ((ot.blk (i * v + j) false).setWidth w) + (if ot.c (i * v + j) then I.G.val (otDelta.setWidth w) else 0) := by
      intro j hj
      have hb : i * v + j < otSize := by
        have := Nat.mul_le_mul_right v (show i + 1 ≤ size by omega)
        rw [Nat.succ_mul] at this
        omega
      cases hc : ot.c (i * v + j) with
      | false => simp
      | true =>
        rw [hcot _ hb, BitVec.setWidth_xor, I.G.rep.add]
        simp
    have hself : ∀ r : BitVec w, I.G.val r + I.G.val r = 0 := fun r => MpVole.add_self I.G r
    have hsum : ∀ m, m ≤ v → ((List.range m).map fun j => I.G.val ((ot.blk (i * v + j) false).setWidth w) * I.G.val ((1 : BitVec w) <<< j)).sum =
        ((List.range m).map fun j => if ot.c (i * v + j) then I.G.val ((1 : BitVec w) <<< j) else 0).sum * I.G.val (otDelta.setWidth w) +
        ((List.range m).map fun j => I.G.val ((ot.blk (i * v + j) (ot.c (i * v + j))).setWidth w) * I.G.val ((1 : BitVec w) <<< j)).sum := by
      intro m hm
      induction m with
      | zero => simp
      | succ m ih =>
        rw [List.range_succ]
        simp only [List.map_append, List.sum_append, List.map_cons, List.map_nil, List.sum_cons, List.sum_nil, add_zero]
        rw [ih (by omega), hadd m (by omega)]
        cases ot.c (i * v + m) with
        | false => simp; ring
        | true =>
          simp only [if_true]
          have h2 := hself (otDelta.setWidth w)
          generalize I.G.val (otDelta.setWidth w) = D at *
          generalize I.G.val ((1 : BitVec w) <<< m) = E at *
          have h3 : E * D + D * E = 0 := by
            rw [show E * D + D * E = (D + D) * E by ring, h2, zero_mul]
          linear_combination -h3
    exact hsum v (Nat.le_refl v)
  · intro i hi j hj
    rw [getD_map_range _ _ _ _ hi, pack_bit _ _ _ hj]

theorem mpSize_ge (noise num : Nat) (hn : 0 < noise) : 2 * num ≤ mpSize noise num ∧ 2 * noise ≤ mpSize noise num := by
  unfold mpSize divCeil
  constructor
  · by_cases h : num * 2 = 0
    · omega
    · rw [if_neg h]
      have h1 := Nat.div_add_mod (num * 2 - 1) noise
      have h2 := Nat.mod_lt (num * 2 - 1) hn
      have h3 : (1 + (num * 2 - 1) / noise) * noise ≤ max (1 + (num * 2 - 1) / noise) 2 * noise := Nat.mul_le_mul_right _ (by omega)
      rw [Nat.add_mul, Nat.mul_comm (_ / noise)] at h3
      omega
  · exact Nat.mul_le_mul_right _ (by omega)

theorem mul_additive {w v : Nat} (F : Field w v) (delta : BitVec w) : Additive fun x : BitVec v => F.mul (x.setWidth w) delta := by
  intro x y
  apply F.inj
  rw [F.rep.mul, BitVec.setWidth_xor, F.rep.add, F.rep.add, F.rep.mul, F.rep.mul]
  ring

theorem correlated_of_vole {w v : Nat} (F : Field w v) (size noise : Nat) (pt : Nat → Nat) (pa : Nat → BitVec v) (delta : BitVec w) (c : List (BitVec w)) (a : List (BitVec v)) (b : List (BitVec w))
    (h : Vole F.mul size noise pt pa delta c a b) : Correlated (fun x : BitVec v => F.mul (x.setWidth w) delta) c a b := by
  obtain ⟨h1, h2, h3, h4, -⟩ := h
  refine ⟨by omega, by omega, fun i hi => ?_⟩
  have e1 : c[i]? = some (c.getD i 0) := by rw [List.getD_eq_getElem?_getD, List.getElem?_eq_getElem hi]; rfl
  have e2 : a[i]? = some (a.getD i 0) := by rw [List.getD_eq_getElem?_getD, List.getElem?_eq_getElem (by omega)]; rfl
  have e3 : b[i]? = some (b.getD i 0) := by rw [List.getD_eq_getElem?_getD, List.getElem?_eq_getElem (by omega)]; rfl
  exact h4 i _ _ _ e1 e2 e3

/-- The multi-point VOLE on `size` elements is a VOLE. -/
theorem mpStage_ok {w v : Nat} (I : Inst w v) (conv : B → BitVec w) (e : Env w) (hcot : ∀ i, e.blk i true = e.blk i false ^^^ e.otDelta) (noise size : Nat) (mal : Bool)
    (hn : 0 < noise) (hmal : mal = true → 2 ≤ noise) (hs2 : 2 * noise ≤ size) (hs : size ≤ 2 ^ 30) :
    ∃ c a b, mpStage I.F.mul I.F.inner I.G.inner conv e noise size mal = some (c, a, b) ∧ c.length = size ∧
      Correlated (fun x : BitVec v => I.F.mul (x.setWidth w) (e.otDelta.setWidth w)) c a b := by
  obtain ⟨p, hp⟩ := (C61_param noise size mal (by omega)).1.mpr ⟨hn, hs2⟩
  obtain ⟨h1, h2, h3, h4, h5, h6, h7, h8, h9, h10⟩ := mkParam_some _ _ _ _ hp
  obtain ⟨g1, g2⟩ := C61_genIndexes noise _ mal p hp e.rnd
  obtain ⟨cs, c1, c2, c3⟩ := C61_choices noise _ mal (by omega) p hp (Mpfss.genIndexes p e.rnd).idx g1 g2
  have hq : Mpfss.genIndexes p e.rnd = { p with idx := (Mpfss.genIndexes p e.rnd).idx } := rfl
  rw [← hq] at c1
  generalize hch : cs ++ (List.range (p.baseNum * v)).map (fun i => e.baseChoices.getD i false) = choices
  obtain ⟨preC, preA, preB, b1, b2, b3, b4, -⟩ := (C79_ot2vole I (slice ⟨e.blk, fun i => choices.getD i false⟩ p.otNum) e.otDelta (p.baseNum * v) p.baseNum
    (fun i _ => hcot _)).1 (Nat.le_refl _)
  obtain ⟨b5, b6, b7⟩ := b4
  have hidx : ∀ i < noise, (Mpfss.genIndexes p e.rnd).idx.getD i 0 < p.blk i ∧ ∀ j < height (p.blk i),
      ((Mpfss.genIndexes p e.rnd).idx.getD i 0).testBit j = (⟨e.blk, fun i => choices.getD i false⟩ : Base).c (i * height p.sp + j) := by
    intro i hi
    refine ⟨g2 i hi, fun j hj => ?_⟩
    rw [← c3 i hi, choiceIndex_testBit]
    have hk : i * height p.sp + j < cs.length := by
      rw [c2, h9]
      by_cases hl : i = p.noise - 1
      · subst hl
        unfold Param.blk at hj
        rw [if_pos rfl] at hj
        rw [h1, Nat.mul_comm]
        omega
      · unfold Param.blk at hj
        rw [if_neg hl] at hj
        rw [h1]
        have := Nat.mul_le_mul_right (height p.sp) (show i + 1 ≤ noise - 1 by omega)
        rw [Nat.succ_mul, Nat.mul_comm (noise - 1)] at this
        omega
    simp only [hj, decide_true, Bool.true_and]
    rw [← hch, List.getD_eq_getElem?_getD, List.getD_eq_getElem?_getD, List.getElem?_append_left hk]
  obtain ⟨c, a, b, r1, r2⟩ := C42_mp_vole_fixed_partial I.F conv e.full e.h e.crh e.blake ⟨e.blk, fun i => choices.getD i false⟩ e.otDelta hcot e.seeds noise _ mal p hp
    (by omega) (by omega) (Mpfss.genIndexes p e.rnd).idx (fun i => (Mpfss.genIndexes p e.rnd).idx.getD i 0) hidx (fun hm => Or.inl (hmal hm)) preA preB preC
    (by omega) (by omega) b3 (e.otDelta.setWidth w) e.seed (fun i hi => b7 i (by omega))
  refine ⟨c, a, b, ?_, r2.1, correlated_of_vole I.F _ _ _ _ _ c a b r2⟩
  unfold mpStage
  simp only [hp, c1, hch, b1, b2]
  rw [← hq] at r1
  exact r1

/-! ### C80 -/

/-- C80, in part. Silent VOLE with an expand-accumulate code, for all three element types, any output length greater than the code's weight, any noise weight, all
randomness and any ideal primitives: the run succeeds, fills the buffers, and the result is a VOLE under `delta` exactly if what the buffers held before was one, in
particular if they were zero. Missing: buffers that are not zero (see `C80_dirty_violated`), sizes above `2^30`, a malicious-secure run with noise weight 1, Silver codes. -/
theorem C80_silent_partial {w v : Nat} (I : Inst w v) (conv : B → BitVec w) (e : Env w) (hcot : ∀ i, e.blk i true = e.blk i false ^^^ e.otDelta) (noise : Nat) (mal : Bool)
    (hn : 0 < noise) (hmal : mal = true → 2 ≤ noise) (oc : List (BitVec w)) (oa : List (BitVec v)) (ob : List (BitVec w)) (hoa : oa.length = oc.length) (hob : ob.length = oc.length)
    (hd : e.d < oc.length) (hs : mpSize noise oc.length ≤ 2 ^ 30) :
    ∃ rc ra rb, run I.F.mul I.F.inner I.G.inner conv e noise mal oc oa ob = some (rc, ra, rb) ∧ rc.length = oc.length ∧ ra.length = oc.length ∧ rb.length = oc.length ∧
      (IsVole I.F.mul (e.otDelta.setWidth w) rc ra rb ↔ IsVole I.F.mul (e.otDelta.setWidth w) oc oa ob) := by
  obtain ⟨hs1, hs2⟩ := mpSize_ge noise oc.length hn
  obtain ⟨c, a, b, r1, r2, r3⟩ := mpStage_ok I conv e hcot noise (mpSize noise oc.length) mal hn hmal hs2 hs
  obtain ⟨rc, ra, rb, d1, d2, d3, d4, d5, -, d6⟩ := C43_exacc_partial _ (mul_additive I.F (e.otDelta.setWidth w)) e.d e.rp oc.length (mpSize noise oc.length) hd (by omega) (by omega)
    c a b r2 r3 oc oa ob (by omega) hoa hob
  refine ⟨rc, ra, rb, ?_, d3, d4, d5, d6⟩
  unfold run
  simp only [r1, d1, hoa, d2]

/-- Zeroed buffers give a VOLE. -/
theorem C80_zero_partial {w v : Nat} (I : Inst w v) (conv : B → BitVec w) (e : Env w) (hcot : ∀ i, e.blk i true = e.blk i false ^^^ e.otDelta) (noise num : Nat) (mal : Bool)
    (hn : 0 < noise) (hmal : mal = true → 2 ≤ noise) (hd : e.d < num) (hs : mpSize noise num ≤ 2 ^ 30) :
    ∃ c a b, run I.F.mul I.F.inner I.G.inner conv e noise mal (List.replicate num 0) (List.replicate num 0) (List.replicate num 0) = some (c, a, b) ∧
      c.length = num ∧ IsVole I.F.mul (e.otDelta.setWidth w) c a b := by
  obtain ⟨rc, ra, rb, h1, h2, -, -, h3⟩ := C80_silent_partial I conv e hcot noise mal hn hmal (List.replicate num 0) (List.replicate num (0 : BitVec v)) (List.replicate num 0)
    (by simp) (by simp) (by simpa using hd) (by simpa using hs)
  refine ⟨rc, ra, rb, h1, by simpa using h2, h3.mpr ⟨by simp, by simp, fun i hi => ?_⟩⟩
  rw [List.length_replicate] at hi
  have hz : ∀ (m : Nat), (List.replicate num (0 : BitVec m)).getD i 0 = 0 := fun m => by
    rw [List.getD_eq_getElem?_getD, List.getElem?_replicate, if_pos hi]
    rfl
  rw [hz, hz]
  have f0 := mul_additive I.F (e.otDelta.setWidth w) 0 0
  simp only [BitVec.xor_self] at f0
  have f1 : I.F.mul ((0 : BitVec v).setWidth w) (e.otDelta.setWidth w) = 0 := f0
  rw [f1]
  exact BitVec.xor_self.symm

/-- The code does not keep C80 for buffers holding other data: the codeword is added to it. -/
theorem C80_dirty_violated {w v : Nat} (I : Inst w v) (conv : B → BitVec w) (e : Env w) (hcot : ∀ i, e.blk i true = e.blk i false ^^^ e.otDelta) (noise : Nat) (mal : Bool)
    (hn : 0 < noise) (hmal : mal = true → 2 ≤ noise) (oc : List (BitVec w)) (hd : e.d < oc.length) (hs : mpSize noise oc.length ≤ 2 ^ 30) (hdirty : oc.getD 0 0 ≠ 0) :
    ∃ c a b, run I.F.mul I.F.inner I.G.inner conv e noise mal oc (List.replicate oc.length 0) (List.replicate oc.length 0) = some (c, a, b) ∧
      ¬ IsVole I.F.mul (e.otDelta.setWidth w) c a b := by
  obtain ⟨rc, ra, rb, h1, h2, -, -, h3⟩ := C80_silent_partial I conv e hcot noise mal hn hmal oc (List.replicate oc.length (0 : BitVec v)) (List.replicate oc.length 0)
    (by simp) (by simp) hd hs
  refine ⟨rc, ra, rb, h1, fun hc => ?_⟩
  have h4 := (h3.mp hc).2.2 0 (by omega)
  have hz : ∀ (m : Nat), (List.replicate oc.length (0 : BitVec m)).getD 0 0 = 0 := fun m => by
    rw [List.getD_eq_getElem?_getD, List.getElem?_replicate]
    split <;> rfl
  rw [hz, hz] at h4
  have f0 := mul_additive I.F (e.otDelta.setWidth w) 0 0
  simp only [BitVec.xor_self] at f0
  have f1 : I.F.mul ((0 : BitVec v).setWidth w) (e.otDelta.setWidth w) = 0 := f0
  rw [f1] at h4
  exact hdirty (h4.trans BitVec.xor_self)

/-- The hypotheses hold for 10 VOLEs, noise weight 3, a weight-7 code, malicious security. -/
example : ∃ c a b, run field128.mul field128.inner field128.inner id ⟨7, id, true, id, id, fun _ => 0, fun i b => BitVec.ofNat 128 i ^^^ (if b then 5 else 0), 5, fun _ => 1, [3, 1, 2],
      [true], 9⟩ 3 true (List.replicate 10 0) (List.replicate 10 0) (List.replicate 10 0) = some (c, a, b) ∧ c.length = 10 ∧ IsVole field128.mul (BitVec.setWidth 128 (5 : B)) c a b :=
  C80_zero_partial inst128 id _ (fun i => by simp) 3 10 true (by decide) (by decide) (by decide) (by decide +kernel)

example : ot2VoleSend gf64MulSpan 64 ⟨fun i b => BitVec.ofNat 128 i ^^^ (if b then 5 else 0), fun i => i % 3 = 0⟩ 64 1 =
    (gf64MulSpan ((List.range 64).map fun j => BitVec.ofNat 64 j) (basis 64 64)).map fun x => [x] := by
  decide +kernel

end Yacl.SilentVole
