import Verif.Kernel.FerretProps

/-! C99: the Ferret OT extension. -/
namespace Yacl.Ferret
open Yacl.Ggm (B Base height ferretSend ferretRecv)
open Yacl.Gf (gf128Mul gf128Pack universalHash extractHashCoef val128 toPoly f128)
open Polynomial

/-! ### The check -/

theorem shift_val (i : Nat) (hi : i < 128) : val128 ((1 : B) <<< i) = AdjoinRoot.root f128 ^ i := by
  have := Gf.toPoly_shift (1 : BitVec 1) 128 i (by omega)
  have e1 : toPoly (1 : BitVec 1) = 1 := Gf.toPoly_one (w := 1) (by decide)
  rw [e1, mul_one] at this
  unfold val128
  have e2 : (1 : B) <<< i = ((1 : BitVec 1).setWidth 128) <<< i := rfl
  rw [e2, this, map_pow, AdjoinRoot.mk_X]

theorem pack_val_gen (n : Nat) (hn : n ≤ 128) (a : Nat → B) : ∃ z, gf128Pack ((List.range n).map a) = some z ∧
    val128 z = ((List.range n).map fun i => val128 (a i) * AdjoinRoot.root f128 ^ i).sum := by
  obtain ⟨z, h1, h2⟩ := Gf.C59_inner128 ((List.range n).map a) ((List.range ((List.range n).map a).length).map fun i => (1 : BitVec 128) <<< i) (by simp)
  refine ⟨z, ?_, ?_⟩
  · unfold gf128Pack
    rw [if_pos (by simpa using hn), h1]
  · unfold Gf.IsInnerProductMod at h2
    obtain ⟨q, hq⟩ := h2
    have hz := congrArg (AdjoinRoot.mk f128) hq
    rw [map_sub, map_mul, AdjoinRoot.mk_self, zero_mul, sub_eq_zero] at hz
    unfold val128
    rw [← hz, map_list_sum, List.map_map]
    refine congrArg List.sum ?_
    apply List.ext_getElem (by simp)
    intro i h3 h4
    have hi : i < n := by simpa using h4
    simp only [List.getElem_map, List.getElem_zip, List.getElem_range, Function.comp, map_mul]
    have hsv := shift_val i (by omega)
    unfold val128 at hsv
    rw [hsv]

theorem pack_val (a : Nat → B) : ∃ z, gf128Pack ((List.range 128).map a) = some z ∧
    val128 z = ((List.range 128).map fun i => val128 (a i) * AdjoinRoot.root f128 ^ i).sum := pack_val_gen 128 (Nat.le_refl _) a

theorem bits_val (c : B) : val128 c = ((List.range 128).map fun i => (if c.getLsbD i then 1 else 0) * AdjoinRoot.root f128 ^ i).sum := by
  unfold val128 toPoly
  rw [map_sum, ← List.sum_toFinset _ List.nodup_range]
  have : (List.range 128).toFinset = Finset.range 128 := by ext; simp
  rw [this]
  apply Finset.sum_congr rfl
  intro i _
  split
  · rw [map_pow, AdjoinRoot.mk_X, one_mul]
  · rw [map_zero, zero_mul]

theorem pack_cot (delta : B) (S : Nat → B) (c : B) :
    ∃ z0 z, gf128Pack ((List.range 128).map S) = some z0 ∧
      gf128Pack ((List.range 128).map fun i => S i ^^^ (if c.getLsbD i then delta else 0)) = some z ∧ val128 z = val128 z0 + val128 delta * val128 c := by
  obtain ⟨z0, e0, v0⟩ := pack_val S
  obtain ⟨z, e, v⟩ := pack_val fun i => S i ^^^ (if c.getLsbD i then delta else 0)
  refine ⟨z0, z, e0, e, ?_⟩
  rw [v, v0, bits_val c, ← List.sum_map_mul_left, ← List.sum_map_add]
  congr 1
  apply List.map_congr_left
  intro i _
  rw [Gf.val128_add]
  split
  · ring
  · rw [Gf.val128_zero]; ring

theorem xor_fold_val (l : List B) (c : B) : val128 (l.foldl (· ^^^ ·) c) = val128 c + (l.map val128).sum := by
  induction l generalizing c with
  | nil => simp
  | cons x l ih => rw [List.foldl_cons, ih, Gf.val128_add, List.map_cons, List.sum_cons]; ring

theorem filter_sum {R : Type} [CommRing R] (l : List Nat) (p : Nat → Bool) (f : Nat → R) :
    ((l.filter p).map f).sum = (l.map fun i => (if p i then 1 else 0) * f i).sum := by
  induction l with
  | nil => rfl
  | cons x l ih =>
    rw [List.filter_cons]
    cases hp : p x with
    | true => simp [hp, ih]
    | false => simp [hp, ih]

theorem weighted_range {R : Type} [CommRing R] (s : R) (n : Nat) (f : Nat → R) :
    Gf.weighted s ((List.range n).map f) = ((List.range n).map fun i => f i * s ^ (i + 1)).sum := by
  unfold Gf.weighted
  congr 1
  apply List.ext_getElem (by simp)
  intro i h1 h2
  simp

/-- The polynomial hashes of the two outputs differ by `delta` times the sum of the coefficients of the marked positions. -/
theorem hash_diff (delta seed : B) (so ro : List B) (h : Cot delta so ro) :
    val128 (universalHash gf128Mul seed ro) = val128 (universalHash gf128Mul seed so) +
      val128 delta * (((List.range ro.length).filter fun i => (ro.getD i 0).getLsbD 0).map fun i => val128 seed ^ (i + 1)).sum := by
  rw [Gf.universalHash_val Gf.rep128, Gf.universalHash_val Gf.rep128, filter_sum, ← weighted_range, add_comm]
  apply MpVole.weighted_add
  · simp
  · simp [h.1]
  · intro k x y z hx hy hz
    rw [List.getElem?_map] at hx hy hz
    have hk : k < so.length := by
      by_contra hcon
      rw [List.getElem?_eq_none (by omega)] at hz
      simp at hz
    have hk2 : k < ro.length := by rw [← h.1]; exact hk
    rw [List.getElem?_eq_getElem hk2] at hx
    rw [List.getElem?_range hk2] at hy
    rw [List.getElem?_eq_getElem hk] at hz
    simp only [Option.map_some, Option.some.injEq] at hx hy hz
    have := h.2 k hk
    have e1 : ro.getD k 0 = ro[k] := by simp [List.getD_eq_getElem?_getD, List.getElem?_eq_getElem hk2]
    have e2 : so.getD k 0 = so[k] := by simp [List.getD_eq_getElem?_getD, List.getElem?_eq_getElem hk]
    rw [e1, e2] at this
    rw [e1] at hy
    rw [← hx, ← hy, ← hz]
    conv_lhs => rw [this]
    rw [Gf.val128_add]
    split
    · ring
    · rw [Gf.val128_zero]; ring

theorem check_ok (blake : B → BitVec 256) (delta seed : B) (S R : St) (range s : Nat) (so ro : List B) (h : Cot delta so ro) (hc : Cot delta S.buf R.buf)
    (hfit : height s * (treeNum range s - 1) + height (lastSize range s) + 128 ≤ S.buf.length)
    (hmark : ∃ j, 2 ≤ j ∧ j < ro.length ∧ (ro.getD j 0).getLsbD 0 = true) (h63 : ro.length ≤ 2 ^ 63) :
    ∃ ch hv, recvCheck blake R range s seed ro = some (ch, hv) ∧ sendCheck blake S delta range s seed so ch = some hv := by
  have hRl : R.buf.length = S.buf.length := hc.1.symm
  unfold recvCheck sendCheck checkCot St.slice
  simp only
  generalize ho : height s * (treeNum range s - 1) + height (lastSize range s) = o at *
  rw [if_pos (by omega), if_pos (by omega), Option.bind_some, Nat.add_sub_cancel_left]
  simp only [Option.bind_some]
  -- the coefficients
  obtain ⟨b, hb⟩ : ∃ b, (marked ro).getLast? = some b := by
    obtain ⟨j, j1, j2, j3⟩ := hmark
    have hm : BitVec.ofNat 64 j ∈ marked ro := by
      unfold marked
      exact List.mem_map.mpr ⟨j, List.mem_filter.mpr ⟨List.mem_range.mpr j2, j3⟩, rfl⟩
    cases hl : (marked ro).getLast? with
    | none =>
      rw [List.getLast?_eq_none_iff] at hl
      rw [hl] at hm
      cases hm
    | some b => exact ⟨b, rfl⟩
  have htn : ∀ i < ro.length, (BitVec.ofNat 64 i).toNat = i := fun i hi => by
    rw [BitVec.toNat_ofNat]
    exact Nat.mod_eq_of_lt (by omega)
  have hsort : ∀ i ∈ marked ro, i.toNat ≤ b.toNat := by
    intro i hi
    have hpw : ((List.range ro.length).filter fun i => (ro.getD i 0).getLsbD 0).Pairwise (· < ·) := List.Pairwise.filter _ List.pairwise_lt_range
    have hpm : (marked ro).Pairwise (fun a b => a.toNat ≤ b.toNat) := by
      unfold marked
      rw [List.pairwise_map]
      refine List.Pairwise.imp_of_mem ?_ hpw
      intro a b ha hb hab
      rw [htn a (List.mem_range.mp (List.mem_filter.mp ha).1), htn b (List.mem_range.mp (List.mem_filter.mp hb).1)]
      omega
    obtain ⟨l', hl'⟩ := List.getLast?_eq_some_iff.mp hb
    rw [hl', List.pairwise_append] at hpm
    rw [hl', List.mem_append] at hi
    rcases hi with hi | hi
    · exact hpm.2.2 i hi b (by simp)
    · simp at hi
      rw [hi]
  have hb2 : 2 ≤ b.toNat := by
    obtain ⟨j, j1, j2, j3⟩ := hmark
    have := hsort (BitVec.ofNat 64 j) (by
      unfold marked
      exact List.mem_map.mpr ⟨j, List.mem_filter.mpr ⟨List.mem_range.mpr j2, j3⟩, rfl⟩)
    rw [htn j j2] at this
    omega
  have hb63 : b.toNat ≤ 2 ^ 63 := by
    have hm := List.mem_of_getLast? hb
    unfold marked at hm
    obtain ⟨j, hj, rfl⟩ := List.mem_map.mp hm
    have := List.mem_range.mp (List.mem_filter.mp hj).1
    rw [htn j this]
    omega
  obtain ⟨cs, e1, e2⟩ := Gf.coef_val Gf.rep128 seed (marked ro) b hb hsort hb2 hb63
  rw [e1]
  simp only [Option.map_some]
  -- the masks
  have hcw : ∀ i < 128, R.buf.getD (o + i) 0 = S.buf.getD (o + i) 0 ^^^
      (if (OtExt.word (recvBase ⟨R.buf, o, 128⟩).c).getLsbD i then delta else 0) := by
    intro i hi
    rw [OtExt.word_bit _ _ hi]
    exact hc.2 _ (by omega)
  obtain ⟨z0, z, p0, p1, p2⟩ := pack_cot delta (fun i => S.buf.getD (o + i) 0) (OtExt.word (recvBase ⟨R.buf, o, 128⟩).c)
  obtain ⟨z0', z', p0', p1', p2'⟩ := pack_cot delta (fun i => S.buf.getD (o + i) 0)
    (cs.foldl (· ^^^ ·) (OtExt.word (recvBase ⟨R.buf, o, 128⟩).c))
  rw [p0] at p0'
  obtain rfl := Option.some.inj p0'
  have hR : gf128Pack ((List.range 128).map fun i => (recvBase ⟨R.buf, o, 128⟩).blk i true) = some z := by
    rw [← p1]
    congr 1
    apply List.map_congr_left
    intro i hi
    exact hcw i (List.mem_range.mp hi)
  rw [hR]
  simp only [Option.bind_some]
  refine ⟨_, _, rfl, ?_⟩
  have hS : gf128Pack ((List.range 128).map fun i => (sendBase ⟨S.buf, o, 128⟩ delta).blk i
      ((cs.foldl (· ^^^ ·) (OtExt.word (recvBase ⟨R.buf, o, 128⟩).c)).getLsbD i)) = some z' := p1'
  rw [hS, Option.map_some]
  congr 2
  apply Gf.val128_inj
  rw [Gf.val128_add, Gf.val128_add, hash_diff delta seed so ro h, p2, p2', xor_fold_val, e2]
  have hcs : (marked ro).map (fun i => val128 seed ^ (i.toNat + 1)) =
      ((List.range ro.length).filter fun i => (ro.getD i 0).getLsbD 0).map fun i => val128 seed ^ (i + 1) := by
    unfold marked
    rw [List.map_map]
    apply List.map_congr_left
    intro i hi
    simp only [Function.comp]
    rw [htn i (List.mem_range.mp (List.mem_filter.mp hi).1)]
  rw [hcs]
  ring

/-! ### Batches -/

/-- Parameters for which the protocol is meant: `t` equal trees of at least two leaves, more outputs than the next batch consumes. In malicious mode
the trees are full (a power of two) and the reserve of the next batch is not below two trees. The default parameters meet this, see below. -/
structure Ok (p : Prm) (mal : Bool) : Prop where
  t1 : 1 ≤ p.t
  dvd : p.t ∣ p.n
  s2 : 2 ≤ p.n / p.t
  s31 : p.n / p.t ≤ 2 ^ 31
  k1 : 1 ≤ p.k
  k31 : p.k < 2 ^ 31
  cache : p.k + mpNum p.t p.n mal < p.n
  n63 : p.n ≤ 2 ^ 63
  full : mal = true → (∃ e, p.n / p.t = 2 ^ e) ∧ 2 * (p.n / p.t) ≤ p.k + mpNum p.t p.n mal + 1

theorem Ok.mp {p : Prm} {mal : Bool} (h : Ok p mal) : p.n = p.t * (p.n / p.t) ∧ mpNum p.t p.n mal = p.t * height (p.n / p.t) + if mal then 128 else 0 := by
  have h1 := h.t1
  obtain ⟨s, hs⟩ := h.dvd
  have e : p.n / p.t = s := by rw [hs]; exact Nat.mul_div_cancel_left s (by omega)
  have hc' := Nat.mul_comm p.t s
  have hb : (p.n + p.t - 1) / p.t = s := by
    apply Nat.div_eq_of_lt_le
    · omega
    · rw [Nat.succ_mul]; omega
  refine ⟨by rw [e, hs], ?_⟩
  unfold mpNum
  simp only
  rw [hb, e]
  obtain ⟨c, hc⟩ : ∃ c, p.t = c + 1 := ⟨p.t - 1, by omega⟩
  have hl : p.n - s * (p.t - 1) = s := by
    rw [hs, hc, Nat.add_sub_cancel, Nat.succ_mul, Nat.mul_comm c s]
    omega
  rw [hl]
  congr 1
  rw [hc, Nat.add_sub_cancel, Nat.succ_mul, Nat.mul_comm]

theorem batch_ok (E : Env) (p : Prm) (mal : Bool) (hp : Ok p mal) (J : Nat → List Nat) (HJ : Table E.rp p.k J) (delta : B) (hodd : delta.getLsbD 0 = true) (otNum i : Nat) (S R : St) (v w : List B)
    (ho : S.off = R.off) (hl : S.len = R.len) (hc : Cot delta S.buf R.buf) (hfit : S.off + S.len ≤ S.buf.length) (hlen : S.len = mpNum p.t p.n mal)
    (hv : v.length = p.k) (hvw : Cot delta v w) (h1 : i * batchSize p mal < otNum) (h2 : mal = true → 2 * (p.n / p.t) ≤ otNum - i * batchSize p mal) :
    ∃ so ro, batch E p mal delta otNum i S R v w = some (so, ro) ∧ so.length = batchOts p mal otNum i ∧ Cot delta so ro ∧
      ∀ j < batchOts p mal otNum i, (ro.getD j 0).getLsbD 0 = (noise R (batchOts p mal otNum i) (p.n / p.t) j ^^ (Code.xorAt w (J j)).getLsbD 0) := by
  obtain ⟨m1, m2⟩ := hp.mp
  have hs2 := hp.s2
  have hs31 := hp.s31
  have hcache := hp.cache
  have hr1 : 1 ≤ batchOts p mal otNum i := by unfold batchOts; omega
  have hrn : batchOts p mal otNum i ≤ p.t * (p.n / p.t) := by rw [← m1]; unfold batchOts; omega
  obtain ⟨msgs, so, ro, e1, e2, l1, c1, g⟩ := mp_ok E.h delta (E.seeds i) hodd S R _ p.t (p.n / p.t) hs2 hs31 hr1 hrn ho hl hc hfit
    (by rw [hlen, m2]; omega)
  obtain ⟨so', ro', e3, e4, l2, c2, g5⟩ := encode_cot E.rp p.k J HJ hv hvw c1
  refine ⟨so', ro', ?_, by rw [l2, l1], c2, fun j hj => by rw [g5 j (by rw [← c1.1, l1]; exact hj), BitVec.getLsbD_xor, g j hj]⟩
  unfold batch
  simp only
  rw [e1, Option.bind_some, e2, Option.bind_some]
  cases mal with
  | false =>
    simp only [Bool.false_eq_true, if_false, Option.bind_some]
    rw [e3, Option.bind_some, e4, Option.map_some]
  | true =>
    simp only [if_true]
    have hm : true = true := rfl
    have hr2 : 2 * (p.n / p.t) ≤ batchOts p true otNum i := by
      have := h2 hm
      have := (hp.full hm).2
      unfold batchOts
      omega
    obtain ⟨x, hx⟩ := (hp.full hm).1
    obtain ⟨t1, t2, t3, t4, t5, t6⟩ := trees (batchOts p true otNum i) (p.n / p.t) (by omega) hr1
    have htn : 2 ≤ treeNum (batchOts p true otNum i) (p.n / p.t) := by
      by_contra hcon
      have : treeNum (batchOts p true otNum i) (p.n / p.t) = 1 := by omega
      rw [this] at t3
      omega
    have hsz : treeSize (batchOts p true otNum i) (p.n / p.t) 1 = p.n / p.t := by
      unfold treeSize
      split
      · rename_i he
        rw [← he] at t6
        omega
      · rfl
    have hht : height (p.n / p.t) = x := by
      obtain ⟨z1, z2⟩ := Mpfss.height_depth (p.n / p.t) (by omega) (by omega)
      have := z2 x (by rw [hx])
      have h3 : 2 ^ x ≤ 2 ^ height (p.n / p.t) := by rw [← hx]; exact z1
      have := (Nat.pow_le_pow_iff_right (a := 2) (by omega)).mp h3
      omega
    have hnl : ¬ (1 = treeNum (batchOts p true otNum i) (p.n / p.t) - 1 ∧ lastSize (batchOts p true otNum i) (p.n / p.t) = 1) := by
      rintro ⟨he, hl1⟩
      unfold treeSize at hsz
      rw [if_pos he, hl1] at hsz
      omega
    obtain ⟨pos, hpos⟩ : ∃ pos, pos = Ggm.choiceIndex (fun i => (R.buf.getD (1 * height (p.n / p.t) + i) 0).getLsbD 0) (height (p.n / p.t)) := ⟨_, rfl⟩
    have g1 : pos < p.n / p.t := by
      rw [hpos]
      conv_rhs => rw [hx, ← hht]
      exact Ggm.choiceIndex_lt _ _
    have hmark := g (1 * (p.n / p.t) + pos) (by omega)
    have hq1 : (1 * (p.n / p.t) + pos) / (p.n / p.t) = 1 := by
      rw [Nat.one_mul, Nat.add_div_left _ (by omega), Nat.div_eq_of_lt g1]
    have hq2 : (1 * (p.n / p.t) + pos) % (p.n / p.t) = pos := by
      rw [Nat.one_mul, Nat.add_mod_left, Nat.mod_eq_of_lt g1]
    unfold noise at hmark
    simp only [hq1, hq2] at hmark
    rw [if_neg hnl, hsz, ← hpos] at hmark
    have hmono := height_mono (lastSize (batchOts p true otNum i) (p.n / p.t)) (p.n / p.t) t4 t5 hs31
    have htt : treeNum (batchOts p true otNum i) (p.n / p.t) ≤ p.t := by
      by_contra hcon
      have : p.t * (p.n / p.t) ≤ (treeNum (batchOts p true otNum i) (p.n / p.t) - 1) * (p.n / p.t) := Nat.mul_le_mul_right _ (by omega)
      omega
    have hlast : (treeNum (batchOts p true otNum i) (p.n / p.t) - 1) * (p.n / p.t) + (p.n / p.t) ≥ 2 * (p.n / p.t) := by
      have : 1 * (p.n / p.t) ≤ (treeNum (batchOts p true otNum i) (p.n / p.t) - 1) * (p.n / p.t) := Nat.mul_le_mul_right _ (by omega)
      omega
    have hroom : height (p.n / p.t) * (treeNum (batchOts p true otNum i) (p.n / p.t) - 1) + height (lastSize (batchOts p true otNum i) (p.n / p.t)) + 128 ≤
        S.buf.length := by
      have hk : (treeNum (batchOts p true otNum i) (p.n / p.t) - 1 + 1) * height (p.n / p.t) ≤ p.t * height (p.n / p.t) :=
        Nat.mul_le_mul_right _ (by omega)
      rw [Nat.succ_mul, Nat.mul_comm] at hk
      rw [m2, if_pos hm] at hlen
      omega
    obtain ⟨ch, hv', q1, q2⟩ := check_ok E.blake delta (E.useed i) S R (batchOts p true otNum i) (p.n / p.t) so ro c1 hc hroom
      ⟨1 * (p.n / p.t) + pos, by omega, by
        rw [← c1.1, l1]
        omega, by rw [hmark]; simp⟩ (by
        have := hp.n63
        rw [← c1.1, l1]
        unfold batchOts
        omega)
    rw [q1, Option.bind_some, q2, Option.bind_some, if_pos rfl, Option.bind_some, e3, Option.bind_some, e4, Option.map_some]

theorem splice_length (out : List B) (off : Nat) (x : List B) (h : off + x.length ≤ out.length) : (splice out off x).length = out.length := by
  unfold splice
  simp only [List.length_append, List.length_take, List.length_drop]
  omega

theorem splice_get (out : List B) (off : Nat) (x : List B) (h : off + x.length ≤ out.length) (j : Nat) :
    (splice out off x).getD j 0 = if j < off then out.getD j 0 else if j < off + x.length then x.getD (j - off) 0 else out.getD j 0 := by
  unfold splice
  simp only [List.getD_eq_getElem?_getD]
  have hl : (out.take off ++ x).length = off + x.length := by simp; omega
  have hl2 : (out.take off).length = off := by simp; omega
  by_cases h1 : j < off
  · rw [if_pos h1, List.getElem?_append_left (by omega), List.getElem?_append_left (by omega), List.getElem?_take_of_lt h1]
  · rw [if_neg h1]
    by_cases h2 : j < off + x.length
    · rw [if_pos h2, List.getElem?_append_left (by omega), List.getElem?_append_right (by omega), hl2]
    · rw [if_neg h2, List.getElem?_append_right (by omega), hl, List.getElem?_drop]
      congr 2
      omega

theorem cot_slice {delta : B} {S R : List B} (h : Cot delta S R) (a m : Nat) : Cot delta ((S.drop a).take m) ((R.drop a).take m) := by
  have hl := h.1
  refine ⟨by simp [hl], fun i hi => ?_⟩
  simp only [List.length_take, List.length_drop] at hi
  have e : ∀ L : List B, ((L.drop a).take m).getD i 0 = L.getD (a + i) 0 := by
    intro L
    rw [List.getD_eq_getElem?_getD, List.getElem?_take_of_lt (by omega), List.getElem?_drop, ← List.getD_eq_getElem?_getD]
  rw [e, e]
  exact h.2 _ (by omega)

theorem loop_ok (E : Env) (p : Prm) (mal : Bool) (hp : Ok p mal) (J : Nat → List Nat) (HJ : Table E.rp p.k J) (delta : B) (hodd : delta.getLsbD 0 = true) (otNum : Nat) (fuel i : Nat) (S R : St)
    (v w outS outR : List B) (hf : i + fuel = batchNum p mal otNum)
    (ho : S.off = R.off) (hl : S.len = R.len) (hc : Cot delta S.buf R.buf) (hfit : S.off + S.len ≤ S.buf.length) (hlen : S.len = mpNum p.t p.n mal)
    (hv : v.length = p.k) (hvw : Cot delta v w) (h1 : i * batchSize p mal < otNum) (h2 : mal = true → 2 * (p.n / p.t) ≤ otNum - i * batchSize p mal)
    (lS : outS.length = otNum) (lR : outR.length = otNum)
    (hpre : ∀ j < i * batchSize p mal, outR.getD j 0 = outS.getD j 0 ^^^ (if (outR.getD j 0).getLsbD 0 then delta else 0)) :
    ∃ oS oR, loop E p mal delta otNum fuel i S R v w outS outR = some (oS, oR) ∧ oS.length = otNum ∧ Cot delta oS oR := by
  have hcache := hp.cache
  have hbs : batchSize p mal + (p.k + mpNum p.t p.n mal) = p.n := by unfold batchSize; omega
  have hbpos : 0 < batchSize p mal := by unfold batchSize; omega
  induction fuel generalizing i S R v w outS outR with
  | zero =>
    exfalso
    rw [Nat.add_zero] at hf
    have : otNum ≤ i * batchSize p mal := by
      rw [hf]
      unfold batchNum
      have hd := Nat.div_add_mod (otNum + batchSize p mal - 1) (batchSize p mal)
      have hm := Nat.mod_lt (otNum + batchSize p mal - 1) hbpos
      rw [Nat.mul_comm] at hd
      omega
    omega
  | succ fuel ih =>
    obtain ⟨so, ro, e1, l1, c1, -⟩ := batch_ok E p mal hp J HJ delta hodd otNum i S R v w ho hl hc hfit hlen hv hvw h1 h2
    have hso : so.length ≤ p.n ∧ so.length ≤ otNum - i * batchSize p mal := by rw [l1]; unfold batchOts; omega
    have hro : ro.length = so.length := c1.1.symm
    unfold loop
    rw [e1, Option.bind_some]
    simp only
    have lS' := splice_length outS (i * batchSize p mal) so (by omega)
    have lR' := splice_length outR (i * batchSize p mal) ro (by omega)
    have hpre' : ∀ j < i * batchSize p mal + so.length, (splice outR (i * batchSize p mal) ro).getD j 0 = (splice outS (i * batchSize p mal) so).getD j 0 ^^^
        (if ((splice outR (i * batchSize p mal) ro).getD j 0).getLsbD 0 then delta else 0) := by
      intro j hj
      rw [splice_get outR _ ro (by omega) j, splice_get outS _ so (by omega) j]
      by_cases hj1 : j < i * batchSize p mal
      · rw [if_pos hj1, if_pos hj1]
        exact hpre j hj1
      · rw [if_neg hj1, if_neg hj1, if_pos (by omega), if_pos (by omega)]
        exact c1.2 _ (by omega)
    by_cases hmore : otNum - i * batchSize p mal > batchOts p mal otNum i
    · rw [if_pos hmore]
      have hn : batchOts p mal otNum i = p.n := by unfold batchOts at hmore ⊢; omega
      rw [hn] at hmore l1
      have hsucc : (i + 1) * batchSize p mal = i * batchSize p mal + batchSize p mal := Nat.succ_mul _ _
      refine ih (i + 1) (nextCot p mal so) (nextCot p mal ro) (nextSeed p mal so) (nextSeed p mal ro) _ _ (by omega) rfl rfl
        (cot_slice c1 _ _) ?_ rfl ?_ (cot_slice c1 _ _) (by omega) ?_ (by rw [lS', lS]) (by rw [lR', lR]) (fun j hj => hpre' j (by omega))
      · simp only [nextCot, List.length_take, List.length_drop]
        omega
      · simp only [nextSeed, List.length_take, List.length_drop]
        omega
      · intro hm
        have := (hp.full hm).2
        omega
    · rw [if_neg hmore]
      refine ⟨_, _, rfl, by rw [lS', lS], by rw [lS', lR', lS, lR], fun j hj => hpre' j ?_⟩
      rw [l1]
      unfold batchOts at hmore ⊢
      omega

theorem init_ok (p : Prm) (mal cheetah : Bool) (hp : Ok p mal) (delta : B) (bs br : List B) (hc : Cot delta bs br)
    (hlen : p.k + mpNum p.t p.n mal ≤ bs.length) :
    ∃ S R v w, init p mal cheetah bs = some (S, v) ∧ init p mal cheetah br = some (R, w) ∧ S.off = R.off ∧ S.len = R.len ∧ Cot delta S.buf R.buf ∧
      S.off + S.len ≤ S.buf.length ∧ S.len = mpNum p.t p.n mal ∧ v.length = p.k ∧ Cot delta v w := by
  have hl := hc.1
  have hk := hp.k1
  have hm : 1 ≤ mpNum p.t p.n mal := by
    rw [hp.mp.2]
    have := (Ggm.height_spec _ hp.s2 hp.s31).1
    have := Nat.mul_le_mul hp.t1 this
    omega
  unfold init St.slice
  cases cheetah <;> simp only [Bool.false_eq_true, if_false, if_true]
  · rw [if_pos (by omega), if_pos (by omega), if_pos (by omega), if_pos (by omega)]
    simp only [Option.bind_some, Option.map_some]
    refine ⟨_, _, _, _, rfl, rfl, rfl, rfl, hc, ?_, ?_, ?_, ?_⟩
    · simp only; omega
    · simp only; omega
    · simp only [List.length_take, List.length_drop]; omega
    · exact cot_slice hc _ _
  · rw [if_pos (by omega), if_pos (by omega), if_pos (by omega), if_pos (by omega)]
    simp only [Option.bind_some, Option.map_some]
    refine ⟨_, _, _, _, rfl, rfl, rfl, rfl, hc, ?_, ?_, ?_, ?_⟩
    · simp only; omega
    · simp only; omega
    · simp only [List.length_take, List.length_drop]; omega
    · exact cot_slice hc _ _

/-- C99. From base COTs with an odd `delta` (enough of them for the mode) the Ferret extension makes any number of OTs: the run of two honest parties
ends without exception, the consistency check passes, and the outputs are COTs with the same `delta`, one per requested OT, whatever the outputs held
before. This covers any number of batches: the seeds of each are cut from the output of the one before. -/
theorem C99_ferret (E : Env) (p : Prm) (mal cheetah : Bool) (hp : Ok p mal) (delta : B) (hodd : delta.getLsbD 0 = true) (bs br : List B)
    (hc : Cot delta bs br) (hlen : p.k + mpNum p.t p.n mal ≤ bs.length) (otNum : Nat) (h1 : 1 ≤ otNum) (h2 : cheetah = true ∨ 2 * p.t ≤ otNum)
    (h3 : mal = true → 2 * (p.n / p.t) ≤ otNum) (js jr : List B) (hjs : js.length = otNum) (hjr : jr.length = otNum) :
    ∃ oS oR, run E p mal cheetah delta bs br otNum js jr = some (oS, oR) ∧ oS.length = otNum ∧ Cot delta oS oR := by
  obtain ⟨S, R, v, w, e1, e2, q1, q2, q3, q4, q5, q6, q7⟩ := init_ok p mal cheetah hp delta bs br hc hlen
  have hmn : mpNum p.t p.n false ≤ mpNum p.t p.n mal := by
    unfold mpNum
    simp only
    cases mal <;> simp
  unfold run
  simp only
  rw [if_pos ⟨by omega, by rw [← hc.1]; omega, h2, hjs, hjr⟩, e1, Option.bind_some, e2, Option.bind_some]
  obtain ⟨J, HJ⟩ := table E.rp p.k hp.k1 hp.k31
  refine loop_ok E p mal hp J HJ delta hodd otNum (batchNum p mal otNum) 0 S R v w js jr (by omega) q1 q2 q3 q4 q5 q6 q7 (by omega) ?_ hjs hjr
    (fun j hj => by omega)
  intro hm
  have := h3 hm
  omega

end Yacl.Ferret
