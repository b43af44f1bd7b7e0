import Verif.Kernel.SoftspokenMain

/-! C98: what the messages of compact mode reveal. -/
namespace Yacl.Softspoken
open Yacl.Ggm (B Base xsum)
open Yacl.OtExt (word choiceWord extendChoice Junk OtCorrect Correlated)
open Yacl.Matrix (Mat matrixTranspose128)

/-- The tree below the two children of the root. -/
def treeFrom (p0 p1 : B → B) (m : B × B) : Nat → Nat → B
  | 0 => fun j => if j = 0 then m.1 else m.2
  | i + 1 => Ggm.kids p0 p1 (2 ^ (i + 1)) (treeFrom p0 p1 m i)

/-- An eavesdropper's computation: rebuild tree 0 from its first message, which nothing masks, and strip its sum from the first block of every batch. -/
def eavesdrop (f : Fns) (k step : Nat) (mal : Bool) (setup : List TreeMsg) (ctr : B) (n : Nat) (us : List (List B)) : List Bool :=
  let m := (setup.getD 0 ([], (0, 0))).1.getD 0 (0, 0)
  let leaf := fun x => let y := treeFrom f.p0 f.p1 m (k - 1) x; if mal then f.crh y else y
  let st := stepOf k step
  let blocks := (unpack st (pprfNum k) (superNum n st) (batchNum n st) us).getD []
  (List.range n).map fun q =>
    ((blocks.getD (q / 128) []).getD 0 0 ^^^ xsum (fun x => f.crh (leaf x ^^^ (ctr + BitVec.ofNat 128 (q / 128)))) (2 ^ k)).getLsbD (q % 128)

theorem tree_eq (p0 p1 : B → B) (n : Nat) (seed : B) (m : B × B) (hm0 : m.1 = Ggm.kids p0 p1 1 (Ggm.sgrrSendLevels p0 p1 n seed 0).1 0)
    (hm1 : m.2 = Ggm.kids p0 p1 1 (Ggm.sgrrSendLevels p0 p1 n seed 0).1 1) (i : Nat) (hi : 2 ^ (i + 1) ≤ n) (j : Nat) (hj : j < 2 ^ (i + 1)) :
    (Ggm.sgrrSendLevels p0 p1 n seed (i + 1)).1 j = treeFrom p0 p1 m i j := by
  induction i generalizing j with
  | zero =>
    rw [Nat.zero_add, Nat.pow_one] at hj hi
    rw [Ggm.send_level p0 p1 n seed 0 (by rw [Nat.pow_zero]; omega) j (by rw [Nat.pow_zero]; omega), Nat.pow_zero]
    have : j = 0 ∨ j = 1 := by omega
    rcases this with rfl | rfl
    · rw [← hm0]; rfl
    · rw [← hm1]; rfl
  | succ i ih =>
    have hp2 : 2 ^ (i + 1 + 1) = 2 * 2 ^ (i + 1) := by rw [Nat.pow_succ]; omega
    have hpos := Nat.two_pow_pos (i + 1)
    have ih' := ih (by omega)
    rw [Ggm.send_level p0 p1 n seed (i + 1) (by omega) j (by omega)]
    simp only [treeFrom, Ggm.kids]
    by_cases hlt : j < 2 ^ (i + 1)
    · rw [if_pos hlt, if_pos hlt, ih' j hlt]
    · rw [if_neg hlt, if_neg hlt, ih' (j - 2 ^ (i + 1)) (by omega)]

/-- The first block of every batch: the choice word, masked by the sum of the hashed leaves of tree 0 only. -/
theorem first_block (crh : B → B) (k : Nat) (h1 : 1 ≤ k) (h2 : k ≤ 31) (compact : Bool) (leaves : List (List B)) (cs : List B) (ctr : B) (xr : Nat → B)
    (i : Nat) (hi : i < cs.length) :
    (((recvRun crh k compact leaves ctr xr cs).map (·.1)).getD i []).getD 0 0 =
      cs.getD i 0 ^^^ xsum (fun x => crh (flat (2 ^ k) leaves x ^^^ (ctr + BitVec.ofNat 128 i))) (2 ^ k) := by
  induction cs generalizing ctr xr i with
  | nil => exact absurd hi (Nat.not_lt_zero i)
  | cons c cs ih =>
    have hP : 0 < pprfNum k := by
      obtain ⟨c, l, hP, _⟩ := params k h1
      omega
    cases i with
    | zero =>
      simp only [recvRun, List.map_cons, List.getD_cons_zero, genRecv]
      rw [List.getD_eq_getElem?_getD, List.getElem?_map, List.getElem?_range hP]
      show c ^^^ _ = _
      congr 1
      have hb : (0 + 1) * 2 ^ k ≤ pprfNum k * 2 ^ k := Nat.mul_le_mul_right _ hP
      rw [(reduce_ok k (pprfNum k * 2 ^ k) _ 0 hb).1]
      apply Ggm.xsum_congr
      intro x hx
      have ht := total_iff k 0 x h1 hP hx
      have hk : kLimit k 0 = k := by unfold kLimit; omega
      rw [hk] at ht
      simp only [if_pos (ht.mpr hx)]
      rw [Nat.zero_mul, Nat.zero_add]
      congr 2
      exact (BitVec.add_zero ctr).symm
    | succ i =>
      simp only [recvRun, List.map_cons, List.getD_cons_succ]
      rw [ih _ _ i (by simpa using hi)]
      congr 2
      funext x
      congr 2
      rw [BitVec.add_assoc]
      congr 1
      rw [BitVec.ofNat_add, BitVec.add_comm]
      rfl

/-- C98 fails to hide anything in compact mode: the messages of an honest receiver determine all its choices. One function of what goes over the wire
(the setup message and the masked choices), of the public functions and the public counter recovers the receiver's choices, for every base OT, seeds,
number of OTs and choices. The cause: base OT 0 is replaced by constant zero blocks, which mask the first message of tree 0. -/
theorem C98_compact_violated (f : Fns) (k step : Nat) (h1 : 1 ≤ k) (h2 : k ≤ 31) (mal : Bool) :
    ∃ attack : List TreeMsg → B → Nat → List (List B) → List Bool,
      ∀ (base : Base) (seeds : Nat → B) (cot sse2 : Bool) (junk : Junk) (ctr : B) (choices rnd : List Bool)
        (setup : List TreeMsg) (leaves us : List (List B)) (ans : List (BitVec 64) → BitVec 64 × (Nat → BitVec 64)) (out : List B) (ctr' : B),
        setupRecv f base seeds k mal true = some (setup, leaves) →
        recv f.crh k step true cot sse2 junk leaves ctr choices rnd = some (us, ans, out, ctr') →
        attack setup ctr choices.length us = choices := by
  refine ⟨eavesdrop f k step mal, ?_⟩
  intro base seeds cot sse2 junk ctr choices rnd setup leaves us ans out ctr' hset hrecv
  have hP : 0 < pprfNum k := by
    obtain ⟨c, l, hP, _⟩ := params k h1
    omega
  have hk : kLimit k 0 = k := by unfold kLimit; omega
  have hsp : 1 ≤ stepOf k step := by unfold stepOf; split <;> [(split <;> [omega; (split <;> omega)]); omega]
  -- the setup message of tree 0
  obtain ⟨msgs, leaves', st, e1, _, hL, _⟩ := setup_ok f base seeds k h1 h2 mal true
  rw [e1] at hset
  obtain ⟨rfl, rfl⟩ := Prod.mk.inj (Option.some.inj hset)
  have h3 : 2 ≤ 2 ^ k := by
    have := Nat.pow_le_pow_right (show 0 < 2 by omega) h1
    omega
  have hh := height_pow k h1 h2
  have hpost : ∃ pr, msgs[0]? = some ((List.range k).map (fun i =>
        ((sub (compactBase true base) k 0).blk i true ^^^ ((Ggm.sgrrSendLevels f.p0 f.p1 (2 ^ k) (seeds 0) k).2.getD i (0, 0)).1,
         (sub (compactBase true base) k 0).blk i false ^^^ ((Ggm.sgrrSendLevels f.p0 f.p1 (2 ^ k) (seeds 0) k).2.getD i (0, 0)).2)), pr) ∧
      leaves'[0]? = some (if mal then ((List.range (2 ^ k)).map (Ggm.sgrrSendLevels f.p0 f.p1 (2 ^ k) (seeds 0) k).1).map f.crh
        else (List.range (2 ^ k)).map (Ggm.sgrrSendLevels f.p0 f.p1 (2 ^ k) (seeds 0) k).1) := by
    have e2 := e1
    unfold setupRecv at e2
    simp only [Option.map_eq_some_iff] at e2
    obtain ⟨l, hl, hl2⟩ := e2
    obtain ⟨rfl, rfl⟩ := Prod.mk.inj hl2
    obtain ⟨c, hc⟩ : ∃ c, pprfNum k = c + 1 := ⟨pprfNum k - 1, by omega⟩
    rw [hc, List.range_succ_eq_map, List.mapM_cons] at hl
    simp only [Option.bind_eq_bind, Option.bind_eq_some_iff, Option.pure_def, Option.some.injEq] at hl
    obtain ⟨a, ha, b, _, rfl⟩ := hl
    unfold Ggm.sgrrFixedSend at ha
    rw [hk, hh, if_pos (by omega)] at ha
    obtain rfl := Option.some.inj ha
    exact ⟨_, rfl, rfl⟩
  obtain ⟨pr, hm0, hl0⟩ := hpost
  have hmsg : (msgs.getD 0 ([], (0, 0))).1.getD 0 (0, 0) =
      (Ggm.kids f.p0 f.p1 1 (Ggm.sgrrSendLevels f.p0 f.p1 (2 ^ k) (seeds 0) 0).1 0,
       Ggm.kids f.p0 f.p1 1 (Ggm.sgrrSendLevels f.p0 f.p1 (2 ^ k) (seeds 0) 0).1 1) := by
    rw [getD_of hm0, Ggm.msg_getD (show 0 < k by omega), Ggm.send_msgs _ _ _ _ k 0 (by omega) (by rw [Nat.pow_zero]; omega), Nat.pow_zero]
    have x1 : ∀ g : Nat → B, xsum g 1 = g 0 := fun g => by
      show xsum g (0 + 1) = _
      rw [Ggm.xsum_succ]
      exact BitVec.zero_xor
    rw [x1, x1]
    have hb : ∀ c, (sub (compactBase true base) k 0).blk 0 c = 0#128 := fun c => by
      simp [sub, compactBase]
    rw [hb, hb]
    simp only [BitVec.zero_xor, Nat.zero_add]
  -- the leaves
  have hleaf : ∀ x < 2 ^ k, flat (2 ^ k) leaves' x =
      (let y := treeFrom f.p0 f.p1 ((msgs.getD 0 ([], (0, 0))).1.getD 0 (0, 0)) (k - 1) x; if mal then f.crh y else y) := by
    intro x hx
    have := flat_eq (2 ^ k) leaves' 0 x hx _ hl0
    rw [Nat.zero_mul, Nat.zero_add] at this
    have ht := tree_eq f.p0 f.p1 (2 ^ k) (seeds 0) ((msgs.getD 0 ([], (0, 0))).1.getD 0 (0, 0)) (by rw [hmsg]) (by rw [hmsg]) (k - 1) (by rw [Nat.sub_add_cancel h1]) x
      (by rw [Nat.sub_add_cancel h1]; exact hx)
    rw [Nat.sub_add_cancel h1] at ht
    rw [this, ← ht]
    cases mal with
    | false =>
      simp only [Bool.false_eq_true, if_false]
      rw [List.getD_eq_getElem?_getD, List.getElem?_map, List.getElem?_range hx]
      rfl
    | true =>
      simp only [if_true]
      rw [List.getD_eq_getElem?_getD, List.getElem?_map, List.getElem?_map, List.getElem?_range hx]
      rfl
  -- the masked choices
  obtain ⟨b1, b2, b3⟩ := all_batches choices.length (stepOf k step) hsp
  unfold recv at hrecv
  simp only at hrecv
  rw [if_pos b3] at hrecv
  have hus := (Prod.mk.inj (Option.some.inj hrecv)).1
  have hz : Padded k (fun _ => 0) := fun _ _ _ => rfl
  have hlen : ∀ (cs : List B) (ctr : B) (xr : Nat → B), (recvRun f.crh k true leaves' ctr xr cs).length = cs.length ∧
      ∀ u ∈ (recvRun f.crh k true leaves' ctr xr cs).map (·.1), u.length = pprfNum k := by
    intro cs
    induction cs with
    | nil => exact fun _ _ => ⟨rfl, by simp [recvRun]⟩
    | cons c cs ih =>
      intro ctr xr
      obtain ⟨i1, i2⟩ := ih (ctr + 1) (genRecv f.crh k true leaves' ctr xr c).1
      refine ⟨by simp only [recvRun, List.length_cons, i1], ?_⟩
      intro u hu
      simp only [recvRun, List.map_cons, List.mem_cons] at hu
      rcases hu with rfl | hu
      · simp [genRecv]
      · exact i2 u hu
  obtain ⟨r1, r2⟩ := hlen ((List.range (allBatch choices.length (stepOf k step))).map (choiceWord (extendChoice choices rnd))) ctr (fun _ => 0)
  have hun := unpack_pack (stepOf k step) (pprfNum k) (superNum choices.length (stepOf k step)) (batchNum choices.length (stepOf k step)) _
    (by rw [List.length_map, r1, List.length_map, List.length_range]; rfl) r2
  rw [hus] at hun
  unfold eavesdrop
  simp only [hun, Option.getD_some]
  apply List.ext_getElem (by simp)
  intro q hq1 hq2
  rw [List.getElem_map, List.getElem_range]
  have hqA : q / 128 < allBatch choices.length (stepOf k step) := by omega
  rw [first_block f.crh k h1 h2 true leaves' _ ctr _ (q / 128) (by rw [List.length_map, List.length_range]; exact hqA)]
  have hx : xsum (fun x => f.crh ((let y := treeFrom f.p0 f.p1 ((msgs.getD 0 ([], (0, 0))).1.getD 0 (0, 0)) (k - 1) x; if mal then f.crh y else y) ^^^
      (ctr + BitVec.ofNat 128 (q / 128)))) (2 ^ k) =
      xsum (fun x => f.crh (flat (2 ^ k) leaves' x ^^^ (ctr + BitVec.ofNat 128 (q / 128)))) (2 ^ k) :=
    Ggm.xsum_congr fun x hx => by rw [← hleaf x hx]
  simp only at hx
  rw [hx, BitVec.xor_assoc, BitVec.xor_self]
  have hw : ((List.range (allBatch choices.length (stepOf k step))).map (choiceWord (extendChoice choices rnd))).getD (q / 128) 0 =
      choiceWord (extendChoice choices rnd) (q / 128) := by
    rw [List.getD_eq_getElem?_getD, List.getElem?_map, List.getElem?_range hqA]
    rfl
  rw [hw]
  simp only [BitVec.getLsbD_xor]
  unfold choiceWord
  rw [OtExt.word_bit _ _ (Nat.mod_lt _ (by omega)), Nat.div_add_mod, List.getD_eq_getElem?_getD]
  unfold extendChoice
  rw [List.getElem?_append_left (by simpa using hq2), List.getElem?_eq_getElem (by simpa using hq2)]
  simp

/-- The hypotheses of C98 can be met: the documented parameters `k = 2` and `k = 8` are in range and challenges of the required length exist. -/
example : (1 ≤ 2 ∧ 2 ≤ 31) ∧ (1 ≤ 8 ∧ 8 ≤ 31) ∧ ∃ chi : List (BitVec 64), chi.length = 2 * ((200 + 64 + 127) / 128) :=
  ⟨by omega, by omega, List.replicate (2 * ((200 + 64 + 127) / 128)) 3, List.length_replicate⟩

/-- With `k = 2` and compact mode an honest setup and an honest call exist, so the leak theorem speaks about real runs. -/
example (f : Fns) (base : Base) (seeds : Nat → B) (junk : Junk) :
    ∃ setup leaves us ans out ctr', setupRecv f base seeds 2 true true = some (setup, leaves) ∧
      recv f.crh 2 0 true true false junk leaves 0 [true, false, true] [] = some (us, ans, out, ctr') := by
  obtain ⟨msgs, leaves, st, e1, _, _, h⟩ := C98_softspoken f base seeds 2 (by omega) (by omega) true true
  obtain ⟨us, ans, out, ctr', _, e2, _⟩ := h 0 true false false junk junk 0 [true, false, true] [] (List.replicate 2 0) rfl
  exact ⟨msgs, leaves, us, ans, out, ctr', e1, e2⟩

/-- One depth-2 reduction of a block of four: the sum of all, then the sums selected by index bit 0 and by index bit 1. -/
example : let a := xorReduce 2 4 fun i => if i < 4 then BitVec.ofNat 128 (2 ^ i) else 0
    (a 0, a 1, a 2) = (15#128, 10#128, 12#128) := by decide +kernel

end Yacl.Softspoken
