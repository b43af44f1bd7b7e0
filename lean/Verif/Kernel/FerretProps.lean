import Verif.Kernel.Ferret
import Verif.Kernel.MpVole
import Verif.Gf.Hash
import Verif.Kernel.SoftspokenMain
import Mathlib.Tactic.LinearCombination
import Mathlib.Tactic.Choose

/-! C99: lemmas. -/
namespace Yacl.Ferret
open Yacl.Ggm (B Base height ferretSend ferretRecv)
open Yacl.Gf (gf128Mul gf128Pack universalHash extractHashCoef)

def sel (delta : B) (x : B) : B := if x.getLsbD 0 then delta else 0

theorem sel_add (delta : B) : Code.Additive (sel delta) := by
  intro x y
  unfold sel
  rw [BitVec.getLsbD_xor]
  cases x.getLsbD 0 <;> cases y.getLsbD 0 <;> simp

theorem cot_correlated {delta : B} {S R : List B} (h : Cot delta S R) : Code.Correlated (sel delta) R R S := by
  refine ⟨rfl, h.1.symm, fun i hi => ?_⟩
  rw [BitVec.xor_comm]
  exact h.2 i (by rw [h.1]; exact hi)

/-- `J` lists, for every output position, the message positions that `Encode` adds up. -/
def Table (rp : B → B) (k : Nat) (J : Nat → List Nat) : Prop :=
  (∀ j, (J j).length = 10 ∧ ∀ i ∈ J j, i < k) ∧
  ∀ (inp out : List B), inp.length = k → ∃ r, Code.encode 10 rp k inp out = some r ∧ r.length = out.length ∧
    ∀ n < out.length, r.getD n 0 = out.getD n 0 ^^^ Code.xorAt inp (J n)

theorem table (rp : B → B) (k : Nat) (hk : 1 ≤ k) (hk31 : k < 2 ^ 31) : ∃ J, Table rp k J := by
  obtain ⟨J, hJ, h1, -⟩ := Code.C43_encode_partial 10 rp k hk hk31
  exact ⟨J, hJ, h1 128⟩

theorem encode_cot (rp : B → B) (k : Nat) (J : Nat → List Nat) (HJ : Table rp k J) {delta : B} {v w so ro : List B} (hv : v.length = k) (hvw : Cot delta v w)
    (ho : Cot delta so ro) :
    ∃ (so' ro' : List B), Code.encode 10 rp k v so = some so' ∧ Code.encode 10 rp k w ro = some ro' ∧ so'.length = so.length ∧ Cot delta so' ro' ∧
      ∀ j < ro.length, ro'.getD j 0 = ro.getD j 0 ^^^ Code.xorAt w (J j) := by
  obtain ⟨hJ, h1⟩ := HJ
  obtain ⟨so', e1, l1, g1⟩ := h1 v so hv
  obtain ⟨ro', e2, l2, g2⟩ := h1 w ro (by rw [← hvw.1, hv])
  refine ⟨so', ro', e1, e2, l1, ⟨by rw [l1, l2, ho.1], ?_⟩, g2⟩
  intro i hi
  rw [l1] at hi
  have hi2 : i < ro.length := by rw [← ho.1]; exact hi
  rw [g1 i hi, g2 i hi2]
  have hx := Code.xorAt_additive (sel delta) (sel_add delta) w w v (cot_correlated hvw) (J i)
    (fun j hj => by rw [← hvw.1, hv]; exact (hJ i).2 j hj)
  have ha : ro.getD i 0 = so.getD i 0 ^^^ sel delta (ro.getD i 0) := ho.2 i hi
  show _ = _ ^^^ sel delta (ro.getD i 0 ^^^ Code.xorAt w (J i))
  rw [sel_add delta]
  generalize Code.xorAt w (J i) = a at *
  generalize Code.xorAt v (J i) = b at *
  generalize ro.getD i 0 = r at *
  generalize so.getD i 0 = s at *
  generalize sel delta a = x at *
  generalize sel delta r = y at *
  rw [hx, ha]
  ac_rfl

/-! ### Trees -/

/-- The window of two slices holds COTs. -/
def Win (delta : B) (a b : St) (n : Nat) : Prop :=
  ∀ i < n, b.buf.getD (b.off + i) 0 = a.buf.getD (a.off + i) 0 ^^^ sel delta (b.buf.getD (b.off + i) 0)

theorem tree_ok (h : B → B) (delta seed : B) (hodd : delta.getLsbD 0 = true) (a b : St) (n : Nat) (h1 : 2 ≤ n) (h2 : n ≤ 2 ^ 31)
    (ha : a.len = height n) (hb : b.len = height n) (hw : Win delta a b (height n)) :
    ∃ msgs send recv, treeSend h a delta seed n = some (msgs, send) ∧ treeRecv h b n msgs = some recv ∧ send.length = n ∧ recv.length = n ∧
      ∀ j < n, recv.getD j 0 = send.getD j 0 ^^^ sel delta (recv.getD j 0) ∧
        (recv.getD j 0).getLsbD 0 = decide (j = Ggm.choiceIndex (fun i => (b.buf.getD (b.off + i) 0).getLsbD 0) (height n)) := by
  let J : Base := ⟨fun i m => a.buf.getD (a.off + i) 0 ^^^ (if m then delta else 0), fun i => (b.buf.getD (b.off + i) 0).getLsbD 0⟩
  obtain ⟨msgs, send, recv, index, e1, e2, g1, g2, l1, l2, g3⟩ := Ggm.C40_gywz_ferret h J delta seed
    (fun i => by simp only [J, if_true, Bool.false_eq_true, if_false]; rw [BitVec.xor_assoc]; congr 1; exact BitVec.zero_xor.symm) hodd n h1 h2
  have hix : index = Ggm.choiceIndex (fun i => (b.buf.getD (b.off + i) 0).getLsbD 0) (height n) := by
    apply Nat.eq_of_testBit_eq
    intro i
    rw [Ggm.choiceIndex_testBit]
    by_cases hi : i < height n
    · rw [g1 i hi]
      simp [hi, J]
    · have : index.testBit i = false := Nat.testBit_lt_two_pow (Nat.lt_of_lt_of_le g2 (Nat.pow_le_pow_right (by omega) (by omega)))
      simp [this, hi]
  rw [← hix]
  refine ⟨msgs, send, recv, ?_, ?_, l1, l2, ?_⟩
  · unfold treeSend
    rw [if_pos ha, ← e1]
    rfl
  · unfold treeRecv
    rw [if_pos hb, ← e2]
    unfold ferretRecv
    rw [if_pos (by omega), if_pos (by omega)]
    have hp : ∀ L, L < height n → Ggm.puncLevels h Ggm.maskOne (Ggm.choiceIndex (recvBase b).c (height n))
        (fun i => msgs.getD i 0 ^^^ ((recvBase b).blk i ((recvBase b).c i) &&& Ggm.maskOne)) L =
        Ggm.puncLevels h Ggm.maskOne (Ggm.choiceIndex J.c (height n)) (fun i => msgs.getD i 0 ^^^ (J.blk i (J.c i) &&& Ggm.maskOne)) L := by
      intro L hL
      have hb : ∀ i < height n, (recvBase b).blk i ((recvBase b).c i) = J.blk i (J.c i) := fun i hi => hw i hi
      induction L with
      | zero => simp only [Ggm.puncLevels]; rw [hb 0 hL]; rfl
      | succ L ih => simp only [Ggm.puncLevels]; rw [ih (by omega), hb _ hL]; rfl
    have hh := (Ggm.height_spec n h1 h2).1
    simp only [hp (height n - 1) (by omega)]
    rfl
  · intro j hj
    have hx : send[j]? = some (send.getD j 0) := by
      rw [List.getD_eq_getElem?_getD, List.getElem?_eq_getElem (by omega)]; rfl
    have hy : recv[j]? = some (recv.getD j 0) := by
      rw [List.getD_eq_getElem?_getD, List.getElem?_eq_getElem (by omega)]; rfl
    obtain ⟨x1, x2, x3⟩ := g3 j _ _ hx hy
    refine ⟨?_, x2⟩
    unfold sel
    cases hc : (recv.getD j 0).getLsbD 0 with
    | true => rw [hc] at x3; simpa using x3
    | false => rw [hc] at x3; simpa using x3

/-! ### Multi-point COT -/

theorem trees (range s : Nat) (hs : 1 ≤ s) (hr : 1 ≤ range) :
    1 ≤ treeNum range s ∧ (treeNum range s - 1) * s < range ∧ range ≤ treeNum range s * s ∧ 1 ≤ lastSize range s ∧ lastSize range s ≤ s ∧
    (treeNum range s - 1) * s + lastSize range s = range := by
  have h1 : 1 ≤ treeNum range s := by
    unfold treeNum
    rw [Nat.le_div_iff_mul_le (by omega)]
    omega
  have hd : s * treeNum range s + (range + s - 1) % s = range + s - 1 := Nat.div_add_mod _ _
  have hm : (range + s - 1) % s < s := Nat.mod_lt _ (by omega)
  obtain ⟨c, hc⟩ : ∃ c, treeNum range s = c + 1 := ⟨treeNum range s - 1, by omega⟩
  unfold lastSize
  rw [hc] at hd ⊢
  rw [Nat.mul_succ] at hd
  rw [Nat.add_sub_cancel, Nat.succ_mul, Nat.mul_comm c s]
  omega

theorem height_mono (a b : Nat) (h1 : 1 ≤ a) (h2 : a ≤ b) (h3 : b ≤ 2 ^ 31) : height a ≤ height b := by
  have ha := Mpfss.height_depth a (by omega) (by omega)
  have hb := Mpfss.height_depth b (by omega) (by omega)
  exact ha.2 _ (Nat.le_trans h2 hb.1)

theorem mp_ok (h : B → B) (delta : B) (seeds : Nat → B) (hodd : delta.getLsbD 0 = true) (S R : St) (range num s : Nat) (h1 : 2 ≤ s) (h2 : s ≤ 2 ^ 31)
    (hr : 1 ≤ range) (hn : range ≤ num * s) (ho : S.off = R.off) (hl : S.len = R.len) (hc : Cot delta S.buf R.buf) (hfit : S.off + S.len ≤ S.buf.length)
    (hlen : num * height s ≤ S.len) :
    ∃ (msgs : List (List B)) (so ro : List B), mpSend h S delta seeds range num s = some (msgs, so) ∧ mpRecv h R range num s msgs = some ro ∧
      so.length = range ∧ Cot delta so ro ∧ ∀ j < range, (ro.getD j 0).getLsbD 0 = noise R range s j := by
  obtain ⟨t1, t2, t3, t4, t5, t6⟩ := trees range s (by omega) hr
  have hnum : treeNum range s ≤ num := by
    by_contra hcon
    have : num * s ≤ (treeNum range s - 1) * s := Nat.mul_le_mul_right _ (by omega)
    omega
  have hsz : ∀ q < treeNum range s, ¬ (q = treeNum range s - 1 ∧ lastSize range s = 1) →
      2 ≤ treeSize range s q ∧ treeSize range s q ≤ s := by
    intro q _ hne
    unfold treeSize
    split
    · omega
    · omega
  have hbl := (Ggm.height_spec s h1 h2).1
  have hend : ∀ q < treeNum range s, (q + 1) * height s ≤ S.len := fun q hq =>
    Nat.le_trans (Nat.mul_le_mul_right _ (by omega)) hlen
  have hRl : R.buf.length = S.buf.length := hc.1.symm
  have H : ∀ q : Nat, ∃ (m x y : List B), q < treeNum range s →
      ((if q = treeNum range s - 1 ∧ lastSize range s = 1 then (S.get (q * height s)).map fun x => ([], [x])
        else (S.slice (q * height s) (q * height s + height (treeSize range s q))).bind fun c => treeSend h c delta (seeds q) (treeSize range s q)) = some (m, x)) ∧
      ((if q = treeNum range s - 1 ∧ lastSize range s = 1 then (R.get (q * height s)).map fun x => [x]
        else (R.slice (q * height s) (q * height s + height (treeSize range s q))).bind fun c => treeRecv h c (treeSize range s q) m) = some y) ∧
      x.length = treeSize range s q ∧ y.length = treeSize range s q ∧ (∀ j < treeSize range s q, y.getD j 0 = x.getD j 0 ^^^ sel delta (y.getD j 0)) ∧
      ∀ j < treeSize range s q, (y.getD j 0).getLsbD 0 = if q = treeNum range s - 1 ∧ lastSize range s = 1 then (R.buf.getD (R.off + q * height s) 0).getLsbD 0
        else decide (j = Ggm.choiceIndex (fun i => (R.buf.getD (q * height s + i) 0).getLsbD 0) (height (treeSize range s q))) := by
    intro q
    by_cases hq : q < treeNum range s
    case neg => exact ⟨[], [], [], fun h => absurd h hq⟩
    have he := hend q hq
    rw [Nat.succ_mul] at he
    by_cases hlast : q = treeNum range s - 1 ∧ lastSize range s = 1
    · refine ⟨[], [S.buf.getD (S.off + q * height s) 0], [R.buf.getD (R.off + q * height s) 0], fun _ => ?_⟩
      have hsize : treeSize range s q = 1 := by unfold treeSize; rw [if_pos hlast.1, hlast.2]
      rw [if_pos hlast, if_pos hlast, hsize]
      refine ⟨?_, ?_, rfl, rfl, ?_, ?_⟩
      · unfold St.get
        rw [if_pos (by omega), List.getElem?_eq_getElem (by omega), List.getD_eq_getElem?_getD, List.getElem?_eq_getElem (by omega)]
        rfl
      · unfold St.get
        rw [if_pos (by omega), List.getElem?_eq_getElem (by omega), List.getD_eq_getElem?_getD, List.getElem?_eq_getElem (by omega)]
        rfl
      · intro j hj
        obtain rfl : j = 0 := by omega
        rw [List.getD_cons_zero, List.getD_cons_zero, ← ho]
        exact hc.2 _ (by omega)
      · intro j hj
        obtain rfl : j = 0 := by omega
        rw [if_pos hlast]
        rfl
    · obtain ⟨z1, z2⟩ := hsz q hq hlast
      have hm := height_mono (treeSize range s q) s (by omega) z2 h2
      have hm1 := (Ggm.height_spec (treeSize range s q) z1 (by omega)).1
      obtain ⟨m, x, y, e1, e2, l1, l2, g3⟩ := tree_ok h delta (seeds q) hodd ⟨S.buf, q * height s, height (treeSize range s q)⟩
        ⟨R.buf, q * height s, height (treeSize range s q)⟩ (treeSize range s q) z1 (by omega) rfl rfl
        (fun i hi => hc.2 (q * height s + i) (by omega))
      refine ⟨m, x, y, fun _ => ?_⟩
      rw [if_neg hlast, if_neg hlast]
      simp only [if_neg hlast]
      unfold St.slice
      rw [if_pos (by omega), if_pos (by omega), Option.bind_some, Option.bind_some, Nat.add_sub_cancel_left]
      exact ⟨e1, e2, l1, l2, fun j hj => (g3 j hj).1, fun j hj => (g3 j hj).2⟩
  choose m x y H using H
  have hxl : ∀ q < treeNum range s - 1, (x q).length = s := fun q hq => by
    rw [(H q (by omega)).2.2.1]
    unfold treeSize
    rw [if_neg (by omega)]
  have hyl : ∀ q < treeNum range s - 1, (y q).length = s := fun q hq => by
    rw [(H q (by omega)).2.2.2.1]
    unfold treeSize
    rw [if_neg (by omega)]
  have hxe : (x (treeNum range s - 1)).length = lastSize range s := by
    rw [(H _ (by omega)).2.2.1]
    unfold treeSize
    rw [if_pos rfl]
  have hye : (y (treeNum range s - 1)).length = lastSize range s := by
    rw [(H _ (by omega)).2.2.2.1]
    unfold treeSize
    rw [if_pos rfl]
  have hxx : ((List.range (treeNum range s)).map x).flatten.length = range := by
    rw [Mpfss.flatten_length x s _ (by omega) hxl, hxe, t6]
  have hyy : ((List.range (treeNum range s)).map y).flatten.length = range := by
    rw [Mpfss.flatten_length y s _ (by omega) hyl, hye, t6]
  have hxg : ∀ q < treeNum range s, ∀ j < treeSize range s q, ((List.range (treeNum range s)).map x).flatten.getD (q * s + j) 0 = (x q).getD j 0 := by
    intro q hq j hj
    rw [List.getD_eq_getElem?_getD, Mpfss.flatten_get x s _ q j hq hxl (by rw [(H q hq).2.2.1]; exact hj), ← List.getD_eq_getElem?_getD]
  have hyg : ∀ q < treeNum range s, ∀ j < treeSize range s q, ((List.range (treeNum range s)).map y).flatten.getD (q * s + j) 0 = (y q).getD j 0 := by
    intro q hq j hj
    rw [List.getD_eq_getElem?_getD, Mpfss.flatten_get y s _ q j hq hyl (by rw [(H q hq).2.2.2.1]; exact hj), ← List.getD_eq_getElem?_getD]
  have hsplit : ∀ i < range, i / s * s + i % s = i ∧ i / s < treeNum range s ∧ i % s < treeSize range s (i / s) := by
    intro i hi
    have hdm := Nat.div_add_mod i s
    have hml := Nat.mod_lt i (show 0 < s by omega)
    rw [Nat.mul_comm] at hdm
    refine ⟨hdm, ?_, ?_⟩
    · rw [Nat.div_lt_iff_lt_mul (by omega)]
      omega
    · unfold treeSize
      split
      · rename_i hqe
        rw [hqe] at hdm
        omega
      · exact hml
  refine ⟨(List.range (treeNum range s)).map m, ((List.range (treeNum range s)).map x).flatten, ((List.range (treeNum range s)).map y).flatten, ?_, ?_, hxx,
    ⟨by rw [hxx, hyy], ?_⟩, ?_⟩
  · unfold mpSend
    rw [if_pos ⟨by omega, hnum, t1⟩]
    simp only
    rw [Softspoken.mapM_some _ _ (fun q => (m q, x q)) (fun q hq => (H q (List.mem_range.mp hq)).1)]
    simp only [Option.map_some, List.map_map]
    rfl
  · unfold mpRecv
    rw [if_pos ⟨by omega, hnum, t1⟩]
    simp only
    rw [Softspoken.mapM_some _ _ y (fun q hq => ?_)]
    · rfl
    · have hq' := List.mem_range.mp hq
      have : ((List.range (treeNum range s)).map m).getD q [] = m q := by
        rw [List.getD_eq_getElem?_getD, List.getElem?_map, List.getElem?_range hq']
        rfl
      rw [this]
      exact (H q hq').2.1
  · intro i hi
    rw [hxx] at hi
    obtain ⟨hdm, hq, hj⟩ := hsplit i hi
    rw [← hdm, hxg _ hq _ hj, hyg _ hq _ hj]
    exact (H _ hq).2.2.2.2.1 _ hj
  · intro i hi
    obtain ⟨hdm, hq, hj⟩ := hsplit i hi
    conv_lhs => rw [← hdm]
    rw [hyg _ hq _ hj]
    exact (H _ hq).2.2.2.2.2 _ hj

end Yacl.Ferret
