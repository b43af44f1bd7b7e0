import Verif.Kernel.FerretMain
import Mathlib.Data.Nat.Bits

/-! Which secrets the outputs of Ferret depend on: the learning-parity-with-noise structure, and what the cheetah variant does to it. -/

namespace Yacl.Ferret

open Yacl.Ggm (B height)
open Yacl.Gf Yacl.Code

theorem xorAt_lsb (w : List B) (l : List Nat) : (xorAt w l).getLsbD 0 = (l.filter fun i => (w.getD i 0).getLsbD 0).length.bodd := by
  induction l with
  | nil => rfl
  | cons a l ih =>
    have hx : xorAt w (a :: l) = w.getD a 0 ^^^ xorAt w l := rfl
    rw [hx, BitVec.getLsbD_xor, ih, List.filter_cons]
    cases h : (w.getD a 0).getLsbD 0
    · simp
    · simp [Nat.bodd_succ]

/-- Parity of the choices of the base COTs at offset `o` in the positions `l`. -/
def parity (br : List B) (o : Nat) (l : List Nat) : Bool := (l.filter fun i => (br.getD (o + i) 0).getLsbD 0).length.bodd

/-- The choices of the receiver, when one batch is enough. The seed of the code starts at `mp` in the base COTs (at 0 in the cheetah variant); the noise is
read from position 0 of the base COTs in both. -/
theorem single_batch (E : Env) (p : Prm) (mal cheetah : Bool) (hp : Ok p mal) (J : Nat → List Nat) (HJ : Table E.rp p.k J) (delta : B)
    (hodd : delta.getLsbD 0 = true) (bs br : List B)
    (hc : Cot delta bs br) (hlen : p.k + mpNum p.t p.n mal ≤ bs.length) (otNum : Nat) (h1 : 1 ≤ otNum) (hn : otNum ≤ p.n) (h2 : cheetah = true ∨ 2 * p.t ≤ otNum)
    (h3 : mal = true → 2 * (p.n / p.t) ≤ otNum) (js jr : List B) (hjs : js.length = otNum) (hjr : jr.length = otNum) :
    ∃ oS oR, run E p mal cheetah delta bs br otNum js jr = some (oS, oR) ∧
      ∀ j < otNum, (oR.getD j 0).getLsbD 0 = (noise ⟨br, if cheetah then p.k else 0, mpNum p.t p.n mal⟩ otNum (p.n / p.t) j ^^
        parity br (if cheetah then 0 else mpNum p.t p.n mal) (J j)) := by
  obtain ⟨S, R, v, w, e1, e2, q1, q2, q3, q4, q5, q6, q7⟩ := init_ok p mal cheetah hp delta bs br hc hlen
  have hmn : mpNum p.t p.n false ≤ mpNum p.t p.n mal := by
    unfold mpNum
    simp only
    cases mal <;> simp
  have hcache := hp.cache
  have hbpos : 0 < batchSize p mal := by unfold batchSize; omega
  have hbn : ∃ f, batchNum p mal otNum = f + 1 := by
    refine ⟨batchNum p mal otNum - 1, ?_⟩
    have : 0 < batchNum p mal otNum := by
      unfold batchNum
      exact Nat.div_pos (by omega) hbpos
    omega
  obtain ⟨f, hf⟩ := hbn
  obtain ⟨so, ro, b1, b2, b3, b4⟩ := batch_ok E p mal hp J HJ delta hodd otNum 0 S R v w q1 q2 q3 q4 q5 q6 q7 (by omega) (fun hm => by
    have := h3 hm
    omega)
  have hbo : batchOts p mal otNum 0 = otNum := by unfold batchOts; omega
  rw [hbo] at b2 b4
  have hro : ro.length = otNum := by rw [← b3.1, b2]
  have hnum : ¬ otNum - 0 * batchSize p mal > batchOts p mal otNum 0 := by rw [hbo]; omega
  -- the receiver's slices
  have hR : R = ⟨br, if cheetah then p.k else 0, mpNum p.t p.n mal⟩ ∧ w = (br.drop (if cheetah then 0 else mpNum p.t p.n mal)).take p.k := by
    have hl := hc.1
    have hk := hp.k1
    have hm : 1 ≤ mpNum p.t p.n mal := by
      rw [hp.mp.2]
      have := (Ggm.height_spec _ hp.s2 hp.s31).1
      have := Nat.mul_le_mul hp.t1 this
      omega
    unfold init St.slice at e2
    cases cheetah <;> simp only [Bool.false_eq_true, if_false, if_true] at e2 ⊢
    · rw [if_pos (by omega), if_pos (by omega)] at e2
      simp only [Option.bind_some, Option.map_some, Option.some.injEq, Prod.mk.injEq] at e2
      rw [← e2.1, ← e2.2]
      refine ⟨by simp, by simp⟩
    · rw [if_pos (by omega), if_pos (by omega)] at e2
      simp only [Option.bind_some, Option.map_some, Option.some.injEq, Prod.mk.injEq] at e2
      rw [← e2.1, ← e2.2]
      refine ⟨by simp, by simp⟩
  have hsp : splice jr (0 * batchSize p mal) ro = ro := by
    unfold splice
    rw [Nat.zero_mul, List.take_zero, List.nil_append, Nat.zero_add, List.drop_eq_nil_of_le (by omega), List.append_nil]
  refine ⟨splice js (0 * batchSize p mal) so, ro, ?_, ?_⟩
  · unfold run
    simp only
    rw [if_pos ⟨by omega, by rw [← hc.1]; omega, h2, hjs, hjr⟩, e1, Option.bind_some, e2, Option.bind_some, hf]
    unfold loop
    rw [b1, Option.bind_some]
    simp only
    rw [if_neg hnum, hsp]
  · intro j hj
    rw [b4 j hj, hR.1, xorAt_lsb, hR.2]
    congr 3
    apply List.filter_congr
    intro i hi
    have hik := (HJ.1 j).2 i hi
    rw [List.getD_eq_getElem?_getD, List.getElem?_take_of_lt hik, List.getElem?_drop, ← List.getD_eq_getElem?_getD]

/-- C99, the secrets: the choices the receiver ends up with are a fixed linear code word of the last `k` base choices plus a noise that is given by the first
base choices alone, one marked position per tree. The matrix `J` depends on the public permutation only. -/
theorem C99_choices (rp : B → B) (p : Prm) (mal : Bool) (hp : Ok p mal) :
    ∃ J : Nat → List Nat, (∀ j, (J j).length = 10 ∧ ∀ i ∈ J j, i < p.k) ∧
      ∀ (E : Env), E.rp = rp → ∀ (delta : B), delta.getLsbD 0 = true → ∀ (bs br : List B), Cot delta bs br → p.k + mpNum p.t p.n mal ≤ bs.length →
      ∀ otNum, 2 * p.t ≤ otNum → otNum ≤ p.n → (mal = true → 2 * (p.n / p.t) ≤ otNum) → ∀ (js jr : List B), js.length = otNum → jr.length = otNum →
      ∃ oS oR, run E p mal false delta bs br otNum js jr = some (oS, oR) ∧
        ∀ j < otNum, (oR.getD j 0).getLsbD 0 =
          (noise ⟨br, 0, mpNum p.t p.n mal⟩ otNum (p.n / p.t) j ^^ parity br (mpNum p.t p.n mal) (J j)) := by
  obtain ⟨J, HJ⟩ := table rp p.k hp.k1 hp.k31
  refine ⟨J, HJ.1, ?_⟩
  rintro E rfl delta hodd bs br hc hlen otNum h2 hn h3 js jr hjs hjr
  have := hp.t1
  exact single_batch E p mal false hp J HJ delta hodd bs br hc hlen otNum (by omega) hn (Or.inr h2) h3 js jr hjs hjr

/-- One marked position per tree: two different marked positions of a batch lie in different trees. -/
theorem noise_regular (R : St) (range s : Nat) (j j' : Nat) (h : noise R range s j = true) (h' : noise R range s j' = true)
    (hr : 1 ≤ range) (hs : 1 ≤ s) (hj : j < range) (hj' : j' < range) (hq : j / s = j' / s) : j = j' := by
  obtain ⟨t1, t2, t3, t4, t5, t6⟩ := trees range s hs hr
  have hd := Nat.div_add_mod j s
  have hd' := Nat.div_add_mod j' s
  unfold noise at h h'
  simp only at h h'
  rw [← hq] at h'
  by_cases hl : j / s = treeNum range s - 1 ∧ lastSize range s = 1
  · rw [← hq] at hd'
    rw [hl.1, Nat.mul_comm] at hd hd'
    have := hl.2
    omega
  · rw [if_neg hl] at h h'
    simp only [decide_eq_true_eq] at h h'
    rw [← hd, ← hd', ← hq, h, h']

/-- The cheetah variant reads its noise from the COTs that also are the secret of the code. Without the check and with a last tree that is not a single leaf, the
choices of the receiver do not depend on the base COTs from `k` on, which the variant sets aside for the noise: if two runs start from base COTs that agree
in the first `k` choices, all their output choices agree, however the others differ. -/
theorem C99_cheetah_violated (E E' : Env) (hrp : E'.rp = E.rp) (p : Prm) (hp : Ok p false) (hk : mpNum p.t p.n false ≤ p.k) (delta delta' : B)
    (hodd : delta.getLsbD 0 = true) (hodd' : delta'.getLsbD 0 = true)
    (bs br bs' br' : List B) (hc : Cot delta bs br) (hc' : Cot delta' bs' br') (hlen : p.k + mpNum p.t p.n false ≤ bs.length)
    (hlen' : p.k + mpNum p.t p.n false ≤ bs'.length) (otNum : Nat) (h1 : 1 ≤ otNum) (hn : otNum ≤ p.n) (hlast : lastSize otNum (p.n / p.t) ≠ 1)
    (js jr : List B) (hjs : js.length = otNum) (hjr : jr.length = otNum)
    (hsame : ∀ i < p.k, (br'.getD i 0).getLsbD 0 = (br.getD i 0).getLsbD 0) :
    ∃ oS oR oS' oR', run E p false true delta bs br otNum js jr = some (oS, oR) ∧ run E' p false true delta' bs' br' otNum js jr = some (oS', oR') ∧
      ∀ j < otNum, (oR'.getD j 0).getLsbD 0 = (oR.getD j 0).getLsbD 0 := by
  obtain ⟨J, HJ⟩ := table E.rp p.k hp.k1 hp.k31
  obtain ⟨oS, oR, e1, g1⟩ := single_batch E p false true hp J HJ delta hodd bs br hc hlen otNum h1 hn (Or.inl rfl) (fun h => by cases h) js jr hjs hjr
  obtain ⟨oS', oR', e2, g2⟩ := single_batch E' p false true hp J (by rw [hrp]; exact HJ) delta' hodd' bs' br' hc' hlen' otNum h1 hn (Or.inl rfl)
    (fun h => by cases h) js jr hjs hjr
  refine ⟨oS, oR, oS', oR', e1, e2, fun j hj => ?_⟩
  rw [g1 j hj, g2 j hj]
  have hs2 := hp.s2
  obtain ⟨t1, t2, t3, t4, t5, t6⟩ := trees otNum (p.n / p.t) (by omega) h1
  obtain ⟨m1, m2⟩ := hp.mp
  have htt : treeNum otNum (p.n / p.t) ≤ p.t := by
    by_contra hcon
    have : p.t * (p.n / p.t) ≤ (treeNum otNum (p.n / p.t) - 1) * (p.n / p.t) := Nat.mul_le_mul_right _ (by omega)
    omega
  congr 1
  · unfold noise
    simp only
    have hnl : ¬ (j / (p.n / p.t) = treeNum otNum (p.n / p.t) - 1 ∧ lastSize otNum (p.n / p.t) = 1) := fun h => hlast h.2
    rw [if_neg hnl, if_neg hnl]
    congr 2
    have hq : j / (p.n / p.t) < treeNum otNum (p.n / p.t) := by
      rw [Nat.div_lt_iff_lt_mul (by omega)]
      have : treeNum otNum (p.n / p.t) * (p.n / p.t) = (treeNum otNum (p.n / p.t) - 1) * (p.n / p.t) + p.n / p.t := by
        rw [← Nat.succ_mul]
        congr 1
        omega
      omega
    have hts : treeSize otNum (p.n / p.t) (j / (p.n / p.t)) ≤ p.n / p.t ∧ 1 ≤ treeSize otNum (p.n / p.t) (j / (p.n / p.t)) := by
      unfold treeSize
      split <;> omega
    have hh := height_mono _ (p.n / p.t) hts.2 hts.1 hp.s31
    apply Nat.eq_of_testBit_eq
    intro i
    rw [Ggm.choiceIndex_testBit, Ggm.choiceIndex_testBit]
    by_cases hi : i < height (treeSize otNum (p.n / p.t) (j / (p.n / p.t)))
    · rw [hsame _ (by
        have h4 : (j / (p.n / p.t) + 1) * height (p.n / p.t) ≤ p.t * height (p.n / p.t) := Nat.mul_le_mul_right _ (by omega)
        rw [Nat.succ_mul] at h4
        have h5 : mpNum p.t p.n false = p.t * height (p.n / p.t) := by rw [m2]; simp
        omega)]
    · simp [hi]
  · unfold parity
    congr 2
    apply List.filter_congr
    intro i hi
    have := (HJ.1 j).2 i hi
    simp only [if_true, Nat.zero_add]
    exact hsame i this

/-! ### The default parameters -/

/-- secparam.h L150-155 `LpnParam::GetDefault`. -/
def dflt : Prm := ⟨10485760, 452000, 1280⟩

theorem dflt_height : height 8192 = 13 := by
  have h := Mpfss.height_depth 8192 (by omega) (by omega)
  have a := h.2 13 (by norm_num)
  have b : ¬ height 8192 ≤ 12 := by
    intro hb
    have h1 := h.1
    have h2 : 2 ^ height 8192 ≤ 2 ^ 12 := Nat.pow_le_pow_right (by omega) hb
    omega
  omega

theorem dflt_mp (mal : Bool) : mpNum dflt.t dflt.n mal = 16640 + if mal then 128 else 0 := by
  have e : (dflt.n + dflt.t - 1) / dflt.t = 8192 := by decide
  unfold mpNum
  simp only
  rw [e]
  have e2 : dflt.n - 8192 * (dflt.t - 1) = 8192 := by decide
  rw [e2, dflt_height]
  cases mal <;> decide

theorem dflt_ok (mal : Bool) : Ok dflt mal := by
  have hm := dflt_mp mal
  have hs : dflt.n / dflt.t = 8192 := by decide
  refine ⟨by decide, by decide, by rw [hs]; omega, by rw [hs]; omega, by decide, by decide, ?_, by decide, ?_⟩
  · rw [hm]; cases mal <;> decide
  · intro h
    subst h
    refine ⟨⟨13, by rw [hs]; norm_num⟩, ?_⟩
    rw [hm, hs]
    decide

/-- The hypotheses of `C99_ferret`, `C99_choices`, `C99_cheetah_violated` hold for the default parameters, both modes, and base COTs with alternating choices. -/
example (mal : Bool) : Ok dflt mal ∧ mpNum dflt.t dflt.n false ≤ dflt.k ∧ ∃ bs br : List B, Cot 1 bs br ∧ dflt.k + mpNum dflt.t dflt.n mal ≤ bs.length ∧
    (br.getD 0 0).getLsbD 0 = false ∧ (br.getD 1 0).getLsbD 0 = true ∧ lastSize 20000 (dflt.n / dflt.t) ≠ 1 := by
  have hm := dflt_mp mal
  have hm' := dflt_mp false
  have hg : ∀ (f : Nat → B) (i : Nat), i < 500000 → ((List.range 500000).map f).getD i 0 = f i := by
    intro f i hi
    rw [List.getD_eq_getElem?_getD, List.getElem?_map, List.getElem?_range hi]
    rfl
  refine ⟨dflt_ok mal, by rw [hm']; decide, (List.range 500000).map fun _ => 0, (List.range 500000).map fun i => if i % 2 = 1 then 1 else 0, ?_, ?_, ?_, ?_, ?_⟩
  · refine ⟨by rw [List.length_map, List.length_map], fun i hi => ?_⟩
    rw [List.length_map, List.length_range] at hi
    rw [hg _ _ hi, hg _ _ hi]
    by_cases h : i % 2 = 1
    · rw [if_pos h]; rfl
    · rw [if_neg h]; rfl
  · rw [hm, List.length_map, List.length_range]
    cases mal <;> decide
  · rw [hg _ _ (by omega)]; rfl
  · rw [hg _ _ (by omega)]; rfl
  · decide

end Yacl.Ferret
