import Verif.Zkp.Checks

/-! Lookup argument: yacl/crypto/experimental/zkp/sumcheck/logup.cc.  Property C84.
Conventions as in Sumcheck.lean: a thrown exception (and undefined shifts) is `none`; the random draws are
arguments. -/
namespace Yacl.Sumcheck
open Vss (addMod subMod mulMod invertMod invertMod_cases cast_add cast_sub cast_mul cast_mod)

/-! ### Model -/

/-- logup.cc L48-62: the helper entry for one looked-up value. -/
def helperA (zeta m a : Int) : Option Int :=
  let d := subMod zeta a m
  if d = 0 then none else invertMod d m

/-- logup.cc L76-103: the helper and the quotient entry for one table value `b` with multiplicity `mu`. -/
def helperB (zeta m : Int) (bm : Int × Int) : Option (Int × Int) :=
  if bm.2 = 0 then some (0, 0) else
  let d := subMod zeta bm.1 m
  if d = 0 then none else
  (invertMod d m).map fun inv =>
    let h := mulMod bm.2 inv m
    (h, subMod (mulMod h d m) bm.2 m)

/-- The draws of one run: the challenge and the tapes of the four sub-protocols. -/
structure LogUpDraws where
  zeta : Int
  tapeHA : List Int
  tapeHB : List Int
  eqQA : List Int
  tapeQA : List Int
  eqQB : List Int
  tapeQB : List Int

/-- logup.cc L124-137 `Verify`, after `Setup` has produced the four tables. -/
def logUpVerify (hA qA hB qB : List Int) (m : Int) (d : LogUpDraws) : Option Bool := do
  let sumA := sumOver hA m
  let sumB := sumOver hB m
  if sumA ≠ sumB then return false
  let pHA ← mkPoly hA
  let pHB ← mkPoly hB
  let pQA ← mkPoly qA
  let pQB ← mkPoly qB
  let r1 ← runSumcheck pHA sumA m d.tapeHA
  if r1 = false then return false
  let r2 ← runSumcheck pHB sumB m d.tapeHB
  if r2 = false then return false
  let r3 ← runZeroCheck pQA m d.eqQA d.tapeQA
  if r3 = false then return false
  runZeroCheck pQB m d.eqQB d.tapeQB

/-- logup.cc L22-32, L34-106 `Setup` and L139-151 `RunLogUpProtocol`.  `1 << num_vars` on an int is undefined
from 31 on. -/
def runLogUp (fA fB mB : List Int) (m : Int) (d : LogUpDraws) : Option Bool := do
  let pA ← mkPoly fA
  let pB ← mkPoly fB
  let pM ← mkPoly mB
  if pB.numVars ≠ pM.numVars then none
  if pA.numVars ≥ 31 ∨ pB.numVars ≥ 31 then none
  let hA ← fA.mapM (helperA d.zeta m)
  let hqB ← (fB.zip mB).mapM (helperB d.zeta m)
  logUpVerify hA (fA.map fun _ => (0 : Int)) (hqB.map Prod.fst) (hqB.map Prod.snd) m d

/-! ### Specification -/

/-- How often the value `v` is looked up. -/
def lookups (p : ℕ) (fA : List Int) (v : ZMod p) : ℕ := fA.countP fun a : Int => decide ((a : ZMod p) = v)

/-- The multiplicity the table declares for the value `v`. -/
def declared (p : ℕ) (fB mB : List Int) (v : ZMod p) : ZMod p :=
  ((fB.zip mB).map fun bm : Int × Int => if (bm.1 : ZMod p) = v then (bm.2 : ZMod p) else 0).sum

/-- The tapes have the lengths the protocol draws. -/
def DrawsOk (d : LogUpDraws) (a b p : ℕ) : Prop :=
  (0 ≤ d.zeta ∧ d.zeta < p) ∧ d.tapeHA.length = a ∧ d.eqQA.length = a ∧ d.tapeQA.length = a ∧
    d.tapeHB.length = b ∧ d.eqQB.length = b ∧ d.tapeQB.length = b

/-! ### Lemmas -/

theorem sumOver_mod (m : Int) (l : List Int) (s : Int) (hs : s % m = s) :
    l.foldl (fun s v => addMod s v m) s = (s + l.sum) % m := by
  induction l generalizing s with
  | nil => simp [hs]
  | cons a l ih =>
    rw [List.foldl_cons, ih _ (by unfold addMod; rw [Int.emod_emod_of_dvd _ (dvd_refl _)]), List.sum_cons]
    unfold addMod
    rw [Int.emod_add_emod, add_assoc]

theorem sumOver_eq (m : Int) (l : List Int) : sumOver l m = l.sum % m := by
  unfold sumOver
  rw [sumOver_mod m l 0 (by simp)]
  simp

section
variable {p : ℕ} [Fact p.Prime]

theorem helperA_cases (zeta a : Int) :
    ((a : ZMod p) = zeta ∧ helperA zeta p a = none) ∨
    ((a : ZMod p) ≠ zeta ∧ ∃ h, helperA zeta p a = some h ∧ h % (p : Int) = h ∧ (h : ZMod p) = ((zeta : ZMod p) - a)⁻¹) := by
  unfold helperA
  simp only
  rcases invertMod_cases (p := p) (subMod zeta a p) with ⟨h0, hn⟩ | ⟨h0, b, hb, hbi⟩
  · left
    rw [cast_sub, sub_eq_zero] at h0
    refine ⟨h0.symm, ?_⟩
    split
    · rfl
    · exact hn
  · right
    rw [if_neg (by intro h; rw [h] at h0; simp at h0)]
    refine ⟨by intro h; apply h0; rw [cast_sub, h, sub_self], b, hb, ?_, by rw [hbi, cast_sub]⟩
    have hp : 0 < p := (Fact.out : p.Prime).pos
    unfold invertMod at hb
    split at hb
    · cases hb; exact Int.emod_emod_of_dvd _ (dvd_refl _)
    · cases hb

theorem helperB_cases (zeta : Int) (bm : Int × Int) :
    (bm.2 ≠ 0 ∧ (bm.1 : ZMod p) = zeta ∧ helperB zeta p bm = none) ∨
    ((bm.2 = 0 ∨ (bm.1 : ZMod p) ≠ zeta) ∧ ∃ h q, helperB zeta p bm = some (h, q) ∧ h % (p : Int) = h ∧ (p : Int) ∣ q ∧
      (h : ZMod p) = (bm.2 : ZMod p) * ((zeta : ZMod p) - bm.1)⁻¹) := by
  unfold helperB
  by_cases hz : bm.2 = 0
  · right
    rw [if_pos hz]
    exact ⟨Or.inl hz, 0, 0, rfl, by simp, dvd_zero _, by simp [hz]⟩
  · rw [if_neg hz]
    simp only
    rcases invertMod_cases (p := p) (subMod zeta bm.1 p) with ⟨h0, hn⟩ | ⟨h0, b, hb, hbi⟩
    · left
      rw [cast_sub, sub_eq_zero] at h0
      refine ⟨hz, h0.symm, ?_⟩
      split
      · rfl
      · rw [hn]; rfl
    · right
      rw [if_neg (by intro h; rw [h] at h0; simp at h0), hb]
      refine ⟨Or.inr (by intro h; apply h0; rw [cast_sub, h, sub_self]), _, _, rfl, ?_, ?_, ?_⟩
      · unfold mulMod; rw [Int.emod_emod_of_dvd _ (dvd_refl _)]
      · rw [← ZMod.intCast_zmod_eq_zero_iff_dvd, cast_sub, cast_mul, cast_mul, hbi]
        rw [mul_assoc, inv_mul_cancel₀ h0]
        ring
      · rw [cast_mul, hbi, cast_sub]

theorem mapM_helperA (zeta : Int) (l : List Int) :
    ((∃ a ∈ l, (a : ZMod p) = zeta) ∧ l.mapM (helperA zeta p) = none) ∨
    ((∀ a ∈ l, (a : ZMod p) ≠ zeta) ∧ ∃ hs, l.mapM (helperA zeta p) = some hs ∧ hs.length = l.length ∧
      ((hs.sum : Int) : ZMod p) = (l.map fun a : Int => ((zeta : ZMod p) - a)⁻¹).sum ∧ ∀ h ∈ hs, h % (p : Int) = h) := by
  induction l with
  | nil => right; exact ⟨by simp, [], rfl, rfl, by simp, by simp⟩
  | cons a l ih =>
    rw [List.mapM_cons]
    rcases helperA_cases (p := p) zeta a with ⟨h1, h2⟩ | ⟨h1, h, h2, h3, h4⟩
    · left
      exact ⟨⟨a, by simp, h1⟩, by simp [h2]⟩
    · rcases ih with ⟨⟨x, hx, hxz⟩, hn⟩ | ⟨hall, hs, he, hl, hsum, hred⟩
      · left
        exact ⟨⟨x, by simp [hx], hxz⟩, by simp [h2, hn]⟩
      · right
        refine ⟨?_, h :: hs, by simp [h2, he], by simp [hl], ?_, ?_⟩
        · intro x hx
          rcases List.mem_cons.1 hx with rfl | hx
          · exact h1
          · exact hall x hx
        · rw [List.sum_cons, List.map_cons, List.sum_cons, ← hsum, ← h4]; push_cast; rfl
        · intro x hx
          rcases List.mem_cons.1 hx with rfl | hx
          · exact h3
          · exact hred x hx

theorem mapM_helperB (zeta : Int) (l : List (Int × Int)) :
    ((∃ bm ∈ l, bm.2 ≠ 0 ∧ (bm.1 : ZMod p) = zeta) ∧ l.mapM (helperB zeta p) = none) ∨
    ((∀ bm ∈ l, bm.2 = 0 ∨ (bm.1 : ZMod p) ≠ zeta) ∧ ∃ hs, l.mapM (helperB zeta p) = some hs ∧ hs.length = l.length ∧
      (((hs.map Prod.fst).sum : Int) : ZMod p) = (l.map fun bm : Int × Int => (bm.2 : ZMod p) * ((zeta : ZMod p) - bm.1)⁻¹).sum ∧
      (∀ h ∈ hs, h.1 % (p : Int) = h.1) ∧ ∀ h ∈ hs, (p : Int) ∣ h.2) := by
  induction l with
  | nil => right; exact ⟨by simp, [], rfl, rfl, by simp, by simp, by simp⟩
  | cons a l ih =>
    rw [List.mapM_cons]
    rcases helperB_cases (p := p) zeta a with ⟨h0, h1, h2⟩ | ⟨h1, h, q, h2, h3, hq, h4⟩
    · left
      exact ⟨⟨a, by simp, h0, h1⟩, by simp [h2]⟩
    · rcases ih with ⟨⟨x, hx, hxz⟩, hn⟩ | ⟨hall, hs, he, hl, hsum, hred, hdv⟩
      · left
        exact ⟨⟨x, by simp [hx], hxz⟩, by simp [h2, hn]⟩
      · right
        refine ⟨?_, (h, q) :: hs, by simp [h2, he], by simp [hl], ?_, ?_, ?_⟩
        · intro x hx
          rcases List.mem_cons.1 hx with rfl | hx
          · exact h1
          · exact hall x hx
        · rw [List.map_cons, List.sum_cons, List.map_cons, List.sum_cons, ← hsum, ← h4]; push_cast; rfl
        · intro x hx
          rcases List.mem_cons.1 hx with rfl | hx
          · exact h3
          · exact hred x hx
        · intro x hx
          rcases List.mem_cons.1 hx with rfl | hx
          · exact hq
          · exact hdv x hx

/-- Honest sumcheck on a reduced table is accepted. -/
theorem sumcheck_ok (l : List Int) (k : ℕ) (hl : l.length = 2 ^ k) (hred : ∀ h ∈ l, h % (p : Int) = h)
    (tape : List Int) (ht : tape.length = k) : runSumcheck ⟨l, k⟩ (sumOver l p) p tape = some true := by
  have hp : 0 < p := (Fact.out : p.Prime).pos
  have hmk := mkPoly_pow l k hl
  by_cases hk : 0 < k
  · rw [C50_sumcheck p hp l _ hmk hk _ tape ht, sumOver_eq]
    simp
  · have h0 : k = 0 := by omega
    subst h0
    obtain ⟨x, rfl⟩ := List.length_eq_one_iff.1 (by simpa using hl)
    obtain ⟨P, hP, hr⟩ := C50_constant p x (sumOver [x] p) tape
    rw [hmk] at hP
    cases hP
    rw [hr, sumOver_eq]
    simp [hred x (by simp)]

/-- C84, the outcome.  For every prime modulus, all lists of looked-up values, table values and multiplicities
whose lengths are `2 ^ a`, `2 ^ b`, `2 ^ b` and every draw: the run throws exactly when the challenge hits a
looked-up value, or a table value of non-zero multiplicity; otherwise it accepts exactly when the two fractional
sums agree. -/
theorem C84_iff (fA fB mB : List Int) (a b : ℕ) (ha : fA.length = 2 ^ a) (hb : fB.length = 2 ^ b)
    (hm : mB.length = 2 ^ b) (ha31 : a < 31) (hb31 : b < 31) (d : LogUpDraws) (hd : DrawsOk d a b p) :
    (((∃ x ∈ fA, (x : ZMod p) = d.zeta) ∨ ∃ bm ∈ fB.zip mB, bm.2 ≠ 0 ∧ (bm.1 : ZMod p) = d.zeta) →
      runLogUp fA fB mB p d = none) ∧
    (¬ ((∃ x ∈ fA, (x : ZMod p) = d.zeta) ∨ ∃ bm ∈ fB.zip mB, bm.2 ≠ 0 ∧ (bm.1 : ZMod p) = d.zeta) →
      runLogUp fA fB mB p d = some (decide ((fA.map fun x : Int => ((d.zeta : ZMod p) - x)⁻¹).sum =
        ((fB.zip mB).map fun bm : Int × Int => (bm.2 : ZMod p) * ((d.zeta : ZMod p) - bm.1)⁻¹).sum))) := by
  have hp : 0 < p := (Fact.out : p.Prime).pos
  obtain ⟨hz, h1, h2, h3, h4, h5, h6⟩ := hd
  unfold runLogUp
  rw [mkPoly_pow fA a ha, mkPoly_pow fB b hb, mkPoly_pow mB b hm]
  simp only [Option.bind_eq_bind, Option.bind_some, ne_eq, not_true_eq_false, if_false, ge_iff_le]
  rw [if_neg (by omega)]
  rcases mapM_helperA (p := p) d.zeta fA with ⟨hx, hn⟩ | ⟨hA, hs, he, hl, hsum, hred⟩
  · exact ⟨fun _ => by rw [hn]; rfl, fun h => absurd (Or.inl hx) h⟩
  · rcases mapM_helperB (p := p) d.zeta (fB.zip mB) with ⟨hx, hn⟩ | ⟨hB, hq, he2, hl2, hsum2, hred2, hdv⟩
    · exact ⟨fun _ => by rw [he, hn]; rfl, fun h => absurd (Or.inr hx) h⟩
    · refine ⟨fun h => ?_, fun _ => ?_⟩
      · rcases h with ⟨x, hx, hxz⟩ | ⟨x, hx, hx0, hxz⟩
        · exact absurd hxz (hA x hx)
        · rcases hB x hx with h | h
          · exact absurd h hx0
          · exact absurd hxz h
      · rw [he, he2]
        simp only [Option.bind_some]
        have hlz : (fB.zip mB).length = 2 ^ b := by simp [hb, hm]
        unfold logUpVerify
        have hiff : (sumOver hs p = sumOver (hq.map Prod.fst) p) ↔ ((fA.map fun x : Int => ((d.zeta : ZMod p) - x)⁻¹).sum =
            ((fB.zip mB).map fun bm : Int × Int => (bm.2 : ZMod p) * ((d.zeta : ZMod p) - bm.1)⁻¹).sum) := by
          rw [sumOver_eq, sumOver_eq, ← hsum, ← hsum2, ZMod.intCast_eq_intCast_iff]
          rfl
        simp only
        by_cases heq : sumOver hs p = sumOver (hq.map Prod.fst) p
        · rw [if_neg (by simpa using heq), decide_eq_true (hiff.1 heq)]
          have e3 : runZeroCheck ⟨fA.map fun _ => (0 : Int), a⟩ p d.eqQA d.tapeQA = some true :=
            C51_zero_complete p hp (fA.map fun _ => (0 : Int)) ⟨_, a⟩ (mkPoly_pow _ a (by simpa using ha)) (by simp; omega)
              (by intro x hx; obtain ⟨_, _, rfl⟩ := List.mem_map.1 hx; exact dvd_zero _) _ _ h2 h3
          have e4 : runZeroCheck ⟨hq.map Prod.snd, b⟩ p d.eqQB d.tapeQB = some true :=
            C51_zero_complete p hp (hq.map Prod.snd) ⟨_, b⟩ (mkPoly_pow _ b (by simp [hl2, hlz])) (by simp; omega)
              (by intro x hx; obtain ⟨y, hy, rfl⟩ := List.mem_map.1 hx; exact hdv y hy) _ _ h5 h6
          have e1 : runSumcheck ⟨hs, a⟩ (sumOver hs p) p d.tapeHA = some true :=
            sumcheck_ok hs a (by rw [hl, ha]) hred _ h1
          have e2 : runSumcheck ⟨hq.map Prod.fst, b⟩ (sumOver (hq.map Prod.fst) p) p d.tapeHB = some true :=
            sumcheck_ok _ b (by simp [hl2, hlz]) (by intro x hx; obtain ⟨y, hy, rfl⟩ := List.mem_map.1 hx; exact hred2 y hy) _ h4
          rw [mkPoly_pow hs a (by rw [hl, ha]), mkPoly_pow (hq.map Prod.fst) b (by simp [hl2, hlz]),
            mkPoly_pow (fA.map fun _ => (0 : Int)) a (by simpa using ha), mkPoly_pow (hq.map Prod.snd) b (by simp [hl2, hlz])]
          simp only [Option.bind_eq_bind, Option.bind_some, e1, e2, e3, e4]
          simp
        · rw [if_pos heq, decide_eq_false (fun h => heq (hiff.2 h))]
          rfl

theorem sum_lookups (fA : List Int) (g : ZMod p → ZMod p) :
    (fA.map fun x : Int => g x).sum = ∑ v : ZMod p, (lookups p fA v : ZMod p) * g v := by
  unfold lookups
  induction fA with
  | nil => simp
  | cons a l ih =>
    simp only [List.map_cons, List.sum_cons, List.countP_cons, ih, decide_eq_true_iff]
    push_cast
    simp only [add_mul, Finset.sum_add_distrib, ite_mul, one_mul, zero_mul]
    rw [Finset.sum_ite_eq]
    simp [add_comm]

theorem sum_declared (l : List (Int × Int)) (g : ZMod p → ZMod p) :
    (l.map fun bm : Int × Int => (bm.2 : ZMod p) * g bm.1).sum =
      ∑ v : ZMod p, (l.map fun bm : Int × Int => if (bm.1 : ZMod p) = v then (bm.2 : ZMod p) else 0).sum * g v := by
  induction l with
  | nil => simp
  | cons a l ih =>
    simp only [List.map_cons, List.sum_cons, ih, add_mul, Finset.sum_add_distrib, ite_mul, zero_mul]
    rw [Finset.sum_ite_eq]
    simp

theorem sums_eq (fA fB mB : List Int) (zeta : ZMod p) :
    ((fA.map fun x : Int => (zeta - x)⁻¹).sum = ((fB.zip mB).map fun bm : Int × Int => (bm.2 : ZMod p) * (zeta - bm.1)⁻¹).sum) ↔
      ∑ v : ZMod p, ((lookups p fA v : ZMod p) - declared p fB mB v) * (zeta - v)⁻¹ = 0 := by
  rw [sum_lookups fA (fun v => (zeta - v)⁻¹), sum_declared (fB.zip mB) (fun v => (zeta - v)⁻¹)]
  simp only [sub_mul, Finset.sum_sub_distrib]
  exact sub_eq_zero.symm

/-- C84, completeness: if the table declares, for every value, as many lookups as there are (modulo the prime),
no draw makes the run reject. -/
theorem C84_complete (fA fB mB : List Int) (a b : ℕ) (ha : fA.length = 2 ^ a) (hb : fB.length = 2 ^ b)
    (hm : mB.length = 2 ^ b) (ha31 : a < 31) (hb31 : b < 31) (d : LogUpDraws) (hd : DrawsOk d a b p)
    (hvalid : ∀ v, (lookups p fA v : ZMod p) = declared p fB mB v) : runLogUp fA fB mB p d ≠ some false := by
  obtain ⟨h1, h2⟩ := C84_iff fA fB mB a b ha hb hm ha31 hb31 d hd
  by_cases hc : (∃ x ∈ fA, (x : ZMod p) = d.zeta) ∨ ∃ bm ∈ fB.zip mB, bm.2 ≠ 0 ∧ (bm.1 : ZMod p) = d.zeta
  · rw [h1 hc]; simp
  · rw [h2 hc, decide_eq_true ((sums_eq fA fB mB _).2 (by simp [hvalid]))]
    simp

theorem declared_zero (l : List (Int × Int)) (v : ZMod p) (h : ∀ bm ∈ l, (bm.1 : ZMod p) = v → bm.2 = 0) :
    (l.map fun bm : Int × Int => if (bm.1 : ZMod p) = v then (bm.2 : ZMod p) else 0).sum = 0 := by
  induction l with
  | nil => simp
  | cons a l ih =>
    rw [List.map_cons, List.sum_cons, ih fun bm hbm => h bm (by simp [hbm]), add_zero]
    split
    · rename_i h'; rw [h a (by simp) h']; simp
    · rfl

/-- A combination of distinct simple poles has few zeros. -/
theorem poles_zeros (c : ZMod p → ZMod p) (v0 : ZMod p) (hv0 : c v0 ≠ 0) :
    (Finset.univ.filter fun z : ZMod p => c z = 0 ∧ ∑ v : ZMod p, c v * (z - v)⁻¹ = 0).card <
      (Finset.univ.filter fun v : ZMod p => c v ≠ 0).card := by
  classical
  set S := Finset.univ.filter fun v : ZMod p => c v ≠ 0 with hS
  let q : Polynomial (ZMod p) := ∑ v ∈ S, Polynomial.C (c v) * ∏ w ∈ S.erase v, (Polynomial.X - Polynomial.C w)
  have hev : ∀ z, q.eval z = ∑ v ∈ S, c v * ∏ w ∈ S.erase v, (z - w) := by
    intro z
    simp [q, Polynomial.eval_finsetSum, Polynomial.eval_prod]
  have hv0S : v0 ∈ S := by simp [hS, hv0]
  have hq : q ≠ 0 := by
    intro h0
    have h := hev v0
    rw [h0, Polynomial.eval_zero, Finset.sum_eq_single v0] at h
    · have hne : (∏ w ∈ S.erase v0, (v0 - w)) ≠ 0 := by
        rw [Finset.prod_ne_zero_iff]
        intro w hw
        exact sub_ne_zero.2 (Ne.symm (Finset.ne_of_mem_erase hw))
      exact (mul_ne_zero hv0 hne) h.symm
    · intro b hb hbne
      rw [Finset.prod_eq_zero (i := v0) (Finset.mem_erase.2 ⟨Ne.symm hbne, hv0S⟩) (sub_self _), mul_zero]
    · intro h; exact absurd hv0S h
  have hdeg : q.natDegree < S.card := by
    rw [Polynomial.natDegree_lt_iff_degree_lt hq]
    refine (Polynomial.degree_sum_le _ _).trans_lt ?_
    rw [Finset.sup_lt_iff (by exact WithBot.bot_lt_coe _)]
    intro v hv
    refine lt_of_le_of_lt (b := ((S.card - 1 : ℕ) : WithBot ℕ)) ?_ ?_
    · rw [Polynomial.degree_mul]
      refine (add_le_add Polynomial.degree_C_le (le_refl _)).trans ?_
      rw [zero_add, Polynomial.degree_prod]
      simp [Polynomial.degree_X_sub_C, Finset.card_erase_of_mem hv]
    · have : 0 < S.card := Finset.card_pos.2 ⟨v, hv⟩
      exact_mod_cast Nat.sub_lt this one_pos
  refine lt_of_le_of_lt ?_ hdeg
  refine le_trans (Finset.card_le_card ?_) ((Multiset.toFinset_card_le _).trans (Polynomial.card_roots' q))
  intro z hz
  simp only [Finset.mem_filter, Finset.mem_univ, true_and] at hz
  rw [Multiset.mem_toFinset, Polynomial.mem_roots hq, Polynomial.IsRoot, hev]
  have hzS : z ∉ S := by simp [hS, hz.1]
  have hsum : ∑ v ∈ S, c v * (z - v)⁻¹ = 0 := by
    rw [← hz.2]
    apply Finset.sum_subset (Finset.subset_univ S)
    intro v _ hv
    have : c v = 0 := by simpa [hS] using hv
    rw [this, zero_mul]
  have : ∑ v ∈ S, c v * ∏ w ∈ S.erase v, (z - w) = (∏ w ∈ S, (z - w)) * ∑ v ∈ S, c v * (z - v)⁻¹ := by
    rw [Finset.mul_sum]
    apply Finset.sum_congr rfl
    intro v hv
    rw [← Finset.mul_prod_erase S _ hv]
    have : z - v ≠ 0 := sub_ne_zero.2 (by rintro rfl; exact hzS hv)
    field_simp
  rw [this, hsum, mul_zero]

theorem support_card (fA : List Int) (l : List (Int × Int)) :
    (Finset.univ.filter fun v : ZMod p => (lookups p fA v : ZMod p) -
      (l.map fun bm : Int × Int => if (bm.1 : ZMod p) = v then (bm.2 : ZMod p) else 0).sum ≠ 0).card ≤ fA.length + l.length := by
  classical
  refine (Finset.card_le_card (t := (fA.map fun x : Int => (x : ZMod p)).toFinset ∪
    (l.map fun bm : Int × Int => (bm.1 : ZMod p)).toFinset) ?_).trans ?_
  · intro v hv
    simp only [Finset.mem_filter, Finset.mem_univ, true_and] at hv
    rw [Finset.mem_union, List.mem_toFinset, List.mem_toFinset]
    by_contra hcon
    rw [not_or] at hcon
    apply hv
    rw [declared_zero l v (by
      intro bm hbm he
      exact absurd (List.mem_map.2 ⟨bm, hbm, he⟩) hcon.2), sub_zero]
    have : lookups p fA v = 0 := by
      unfold lookups
      rw [List.countP_eq_zero]
      intro x hx
      simp only [decide_eq_true_iff]
      intro he
      exact hcon.1 (List.mem_map.2 ⟨x, hx, he⟩)
    rw [this]
    simp
  · refine (Finset.card_union_le _ _).trans (add_le_add ?_ ?_)
    · exact (List.toFinset_card_le _).trans (by simp)
    · exact (List.toFinset_card_le _).trans (by simp)

/-- C84, soundness of the argument: if for some value the table declares a wrong number of lookups (modulo the
prime), then of the `p` challenges fewer than `2 ^ a + 2 ^ b` make the run accept, whatever the other draws. -/
theorem C84_soundness (fA fB mB : List Int) (a b : ℕ) (ha : fA.length = 2 ^ a) (hb : fB.length = 2 ^ b)
    (hm : mB.length = 2 ^ b) (ha31 : a < 31) (hb31 : b < 31) (draws : Fin p → LogUpDraws)
    (hd : ∀ z, (draws z).zeta = (z.val : Int) ∧ DrawsOk (draws z) a b p)
    (hbad : ∃ v, (lookups p fA v : ZMod p) ≠ declared p fB mB v) :
    (Finset.univ.filter fun z : Fin p => runLogUp fA fB mB p (draws z) = some true).card < 2 ^ a + 2 ^ b := by
  obtain ⟨v0, hv0⟩ := hbad
  have h1 := poles_zeros (fun v : ZMod p => (lookups p fA v : ZMod p) - declared p fB mB v) v0 (sub_ne_zero.2 hv0)
  have h2 := support_card (p := p) fA (fB.zip mB)
  have hlz : (fB.zip mB).length = 2 ^ b := by simp [hb, hm]
  rw [ha, hlz] at h2
  refine lt_of_le_of_lt ?_ (lt_of_lt_of_le h1 h2)
  apply Finset.card_le_card_of_injOn (fun z : Fin p => ((z.val : Int) : ZMod p))
  · intro z hz
    simp only [Finset.coe_filter, Finset.mem_univ, true_and, Set.mem_setOf_eq] at hz ⊢
    obtain ⟨hze, hok⟩ := hd z
    obtain ⟨i1, i2⟩ := C84_iff fA fB mB a b ha hb hm ha31 hb31 (draws z) hok
    by_cases hc : (∃ x ∈ fA, (x : ZMod p) = (draws z).zeta) ∨ ∃ bm ∈ fB.zip mB, bm.2 ≠ 0 ∧ (bm.1 : ZMod p) = (draws z).zeta
    · rw [i1 hc] at hz; cases hz
    · rw [i2 hc] at hz
      simp only [Option.some.injEq, decide_eq_true_iff] at hz
      rw [sums_eq, hze] at hz
      rw [hze] at hc
      rw [not_or] at hc
      refine ⟨?_, hz⟩
      have e1 : lookups p fA ((z.val : Int) : ZMod p) = 0 := by
        unfold lookups
        rw [List.countP_eq_zero]
        intro x hx
        simp only [decide_eq_true_iff]
        intro he
        exact hc.1 ⟨x, hx, he⟩
      have e2 : declared p fB mB ((z.val : Int) : ZMod p) = 0 := by
        unfold declared
        apply declared_zero
        intro bm hbm he
        by_contra h0
        exact hc.2 ⟨bm, hbm, h0, he⟩
      rw [e1, e2]
      simp
  · intro a _ b _ h
    exact fin_cast_inj a b h

end

/-- Non-vacuity: the values 2, 3, 3, 2 looked up in the table 1, 2, 3, 4 (modulus 101). -/
example : runLogUp [2, 3, 3, 2] [1, 2, 3, 4] [0, 2, 2, 0] 101 ⟨50, [5, 6], [7, 8], [9, 1], [2, 3], [4, 5], [6, 7]⟩ = some true ∧
    runLogUp [2, 3, 3, 9] [1, 2, 3, 4] [0, 2, 2, 0] 101 ⟨50, [5, 6], [7, 8], [9, 1], [2, 3], [4, 5], [6, 7]⟩ = some false ∧
    runLogUp [2, 3, 3, 2] [1, 2, 3, 4] [0, 2, 2, 0] 101 ⟨3, [5, 6], [7, 8], [9, 1], [2, 3], [4, 5], [6, 7]⟩ = none := by
  refine ⟨?_, ?_, ?_⟩ <;> decide +kernel

example : ∀ v : ZMod 101, (lookups 101 [2, 3, 3, 2] v : ZMod 101) = declared 101 [1, 2, 3, 4] [0, 2, 2, 0] v := by
  decide +kernel

/-- What the property does not cover: multiplicities count modulo the prime, so `p` lookups of a value outside
the table pass.  (Modulus 2, the value 1 looked up twice in the table 0, 0.) -/
theorem C84_characteristic : runLogUp [1, 1] [0, 0] [0, 0] 2 ⟨0, [0], [0], [0], [0], [0], [0]⟩ = some true := by
  decide +kernel

end Yacl.Sumcheck
