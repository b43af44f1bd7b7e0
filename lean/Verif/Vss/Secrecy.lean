import Verif.Vss.Tpre
import Mathlib.Data.Set.Function
/-! Fewer shares than the threshold reveal nothing (vss.cc, keys.cc of tpre). Property C127. -/
namespace Yacl.Vss
open Polynomial

/-! ### Specification -/

/-- What `RandomLtN(p)` can draw, `n` times. -/
def Tapes (p n : ℕ) : Set (List Int) := {l | l.length = n ∧ ∀ c ∈ l, 0 ≤ c ∧ c < (p : Int)}

/-! ### Proofs -/

section
variable {p : ℕ} [Fact p.Prime]

/-- The polynomial with value `a` at 0 and 0 at the given points. -/
noncomputable def maskPoly (a : ZMod p) : List (ZMod p) → (ZMod p)[X]
  | [] => C a
  | x :: xs => maskPoly a xs * (1 - C x⁻¹ * X)

theorem maskPoly_zero (a : ZMod p) (xs : List (ZMod p)) : (maskPoly a xs).coeff 0 = a := by
  induction xs with
  | nil => simp [maskPoly]
  | cons x xs ih => simp [maskPoly, mul_coeff_zero, ih]

theorem maskPoly_eval (a : ZMod p) (xs : List (ZMod p)) (x : ZMod p) (hx : x ∈ xs) (h0 : x ≠ 0) : (maskPoly a xs).eval x = 0 := by
  induction xs with
  | nil => simp at hx
  | cons y ys ih =>
    rw [maskPoly, eval_mul]
    rcases List.mem_cons.mp hx with rfl | h
    · simp [inv_mul_cancel₀ h0]
    · rw [ih h, zero_mul]

theorem maskPoly_degree (a : ZMod p) (xs : List (ZMod p)) : (maskPoly a xs).natDegree ≤ xs.length := by
  induction xs with
  | nil => simp [maskPoly]
  | cons x xs ih =>
    rw [maskPoly, List.length_cons]
    refine natDegree_mul_le.trans (Nat.add_le_add ih ?_)
    refine (natDegree_sub_le _ _).trans ?_
    simp
    exact (natDegree_C_mul_le _ _).trans natDegree_X_le

/-- A tape with a fixed vector added. -/
def shiftTape (p n : ℕ) (d : ℕ → Int) (l : List Int) : List Int := (List.range n).map fun j => (l.getD j 0 + d j) % p

theorem shiftTape_maps (n : ℕ) (d : ℕ → Int) (l : List Int) : shiftTape p n d l ∈ Tapes p n := by
  have hp : (0 : Int) < p := by exact_mod_cast (Fact.out : p.Prime).pos
  refine ⟨by simp [shiftTape], ?_⟩
  intro c hc
  obtain ⟨j, _, rfl⟩ := List.mem_map.mp hc
  exact ⟨Int.emod_nonneg _ (by omega), Int.emod_lt_of_pos _ hp⟩

theorem shiftTape_inv (n : ℕ) (d : ℕ → Int) (l : List Int) (hl : l ∈ Tapes p n) :
    shiftTape p n (fun j => - d j) (shiftTape p n d l) = l := by
  apply List.ext_getElem
  · simp [shiftTape, hl.1]
  · intro j h1 h2
    have hj : j < n := by rw [← hl.1]; exact h2
    have hr := hl.2 _ (List.getElem_mem h2)
    have e : (shiftTape p n d l).getD j 0 = (l[j] + d j) % p := by
      rw [List.getD_eq_getElem _ _ (by simp [shiftTape, hj])]
      simp only [shiftTape, List.getElem_map, List.getElem_range, List.getD_eq_getElem _ _ h2]
    have : (shiftTape p n (fun j => - d j) (shiftTape p n d l))[j] = ((l[j] + d j) % p + - d j) % p := by
      rw [← e]; simp [shiftTape]
    rw [this, Int.emod_add_emod, add_neg_cancel_right]
    exact Int.emod_eq_of_lt hr.1 hr.2

theorem shiftTape_bij (n : ℕ) (d : ℕ → Int) : Set.BijOn (shiftTape p n d) (Tapes p n) (Tapes p n) := by
  refine Set.InvOn.bijOn (f' := shiftTape p n (fun j => - d j)) ⟨fun l hl => shiftTape_inv n d l hl, fun l hl => ?_⟩
    (fun l _ => shiftTape_maps n d l) (fun l _ => shiftTape_maps n _ l)
  have := shiftTape_inv n (fun j => - d j) l hl
  simpa using this

/-- The tape that explains the same values with another constant term. -/
theorem explain (t : ℕ) (ht : 1 ≤ t) (a b : Int) (pts : List Int) (hk : pts.length < t) (hpts : ∀ x ∈ pts, ¬ (p : Int) ∣ x) :
    ∃ φ : List Int → List Int, Set.BijOn φ (Tapes p (t - 1)) (Tapes p (t - 1)) ∧
      ∀ l ∈ Tapes p (t - 1), ∀ x ∈ pts, ((polyVal (b :: φ l) x : Int) : ZMod p) = (polyVal (a :: l) x : Int) := by
  set Q := maskPoly (((b - a : Int)) : ZMod p) (pts.map fun x : Int => (x : ZMod p)) with hQ
  refine ⟨shiftTape p (t - 1) (fun j => ((Q.coeff (j + 1)).val : Int)), shiftTape_bij _ _, ?_⟩
  intro l hl x hx
  have hlen : (shiftTape p (t - 1) (fun j => ((Q.coeff (j + 1)).val : Int)) l).length = t - 1 := by simp [shiftTape]
  have hx0 : (x : ZMod p) ≠ 0 := by
    intro h; exact hpts x hx ((ZMod.intCast_zmod_eq_zero_iff_dvd _ _).mp h)
  have hev : Q.eval (x : ZMod p) = 0 := maskPoly_eval _ _ _ (List.mem_map.mpr ⟨x, hx, rfl⟩) hx0
  have hdeg : Q.natDegree < t := by
    refine lt_of_le_of_lt (maskPoly_degree _ _) ?_
    simpa using hk
  rw [eval_eq_sum_range' hdeg] at hev
  have key : ∀ i ∈ Finset.range t, (((b :: shiftTape p (t - 1) (fun j => ((Q.coeff (j + 1)).val : Int)) l).getD i 0 : Int) : ZMod p) =
      (((a :: l).getD i 0 : Int) : ZMod p) + Q.coeff i := by
    intro i hi
    have hi := Finset.mem_range.mp hi
    cases i with
    | zero => rw [maskPoly_zero]; push_cast [List.getD_cons_zero]; ring
    | succ j =>
      have hj : j < t - 1 := by omega
      rw [List.getD_cons_succ, List.getD_cons_succ, List.getD_eq_getElem _ _ (by rw [hlen]; exact hj)]
      simp only [shiftTape, List.getElem_map, List.getElem_range]
      rw [ZMod.intCast_mod]
      push_cast
      rw [ZMod.natCast_zmod_val]
  unfold polyVal
  rw [List.length_cons, List.length_cons, hlen, hl.1]
  have et : t - 1 + 1 = t := by omega
  rw [et]
  push_cast
  rw [Finset.sum_congr rfl (fun i hi => by rw [key i hi])]
  rw [Finset.sum_congr rfl (fun i _ => add_mul _ _ _), Finset.sum_add_distrib, hev, add_zero]

end

theorem horner_reduced (x : Int) (p : ℕ) (tmp : Int) (cs : List Int) (h : cs ≠ []) : horner x p tmp cs % p = horner x p tmp cs := by
  induction cs generalizing tmp with
  | nil => exact absurd rfl h
  | cons c cs ih =>
    rw [horner]
    cases cs with
    | nil => simp [horner, addMod]
    | cons c' cs' => exact ih _ (by simp)

theorem evaluate_reduced (cs : List Int) (x y : Int) (p : ℕ) (h2 : 2 ≤ cs.length) (h : evaluatePolynomial cs p x = some y) :
    y % p = y := by
  unfold evaluatePolynomial at h
  split at h
  · cases h
  · cases hr : cs.reverse with
    | nil => rw [hr] at h; cases h
    | cons top low =>
      rw [hr] at h
      cases h
      apply horner_reduced
      rintro rfl
      have := congrArg List.length hr
      simp at this
      omega

/-- The share at position `i`. -/
theorem share_at {v : Vss} {secret : Int} {rnd xs coeffs : List Int} {shares : List Share}
    (h : createShare v secret rnd xs = some (coeffs, shares)) (i : ℕ) (hi : i < xs.length) :
    ∃ y, evaluatePolynomial (secret :: rnd) v.prime xs[i] = some y ∧ shares[i]? = some ⟨xs[i], y⟩ := by
  obtain ⟨rfl, -, -, hm⟩ := createShare_some h
  clear h
  induction xs generalizing i shares with
  | nil => simp at hi
  | cons x xs ih =>
    rw [List.mapM_cons] at hm
    cases he : evaluatePolynomial (secret :: rnd) v.prime x with
    | none => rw [he] at hm; cases hm
    | some y =>
      rw [he] at hm
      simp only [Option.map_some, Option.bind_eq_bind, Option.bind_some] at hm
      cases hr : xs.mapM fun x => (evaluatePolynomial (secret :: rnd) v.prime x).map fun y => (⟨x, y⟩ : Share) with
      | none => rw [hr] at hm; cases hm
      | some l =>
        rw [hr] at hm
        cases hm
        cases i with
        | zero => exact ⟨y, he, rfl⟩
        | succ i =>
          obtain ⟨y', a, b⟩ := ih i (by simpa using hi) hr
          exact ⟨y', a, b⟩

/-- **C127** Fewer shares than the threshold reveal nothing. Fix the prime, the points, and any set `I` of positions, fewer than
the threshold, none of whose points is 0 modulo the prime. For any two secrets there is a one-to-one correspondence between the
random draws with the one and with the other secret, under which all the shares at the positions `I` are the same. So, the draws
being uniform, these shares have the same distribution whatever the secret is. The full statement would not exclude the point 0: see
`C127_zero_point_violated`. -/
theorem C127_vss_hides_partial (p : ℕ) (hp : p.Prime) (total t : ℕ) (h1 : 1 ≤ t) (h2 : t ≤ total) (h3 : t < 2 ^ 31) (xs : List Int)
    (hxs : xs.length = total) (I : List ℕ) (hI : I.length < t) (hpt : ∀ i ∈ I, i < total ∧ ¬ (p : Int) ∣ xs.getD i 0)
    (secret secret' : Int) :
    ∃ φ : List Int → List Int, Set.BijOn φ (Tapes p (t - 1)) (Tapes p (t - 1)) ∧
      ∀ rnd ∈ Tapes p (t - 1), ∃ c sh c' sh', createShare ⟨total, t, p⟩ secret rnd xs = some (c, sh) ∧
        createShare ⟨total, t, p⟩ secret' (φ rnd) xs = some (c', sh') ∧ ∀ i ∈ I, ∃ s, sh[i]? = some s ∧ sh'[i]? = some s := by
  have : Fact p.Prime := ⟨hp⟩
  obtain ⟨φ, hb, hv⟩ := explain t h1 secret secret' (I.map fun i => xs.getD i 0) (by simpa using hI)
    (fun x hx => by obtain ⟨i, hi, rfl⟩ := List.mem_map.mp hx; exact (hpt i hi).2)
  refine ⟨φ, hb, fun rnd hr => ?_⟩
  have hr' := hb.mapsTo hr
  have ex : ∀ s r, r ∈ Tapes p (t - 1) → ∃ c sh, createShare ⟨total, t, p⟩ s r xs = some (c, sh) := by
    intro s r h
    obtain ⟨v, c, sh, hv, hc, _⟩ := C48_share p total t s r xs h1 h2 h3 h.1 hxs
    unfold mkVss at hv
    rw [if_pos h2] at hv
    cases hv
    exact ⟨c, sh, hc⟩
  obtain ⟨c, sh, hc⟩ := ex secret rnd hr
  obtain ⟨c', sh', hc'⟩ := ex secret' (φ rnd) hr'
  refine ⟨c, sh, c', sh', hc, hc', fun i hi => ?_⟩
  have hit : i < xs.length := by rw [hxs]; exact (hpt i hi).1
  obtain ⟨y, ey, hy⟩ := share_at hc i hit
  obtain ⟨y', ey', hy'⟩ := share_at hc' i hit
  have ht2 : 2 ≤ t := by
    have : 0 < I.length := List.length_pos_of_mem hi
    omega
  have l1 : (secret :: rnd).length = t := by rw [List.length_cons, hr.1]; omega
  have l2 : (secret' :: φ rnd).length = t := by rw [List.length_cons, hr'.1]; omega
  obtain ⟨z, ez, hz⟩ := evaluate_cast (p := p) (secret :: rnd) xs[i] (by simp) (by omega)
  obtain ⟨z', ez', hz'⟩ := evaluate_cast (p := p) (secret' :: φ rnd) xs[i] (by simp) (by omega)
  have e1 : z = y := by have : some z = some y := ez.symm.trans ey; exact Option.some.inj this
  have e2 : z' = y' := by have : some z' = some y' := ez'.symm.trans ey'; exact Option.some.inj this
  subst e1 e2
  have hq := hv rnd hr xs[i] (List.mem_map.mpr ⟨i, hi, List.getD_eq_getElem _ _ hit⟩)
  have : (z : ZMod p) = z' := by rw [hz, hz', hq]
  have hm := (ZMod.intCast_eq_intCast_iff' _ _ _).mp this
  rw [evaluate_reduced _ _ _ p (by omega) ez, evaluate_reduced _ _ _ p (by omega) ez'] at hm
  subst hm
  exact ⟨_, hy, hy'⟩

/-- The share at the point 0 is the secret. -/
theorem share_zero (p : ℕ) (total t : ℕ) (secret : Int) (rnd xs c : List Int) (sh : List Share)
    (h : createShare ⟨total, t, p⟩ secret rnd xs = some (c, sh)) (ht : 2 ≤ t) (hs : 0 ≤ secret ∧ secret < p) (i : ℕ) (hi : xs[i]? = some 0) :
    sh[i]? = some ⟨0, secret⟩ := by
  have hit : i < xs.length := (List.getElem?_eq_some_iff.mp hi).1
  have hxi : xs[i] = 0 := (List.getElem?_eq_some_iff.mp hi).2
  obtain ⟨y, ey, hy⟩ := share_at h i hit
  obtain ⟨_, hl, _, _⟩ := createShare_some h
  have hl' : rnd.length + 1 = t := hl
  rw [hxi] at ey hy
  rw [hy]
  have he : y % p = y := evaluate_reduced _ _ _ p (by simp; omega) ey
  have hlt : ¬ (secret :: rnd).length ≥ 2 ^ 31 := by
    intro hc; unfold evaluatePolynomial at ey; rw [if_pos hc] at ey; cases ey
  obtain ⟨z, ez, hz⟩ := evaluate_cast (p := p) (secret :: rnd) 0 (by simp) (by omega)
  have : some z = some y := ez.symm.trans ey
  cases this
  rw [polyVal_zero] at hz
  have := (ZMod.intCast_eq_intCast_iff' _ _ _).mp hz
  rw [he, Int.emod_eq_of_lt hs.1 hs.2] at this
  rw [this]

/-- **C127 violated** The points are drawn below the prime, so 0 can be drawn. Then one share is the secret itself, for every
threshold from 2 on, every secret and all random coefficients. -/
theorem C127_zero_point_violated (p : ℕ) (hp : p.Prime) (total t : ℕ) (h1 : 2 ≤ t) (h2 : t ≤ total) (h3 : t < 2 ^ 31) (secret : Int)
    (hs : 0 ≤ secret ∧ secret < p) :
    ∃ xs ∈ Tapes p total, ∀ rnd ∈ Tapes p (t - 1), ∃ c sh, createShare ⟨total, t, p⟩ secret rnd xs = some (c, sh) ∧
      sh[0]? = some ⟨0, secret⟩ := by
  have h0 := hp.two_le
  refine ⟨0 :: List.replicate (total - 1) 1, ⟨by simp; omega, ?_⟩, fun rnd hr => ?_⟩
  · intro c hc
    rcases List.mem_cons.mp hc with rfl | h
    · omega
    · rw [(List.mem_replicate.mp h).2]; omega
  · obtain ⟨v, c, sh, hv, hc, _⟩ := C48_share p total t secret rnd (0 :: List.replicate (total - 1) 1) (by omega) h2 h3 hr.1 (by simp; omega)
    unfold mkVss at hv
    rw [if_pos h2] at hv
    cases hv
    exact ⟨c, sh, hc, share_zero p total t secret rnd _ c sh hc h1 hs 0 rfl⟩

/-- Two draws of a 3-of-4 sharing modulo 13 that show the holders of the first two shares the same, for the secrets 5 and 6. -/
example : (createShare ⟨4, 3, 13⟩ 5 [7, 3] [1, 2, 9, 12]).map (fun r => r.2.take 2) = some [⟨1, 2⟩, ⟨2, 5⟩] ∧
    (createShare ⟨4, 3, 13⟩ 6 [12, 10] [1, 2, 9, 12]).map (fun r => r.2.take 2) = some [⟨1, 2⟩, ⟨2, 5⟩] ∧ [7, 3] ∈ Tapes 13 2 ∧
    ∀ i ∈ [0, 1], i < 4 ∧ ¬ (13 : Int) ∣ [1, 2, 9, 12].getD i 0 := by
  refine ⟨by decide +kernel, by decide +kernel, ⟨rfl, by decide⟩, by decide⟩

end Yacl.Vss

namespace Yacl.Tpre
open Vss (Tapes explain addMod)

theorem rkAt_reduced (cs : List Int) (t : ℕ) (s : Int) (n : ℕ) (ht : 2 ≤ t) : rkAt cs t s n % n = rkAt cs t s n := by
  unfold rkAt
  obtain ⟨k, rfl⟩ : ∃ k, t = k + 2 := ⟨t - 2, by omega⟩
  rw [show k + 2 - 1 = k + 1 from rfl, List.range_succ, List.foldl_append, List.foldl_cons, List.foldl_nil]
  unfold addMod
  exact Int.emod_emod_of_dvd _ (dvd_refl _)

/-- **C127** The re-encryption keys of fewer than `t` proxies reveal nothing about the shared value `f0 = a / d` (from which, with
the public parts and the requester's key, the owner's private key could be computed): for any two values there is a one-to-one
correspondence between the random coefficients under which all these keys are the same, if none of the evaluation points (hashes of the
proxies' identities) is 0 modulo the order. -/
theorem C127_rekey_hides_partial (n : ℕ) (hn : n.Prime) (t : ℕ) (ht : 1 ≤ t) (f0 f0' : Int) (pts : List Int) (hk : pts.length < t)
    (hpts : ∀ x ∈ pts, ¬ (n : Int) ∣ x) :
    ∃ φ : List Int → List Int, Set.BijOn φ (Tapes n (t - 1)) (Tapes n (t - 1)) ∧
      ∀ fs ∈ Tapes n (t - 1), ∀ x ∈ pts, rkAt (f0 :: fs) t x n = rkAt (f0' :: φ fs) t x n := by
  have : Fact n.Prime := ⟨hn⟩
  obtain ⟨φ, hb, hv⟩ := explain t ht f0 f0' pts hk hpts
  refine ⟨φ, hb, fun fs hf x hx => ?_⟩
  have ht2 : 2 ≤ t := by
    have : 0 < pts.length := List.length_pos_of_mem hx
    omega
  have e := hv fs hf x hx
  rw [← rkAt_cast f0 fs t hf.1, ← rkAt_cast f0' (φ fs) t (hb.mapsTo hf).1] at e
  have hm := (ZMod.intCast_eq_intCast_iff' _ _ _).mp e
  rw [rkAt_reduced _ _ _ _ ht2, rkAt_reduced _ _ _ _ ht2] at hm
  exact hm.symm

end Yacl.Tpre
