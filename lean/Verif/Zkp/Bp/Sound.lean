/-
C91: soundness of the inner product argument.
-/
import Verif.Zkp.Bp.Ipa
import Mathlib.LinearAlgebra.Finsupp.LinearCombination
import Mathlib.LinearAlgebra.Prod
import Mathlib.Algebra.BigOperators.Fin

namespace Yacl.Bp

variable {F M : Type} [Field F] [AddCommGroup M] [Module F M]

/-! ### soundness: answers to four challenges per round open the commitment -/

/-- No linear relation between the generators. -/
def Independent {F M : Type} [Field F] [AddCommGroup M] [Module F M] (G H : List M) (Q : M) : Prop :=
  ∀ (x y : List F) (z : F), x.length = G.length → y.length = H.length →
    dot x G + dot y H + z • Q = 0 → (∀ c ∈ x, c = 0) ∧ (∀ c ∈ y, c = 0) ∧ z = 0

/-- A prover of `k` rounds: its `L` and `R` depend on the challenges so far, its final
    scalars on all of them. -/
structure Prover (F M : Type) where
  L : List F → M
  R : List F → M
  a : List F → F
  b : List F → F

/-- The rounds of a run of the prover. -/
def Prover.run {F M : Type} (A : Prover F M) : List F → List F → List (F × M × M)
  | _, [] => []
  | past, u :: us => (u, A.L past, A.R past) :: A.run (past ++ [u]) us

/-- Four usable challenges: non-zero with different squares. -/
def Four {F : Type} [Field F] (S : List F) : Prop :=
  S.length = 4 ∧ (∀ u ∈ S, u ≠ 0) ∧ S.Pairwise fun u v => u * u ≠ v * v


/-- The challenges allowed after some challenges, for a whole run. -/
def Allowed {F : Type} (S : List F → List F) : List F → List F → Prop
  | _, [] => True
  | past, u :: us => u ∈ S past ∧ Allowed S (past ++ [u]) us

/-! ### interpolation -/

/-- A quadratic through four points of a module is determined by three of them; if its
    values lie in the image of an injective linear map, so do its coefficients. -/
theorem quad_lift {W : Type} [AddCommGroup W] [Module F W] (φ : W →ₗ[F] M)
    (hφ : Function.Injective φ) (t1 t2 t3 t4 : F) (h12 : t1 ≠ t2) (h13 : t1 ≠ t3) (h23 : t2 ≠ t3)
    (P L R : M) (w1 w2 w3 w4 : W) (e1 : R + t1 • P + (t1 * t1) • L = φ w1)
    (e2 : R + t2 • P + (t2 * t2) • L = φ w2) (e3 : R + t3 • P + (t3 * t3) • L = φ w3)
    (e4 : R + t4 • P + (t4 * t4) • L = φ w4) :
    ∃ r p l : W, P = φ p ∧ w1 = r + t1 • p + (t1 * t1) • l ∧ w2 = r + t2 • p + (t2 * t2) • l ∧
      w3 = r + t3 • p + (t3 * t3) • l ∧ w4 = r + t4 • p + (t4 * t4) • l := by
  have d12 : t1 - t2 ≠ 0 := sub_ne_zero.2 h12
  have d13 : t1 - t3 ≠ 0 := sub_ne_zero.2 h13
  have d23 : t2 - t3 ≠ 0 := sub_ne_zero.2 h23
  -- second divided difference
  let l : W := ((t1 - t2) * (t1 - t3))⁻¹ • w1 - ((t1 - t2) * (t2 - t3))⁻¹ • w2
    + ((t1 - t3) * (t2 - t3))⁻¹ • w3
  let p : W := (t1 - t2)⁻¹ • (w1 - w2) - (t1 + t2) • l
  let r : W := w1 - t1 • p - (t1 * t1) • l
  have hl : φ l = L := by
    simp only [l, map_add, map_sub, map_smul, ← e1, ← e2, ← e3]
    match_scalars <;> field_simp <;> ring
  have hp : φ p = P := by
    simp only [p, map_add, map_sub, map_smul, ← e1, ← e2, hl]
    match_scalars <;> field_simp <;> ring
  have hr : φ r = R := by
    simp only [r, map_sub, map_smul, ← e1, hl, hp]
    abel
  have key : ∀ (t : F) (w : W), R + t • P + (t * t) • L = φ w → w = r + t • p + (t * t) • l := by
    intro t w h
    apply hφ
    rw [map_add, map_add, map_smul, map_smul, hr, hp, hl, h]
  exact ⟨r, p, l, hp.symm, key _ _ e1, key _ _ e2, key _ _ e3, key _ _ e4⟩

/-- A cubic with four roots is zero. -/
theorem cubic_zero {W : Type} [AddCommGroup W] [Module F W] (t1 t2 t3 t4 : F) (h12 : t1 ≠ t2)
    (h13 : t1 ≠ t3) (h14 : t1 ≠ t4) (h23 : t2 ≠ t3) (h24 : t2 ≠ t4) (h34 : t3 ≠ t4) (a b c d : W)
    (e1 : a + t1 • b + (t1 * t1) • c + (t1 * t1 * t1) • d = 0)
    (e2 : a + t2 • b + (t2 * t2) • c + (t2 * t2 * t2) • d = 0)
    (e3 : a + t3 • b + (t3 * t3) • c + (t3 * t3 * t3) • d = 0)
    (e4 : a + t4 • b + (t4 * t4) • c + (t4 * t4 * t4) • d = 0) :
    a = 0 ∧ b = 0 ∧ c = 0 ∧ d = 0 := by
  have d12 : t1 - t2 ≠ 0 := sub_ne_zero.2 h12
  have d13 : t1 - t3 ≠ 0 := sub_ne_zero.2 h13
  have d14 : t1 - t4 ≠ 0 := sub_ne_zero.2 h14
  have d23 : t2 - t3 ≠ 0 := sub_ne_zero.2 h23
  have d24 : t2 - t4 ≠ 0 := sub_ne_zero.2 h24
  have d34 : t3 - t4 ≠ 0 := sub_ne_zero.2 h34
  have cancel : ∀ (k : F) (x : W), k ≠ 0 → k • x = 0 → x = 0 := by
    intro k x hk h
    have := congrArg (fun y => k⁻¹ • y) h
    simpa [smul_smul, hk] using this
  have hd : d = 0 := by
    refine cancel ((t1 - t2) * (t1 - t3) * (t1 - t4) * (t2 - t3) * (t2 - t4) * (t3 - t4)) d ?_ ?_
    · simp [d12, d13, d14, d23, d24, d34]
    · linear_combination (norm := module) ((t2 - t3) * (t2 - t4) * (t3 - t4)) • e1
        - ((t1 - t3) * (t1 - t4) * (t3 - t4)) • e2 + ((t1 - t2) * (t1 - t4) * (t2 - t4)) • e3
        - ((t1 - t2) * (t1 - t3) * (t2 - t3)) • e4
  subst hd
  simp only [smul_zero, add_zero] at e1 e2 e3
  have hc : c = 0 := by
    refine cancel ((t1 - t2) * (t1 - t3) * (t2 - t3)) c (by simp [d12, d13, d23]) ?_
    linear_combination (norm := module) (t2 - t3) • e1 - (t1 - t3) • e2 + (t1 - t2) • e3
  subst hc
  simp only [smul_zero, add_zero] at e1 e2
  have hb : b = 0 := by
    refine cancel (t1 - t2) b d12 ?_
    linear_combination (norm := module) e1 - e2
  subst hb
  exact ⟨by simpa using e1, rfl, rfl, rfl⟩

/-! ### lists as vectors -/

/-- Entries of a list. -/
def vec {X : Type} [Zero X] (h : Nat) (l : List X) : Fin h → X := fun i => l.getD i 0

theorem dot_vec (h : Nat) (a : List F) (g : List M) (ha : a.length = h) (hg : g.length = h) :
    dot a g = ∑ i, vec h a i • vec h g i := by
  induction h generalizing a g with
  | zero =>
    have : a = [] := List.length_eq_zero_iff.1 ha
    subst this
    simp
  | succ h ih =>
    cases a with
    | nil => simp at ha
    | cons x a =>
      cases g with
      | nil => simp at hg
      | cons p g =>
        rw [dot_cons, Fin.sum_univ_succ, ih a g (by simpa using ha) (by simpa using hg)]
        simp [vec]

theorem vec_ofFn {X : Type} [Zero X] (h : Nat) (x : Fin h → X) : vec h (List.ofFn x) = x := by
  funext i
  simp [vec]

theorem vec_map_mul (h : Nat) (c : F) (l : List F) : vec h (l.map fun x => c * x) = c • vec h l := by
  funext i
  simp only [vec, Pi.smul_apply, smul_eq_mul, List.getD_eq_getElem?_getD, List.getElem?_map]
  cases l[(i : Nat)]? <;> simp

/-- The map from coefficients to group elements. -/
def phi (h : Nat) (gl gr hl hr : Fin h → M) (Q : M) :
    ((Fin h → F) × (Fin h → F) × (Fin h → F) × (Fin h → F) × F) →ₗ[F] M :=
  (Fintype.linearCombination F gl).coprod ((Fintype.linearCombination F gr).coprod
    ((Fintype.linearCombination F hl).coprod ((Fintype.linearCombination F hr).coprod
      (LinearMap.toSpanSingleton F M Q))))

theorem phi_apply (h : Nat) (gl gr hl hr : Fin h → M) (Q : M) (x y z w : Fin h → F) (c : F) :
    phi h gl gr hl hr Q (x, y, z, w, c) = (∑ i, x i • gl i) + ((∑ i, y i • gr i) + ((∑ i, z i • hl i)
      + ((∑ i, w i • hr i) + c • Q))) := by
  simp [phi, Fintype.linearCombination_apply]

theorem dot_halves (h : Nat) (x y : Fin h → F) (G : List M) (hG : G.length = h * 2) :
    dot (List.ofFn x ++ List.ofFn y) G
      = (∑ i, x i • vec h (G.take h) i) + ∑ i, y i • vec h (G.drop h) i := by
  conv_lhs => rw [← List.take_append_drop h G]
  rw [dot_append (by simp [hG]; omega), dot_vec h _ _ (by simp) (by simp [hG]; omega),
    dot_vec h _ _ (by simp) (by simp [hG]; omega), vec_ofFn, vec_ofFn]

theorem phi_injective (h : Nat) (G H : List M) (Q : M) (hG : G.length = h * 2) (hH : H.length = h * 2)
    (hi : Independent (F := F) G H Q) :
    Function.Injective (phi (F := F) h (vec h (G.take h)) (vec h (G.drop h)) (vec h (H.take h))
      (vec h (H.drop h)) Q) := by
  rw [← LinearMap.ker_eq_bot, LinearMap.ker_eq_bot']
  rintro ⟨x, y, z, w, c⟩ he
  rw [phi_apply] at he
  obtain ⟨h1, h2, h3⟩ := hi (List.ofFn x ++ List.ofFn y) (List.ofFn z ++ List.ofFn w) c
    (by simp [hG]; omega) (by simp [hH]; omega) (by
      rw [dot_halves h x y G hG, dot_halves h z w H hH, ← he]
      abel)
  simp only [List.mem_append, List.mem_ofFn, or_imp, forall_and, forall_exists_index] at h1 h2
  have p1 : x = 0 := funext fun i => h1.1 _ i rfl
  have p2 : y = 0 := funext fun i => h1.2 _ i rfl
  have p3 : z = 0 := funext fun i => h2.1 _ i rfl
  have p4 : w = 0 := funext fun i => h2.2 _ i rfl
  rw [p1, p2, p3, p4, h3]
  rfl

theorem vec_dot_bilin (h : Nat) (x y z w : Fin h → F) (s t : F) :
    ∑ i, (s • x + t • y) i • (s • z + t • w) i
      = s * s * (∑ i, x i * z i) + s * t * ((∑ i, x i * w i) + ∑ i, y i * z i) + t * t * ∑ i, y i * w i := by
  simp only [Finset.mul_sum, ← Finset.sum_add_distrib, Pi.add_apply, Pi.smul_apply, smul_eq_mul]
  refine Finset.sum_congr rfl fun i _ => ?_
  ring

/-- One round: openings of the folded statement for four challenges open the statement. -/
theorem extract (h : Nat) (G H : List M) (Q P L R : M) (hG : G.length = h * 2) (hH : H.length = h * 2)
    (hi : Independent (F := F) G H Q) (S : List F) (hS : Four S)
    (hop : ∀ u ∈ S, ∃ a b : List F, a.length = h ∧ b.length = h ∧
      P + (u * u) • L + (u⁻¹ * u⁻¹) • R = commitment (halve u⁻¹ u G) (halve u u⁻¹ H) Q a b) :
    ∃ a b : List F, a.length = h * 2 ∧ b.length = h * 2 ∧ P = commitment G H Q a b := by
  obtain ⟨hlen, hnz, hpw⟩ := hS
  obtain ⟨u1, u2, u3, u4, rfl⟩ : ∃ u1 u2 u3 u4, S = [u1, u2, u3, u4] := by
    match S, hlen with
    | [a, b, c, d], _ => exact ⟨a, b, c, d, rfl⟩
  simp only [List.pairwise_cons, List.mem_cons, List.not_mem_nil, or_false, forall_eq_or_imp, forall_eq] at hpw
  obtain ⟨⟨h12, h13, h14⟩, ⟨h23, h24⟩, h34, -⟩ := hpw
  have hphi := phi_injective h G H Q hG hH hi
  generalize hφ : phi (F := F) h (vec h (G.take h)) (vec h (G.drop h)) (vec h (H.take h))
      (vec h (H.drop h)) Q = φ at hphi
  -- the folded statement in coordinates
  have coord : ∀ u ∈ [u1, u2, u3, u4], ∃ x y : Fin h → F,
      R + (u * u) • P + ((u * u) * (u * u)) • L
        = φ (x, (u * u) • x, (u * u) • y, y, ∑ i, x i * y i) := by
    intro u hu
    have hu0 := hnz u hu
    obtain ⟨a, b, ha, hb, he⟩ := hop u hu
    refine ⟨u • vec h a, u • vec h b, ?_⟩
    have e1 : R + (u * u) • P + ((u * u) * (u * u)) • L
        = (u * u) • (P + (u * u) • L + (u⁻¹ * u⁻¹) • R) := by
      match_scalars <;> field_simp
    rw [e1, he, ← hφ, phi_apply]
    unfold commitment halve
    have g1 : G.length / 2 = h := by omega
    have g2 : H.length / 2 = h := by omega
    rw [g1, g2, dot_add_right (by simp [hG]; omega), dot_add_right (by simp [hH]; omega),
      dot_vec h a (G.take h) ha (by simp [hG]; omega), dot_vec h a (G.drop h) ha (by simp [hG]; omega),
      dot_vec h b (H.take h) hb (by simp [hH]; omega), dot_vec h b (H.drop h) hb (by simp [hH]; omega),
      dot_vec h a b ha hb]
    have s1 : ∀ (c : F) (v : Fin h → F) (g : Fin h → M), ∑ i, (c • v) i • g i = c • ∑ i, v i • g i := by
      intro c v g
      rw [Finset.smul_sum]
      refine Finset.sum_congr rfl fun i _ => ?_
      simp [mul_smul]
    have s2 : ∑ i, (u • vec h a) i * (u • vec h b) i = (u * u) * ∑ i, vec h a i • vec h b i := by
      rw [Finset.mul_sum]
      refine Finset.sum_congr rfl fun i _ => ?_
      simp
      ring
    rw [s2]
    simp only [s1]
    match_scalars <;> field_simp
  obtain ⟨x1, y1, e1⟩ := coord u1 (by simp)
  obtain ⟨x2, y2, e2⟩ := coord u2 (by simp)
  obtain ⟨x3, y3, e3⟩ := coord u3 (by simp)
  obtain ⟨x4, y4, e4⟩ := coord u4 (by simp)
  generalize u1 * u1 = t1 at *
  generalize u2 * u2 = t2 at *
  generalize u3 * u3 = t3 at *
  generalize u4 * u4 = t4 at *
  obtain ⟨r, p, l, hP, f1, f2, f3, f4⟩ := quad_lift φ hphi t1 t2 t3 t4 h12 h13 h23 P L R _ _ _ _ e1 e2 e3 e4
  obtain ⟨rGl, rGr, rHl, rHr, rQ⟩ := r
  obtain ⟨pGl, pGr, pHl, pHr, pQ⟩ := p
  obtain ⟨lGl, lGr, lHl, lHr, lQ⟩ := l
  simp only [Prod.smul_mk, Prod.mk_add_mk, Prod.mk.injEq] at f1 f2 f3 f4
  obtain ⟨a1, b1, c1, d1, q1⟩ := f1
  obtain ⟨a2, b2, c2, d2, q2⟩ := f2
  obtain ⟨a3, b3, c3, d3, q3⟩ := f3
  obtain ⟨a4, b4, c4, d4, q4⟩ := f4
  -- coefficients of the generators G
  have cg : ∀ (t : F) (x : Fin h → F), x = rGl + t • pGl + (t * t) • lGl → t • x = rGr + t • pGr + (t * t) • lGr →
      (-rGr) + t • (rGl - pGr) + (t * t) • (pGl - lGr) + (t * t * t) • lGl = 0 := by
    intro t x hx hy
    rw [hx] at hy
    linear_combination (norm := module) hy
  obtain ⟨z1, z2, z3, z4⟩ := cubic_zero t1 t2 t3 t4 h12 h13 h14 h23 h24 h34 _ _ _ _
    (cg t1 x1 a1 b1) (cg t2 x2 a2 b2) (cg t3 x3 a3 b3) (cg t4 x4 a4 b4)
  have ch : ∀ (t : F) (y : Fin h → F), y = rHr + t • pHr + (t * t) • lHr → t • y = rHl + t • pHl + (t * t) • lHl →
      (-rHl) + t • (rHr - pHl) + (t * t) • (pHr - lHl) + (t * t * t) • lHr = 0 := by
    intro t y hx hy
    rw [hx] at hy
    linear_combination (norm := module) hy
  obtain ⟨w1, w2, w3, w4⟩ := cubic_zero t1 t2 t3 t4 h12 h13 h14 h23 h24 h34 _ _ _ _
    (ch t1 y1 d1 c1) (ch t2 y2 d2 c2) (ch t3 y3 d3 c3) (ch t4 y4 d4 c4)
  have hr : rGl = pGr := sub_eq_zero.1 z2
  have hs : rHr = pHl := sub_eq_zero.1 w2
  -- the coefficient of Q
  have cq : ∀ (t : F) (x y : Fin h → F), x = rGl + t • pGl + (t * t) • lGl → y = rHr + t • pHr + (t * t) • lHr →
      ∑ i, x i * y i = rQ + t • pQ + (t * t) • lQ →
      (rQ - ∑ i, pGr i * pHl i) + t • (pQ - ((∑ i, pGl i * pHl i) + ∑ i, pGr i * pHr i))
        + (t * t) • (lQ - ∑ i, pGl i * pHr i) + (t * t * t) • (0 : F) = 0 := by
    intro t x y hx hy hq
    rw [z4, hr] at hx
    rw [w4, hs] at hy
    have := vec_dot_bilin h pGl pGr pHr pHl t 1
    simp only [one_smul, smul_zero, add_zero, smul_eq_mul] at *
    have hx' : x = t • pGl + pGr := by rw [hx, add_comm]
    have hy' : y = t • pHr + pHl := by rw [hy, add_comm]
    rw [← hx', ← hy', hq] at this
    linear_combination this
  obtain ⟨-, v2, -, -⟩ := cubic_zero t1 t2 t3 t4 h12 h13 h14 h23 h24 h34 _ _ _ _
    (cq t1 x1 y1 a1 d1 q1) (cq t2 x2 y2 a2 d2 q2) (cq t3 x3 y3 a3 d3 q3) (cq t4 x4 y4 a4 d4 q4)
  refine ⟨List.ofFn pGl ++ List.ofFn pGr, List.ofFn pHl ++ List.ofFn pHr, by simp; omega, by simp; omega, ?_⟩
  unfold commitment
  rw [hP, ← hφ, phi_apply, dot_halves h _ _ G hG, dot_halves h _ _ H hH,
    dot_append (by simp), dot_vec h (List.ofFn pGl) _ (by simp) (by simp),
    dot_vec h (List.ofFn pGr) _ (by simp) (by simp)]
  simp only [vec_ofFn, smul_eq_mul]
  rw [← sub_eq_zero.1 v2]
  abel

theorem independent_halve (u : F) (hu : u ≠ 0) (h : Nat) (G H : List M) (Q : M) (hG : G.length = h * 2)
    (hH : H.length = h * 2) (hi : Independent (F := F) G H Q) :
    Independent (F := F) (halve u⁻¹ u G) (halve u u⁻¹ H) Q := by
  intro x y z hx hy he
  have g1 : G.length / 2 = h := by omega
  have g2 : H.length / 2 = h := by omega
  have lx : x.length = h := by rw [hx]; simp [halve, hG]; omega
  have ly : y.length = h := by rw [hy]; simp [halve, hH]; omega
  have conv : ∀ (s t : F) (v : List F) (K : List M), v.length = h → K.length = h * 2 →
      dot v (halve s t K) = dot ((v.map fun c => s * c) ++ v.map fun c => t * c) K := by
    intro s t v K hv hK
    unfold halve
    rw [dot_add_right (by simp [hK]; omega), show K.length / 2 = h by omega]
    conv_rhs => rw [← List.take_append_drop h K]
    rw [dot_append (by simp [hv, hK]; omega), dot_map_mul, dot_map_mul]
  rw [conv _ _ x G lx hG, conv _ _ y H ly hH] at he
  obtain ⟨h1, h2, h3⟩ := hi _ _ z (by simp [lx, hG]; omega) (by simp [ly, hH]; omega) he
  refine ⟨fun c hc => ?_, fun c hc => ?_, h3⟩
  · have := h1 (u * c) (List.mem_append_right _ (List.mem_map.2 ⟨c, hc, rfl⟩))
    exact (mul_eq_zero.1 this).resolve_left hu
  · have := h2 (u * c) (List.mem_append_left _ (List.mem_map.2 ⟨c, hc, rfl⟩))
    exact (mul_eq_zero.1 this).resolve_left hu

/-- C91 (d): if a prover's answers are accepted for every choice of challenges from four
    usable ones per round, and the generators satisfy no linear relation, the statement's
    point is a commitment to two vectors and their inner product. -/
theorem C91_sound (A : Prover F M) (S : List F → List F) (hS : ∀ past, Four (S past)) (k : Nat)
    (past : List F) (G H : List M) (Q P : M) (hG : G.length = 2 ^ k) (hH : H.length = 2 ^ k)
    (hi : Independent (F := F) G H Q)
    (hacc : ∀ us, us.length = k → Allowed S past us →
      recursiveCheck (A.run past us) P G H Q (A.a (past ++ us)) (A.b (past ++ us))) :
    ∃ a b : List F, a.length = 2 ^ k ∧ b.length = 2 ^ k ∧ P = commitment G H Q a b := by
  induction k generalizing past G H P with
  | zero =>
    have := hacc [] rfl trivial
    exact ⟨[A.a (past ++ [])], [A.b (past ++ [])], rfl, rfl, this⟩
  | succ k ih =>
    rw [pow_succ] at hG hH ⊢
    refine extract (2 ^ k) G H Q P (A.L past) (A.R past) hG hH hi (S past) (hS past) ?_
    intro u hu
    have hu0 := (hS past).2.1 u hu
    refine ih (past ++ [u]) (halve u⁻¹ u G) (halve u u⁻¹ H) _ (halve_length _ _ _ _ (by rw [hG, pow_succ]))
      (halve_length _ _ _ _ (by rw [hH, pow_succ])) (independent_halve u hu0 (2 ^ k) G H Q hG hH hi) ?_
    intro us hus hall
    have := hacc (u :: us) (by simp [hus]) ⟨hu, hall⟩
    rw [List.append_assoc]
    exact this

end Yacl.Bp
