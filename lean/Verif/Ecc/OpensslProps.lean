import Verif.Ecc.OpensslModel
import Mathlib.Data.ZMod.Basic
import Mathlib.Tactic.Abel
import Mathlib.Tactic.Ring
import Mathlib.Tactic.NormNum

/-!
# C121: programs over the OpenSSL curve backend

The specification: an `EcPoint` variable is a value, calls compute in the curve
group, and only the variable a call names changes.
-/

namespace Verif.Ecc.Openssl

variable {P : Type} [AddCommGroup P]

/-! ## Specification -/

/-- What a variable holds. -/
inductive Val (P : Type)
  | point (p : P)
  | affine (x y : Int)
  | bytes

/-- `x` becomes `v`; nothing else changes. -/
def put (e : Nat → Val P) (x : Nat) (v : Val P) : Nat → Val P := fun y => if y = x then v else e y

/-- What one call that returns does. -/
def Spec (L : Lib P) (e : Nat → Val P) : Cmd → (Nat → Val P) → Prop
  | .getGenerator x, e' => e' = put e x (.point L.gen)
  | .copyHandle x y, e' => e' = put e x (e y)
  | .affineLit x a b, e' => e' = put e x (.affine a b)
  | .copyPoint x y, e' =>
      (∃ p, e y = .point p ∧ e' = put e x (.point p)) ∨
      (∃ a b p, e y = .affine a b ∧ L.setAffine a b = some p ∧ e' = put e x (.point p))
  | .getAffine x y, e' => ∃ p, e y = .point p ∧
      ((p = 0 ∧ e' = put e x (.affine 0 0)) ∨
       ∃ a b : Nat, L.affine p = some (a, b) ∧ e' = put e x (.affine a b))
  | .add x y z, e' => ∃ p q, e y = .point p ∧ e z = .point q ∧ e' = put e x (.point (p + q))
  | .addInplace x y, e' => ∃ p q, e x = .point p ∧ e y = .point q ∧ e' = put e x (.point (p + q))
  | .sub x y z, e' => ∃ p q, e y = .point p ∧ e z = .point q ∧ e' = put e x (.point (p - q))
  | .subInplace x y, e' => ∃ p q, e x = .point p ∧ e y = .point q ∧ e' = put e x (.point (p - q))
  | .double x y, e' => ∃ p, e y = .point p ∧ e' = put e x (.point ((2 : Int) • p))
  | .doubleInplace x, e' => ∃ p, e x = .point p ∧ e' = put e x (.point ((2 : Int) • p))
  | .negate x y, e' => ∃ p, e y = .point p ∧ e' = put e x (.point (-p))
  | .negateInplace x, e' => ∃ p, e x = .point p ∧ e' = put e x (.point (-p))
  | .mulBase x k, e' => e' = put e x (.point (k • L.gen))
  | .mul x y k, e' => ∃ p, e y = .point p ∧ e' = put e x (.point (k • p))
  | .mulInplace x k, e' => ∃ p, e x = .point p ∧ e' = put e x (.point (k • p))
  | .mulDoubleBase x k1 k2 y, e' => ∃ p, e y = .point p ∧ e' = put e x (.point (k1 • L.gen + k2 • p))
  | .div x y k, e' => ∃ p q, e y = .point p ∧ k • q = p ∧ e' = put e x (.point q)
  | .divInplace x k, e' => ∃ p q, e x = .point p ∧ k • q = p ∧ e' = put e x (.point q)

/-- When a call may throw. -/
def MayThrow (L : Lib P) (e : Nat → Val P) : Cmd → Prop
  | .getGenerator _ | .copyHandle _ _ | .affineLit _ _ _ => False
  | .copyPoint _ y => e y = .bytes ∨ ∃ a b, e y = .affine a b ∧
      (L.setAffine a b = none ∨ 2 ^ 8192 ≤ a.natAbs ∨ 2 ^ 8192 ≤ b.natAbs)
  | .getAffine _ y | .double _ y | .negate _ y => ∀ p, e y ≠ .point p
  | .doubleInplace x | .negateInplace x => ∀ p, e x ≠ .point p
  | .add _ y z | .sub _ y z => (∀ p, e y ≠ .point p) ∨ ∀ p, e z ≠ .point p
  | .addInplace x y | .subInplace x y => (∀ p, e x ≠ .point p) ∨ ∀ p, e y ≠ .point p
  | .mulBase _ _ => False
  | .mul _ y k => (∀ p, e y ≠ .point p) ∨ 2 ^ 8192 ≤ k.natAbs
  | .mulInplace x k => (∀ p, e x ≠ .point p) ∨ 2 ^ 8192 ≤ k.natAbs
  | .mulDoubleBase _ _ _ y => ∀ p, e y ≠ .point p
  | .div _ y k => (∀ p, e y ≠ .point p) ∨ Int.gcd k L.order ≠ 1 ∨ k = 0
  | .divInplace x k => (∀ p, e x ≠ .point p) ∨ Int.gcd k L.order ≠ 1 ∨ k = 0

/-- A run of the specification: each call does what `Spec` says, or throws where
it may and changes nothing. -/
inductive SpecRun (L : Lib P) : (Nat → Val P) → List Cmd → (Nat → Val P) → Prop
  | nil (e) : SpecRun L e [] e
  | ok {e e' e'' c cs} : Spec L e c e' → SpecRun L e' cs e'' → SpecRun L e (c :: cs) e''
  | throws {e e'' c cs} : MayThrow L e c → SpecRun L e cs e'' → SpecRun L e (c :: cs) e''

/-- The values the variables of the model hold. -/
def absV (s : St P) (v : Pt) : Val P :=
  match v with
  | .ptr h => match s.heap[h]? with
    | some p => .point p
    | none => .bytes
  | .affine x y => .affine x y
  | .bytes => .bytes

/-- See `absV`. -/
def abs (s : St P) : Nat → Val P := fun x => absV s (s.vars x)

/-! ## Discipline: update in place only what is yours -/

/-- The variable a call updates in place. -/
def inplaceTarget : Cmd → Option Nat
  | .addInplace x _ | .subInplace x _ | .doubleInplace x | .negateInplace x | .mulInplace x _
  | .divInplace x _ => some x
  | _ => none

/-- The variable a call assigns a freshly made point to. -/
def freshTarget : Cmd → Option Nat
  | .copyPoint x _ | .add x _ _ | .sub x _ _ | .double x _ | .negate x _ | .mulBase x _ | .mul x _ _
  | .mulDoubleBase x _ _ _ | .div x _ _ => some x
  | _ => none

/-- The variables a call that returned leaves with a point of their own: made by
the call, or owned before and neither overwritten nor copied by it. -/
def ownAfter (o : Nat → Prop) (c : Cmd) : Nat → Prop := fun x =>
  freshTarget c = some x ∨
  (o x ∧ match c with
    | .getGenerator y | .affineLit y _ _ | .getAffine y _ => x ≠ y
    | .copyHandle y z => x ≠ y ∧ x ≠ z
    | _ => True)

/-- Every in-place update of the program is of a variable with a point of its own. -/
def Disciplined (L : Lib P) : St P → (Nat → Prop) → List Cmd → Prop
  | _, _, [] => True
  | s, o, c :: cs =>
    (∀ x, inplaceTarget c = some x → o x) ∧
    match step L s c with
    | some s' => Disciplined L s' (ownAfter o c) cs
    | none => Disciplined L s o cs

/-! ## Proof -/

structure Inv (L : Lib P) (s : St P) (o : Nat → Prop) : Prop where
  gen : s.heap[0]? = some L.gen
  live : ∀ x h, s.vars x = .ptr h → h < s.heap.length
  own : ∀ x, o x → ∃ h, s.vars x = .ptr h ∧ h ≠ 0 ∧ ∀ y, y ≠ x → s.vars y ≠ .ptr h

omit [AddCommGroup P] in
theorem cast_some {s : St P} {v : Pt} {c : Nat × P} (h : cast s v = some c) :
    v = .ptr c.1 ∧ s.heap[c.1]? = some c.2 ∧ absV s v = .point c.2 := by
  unfold cast at h
  split at h
  · next k =>
    rw [Option.map_eq_some_iff] at h
    obtain ⟨p, hp, rfl⟩ := h
    exact ⟨rfl, hp, by simp [absV, hp]⟩
  · cases h

omit [AddCommGroup P] in
theorem cast_none {s : St P} {v : Pt} (h : cast s v = none) (p : P) : absV s v ≠ .point p := by
  unfold cast at h
  unfold absV
  split at h
  · next k =>
    rw [Option.map_eq_none_iff] at h
    simp [h]
  · cases v with
    | ptr k => rename_i hne; exact (hne k rfl).elim
    | affine x y => simp
    | bytes => simp

omit [AddCommGroup P] in
theorem alloc_abs {L : Lib P} {s : St P} {o : Nat → Prop} (hI : Inv L s o) (x : Nat) (p : P) :
    abs (alloc s x p) = put (abs s) x (.point p) := by
  funext y
  unfold abs put alloc
  dsimp only
  by_cases hy : y = x
  · rw [if_pos hy, if_pos hy]
    simp [absV]
  · rw [if_neg hy, if_neg hy]
    unfold absV
    split
    · next h hv =>
      have := hI.live y h hv
      rw [List.getElem?_append_left this]
    · rfl
    · rfl

omit [AddCommGroup P] in
theorem alloc_inv {L : Lib P} {s : St P} {o o' : Nat → Prop} (hI : Inv L s o) (x : Nat) (p : P)
    (ho : ∀ y, o' y → y = x ∨ o y) : Inv L (alloc s x p) o' := by
  have hlen : 0 < s.heap.length := (List.getElem?_eq_some_iff.mp hI.gen).1
  refine ⟨?_, ?_, ?_⟩
  · show (s.heap ++ [p])[0]? = _
    rw [List.getElem?_append_left hlen]
    exact hI.gen
  · intro y h hv
    simp only [alloc, List.length_append, List.length_singleton] at hv ⊢
    split at hv
    · simp only [Pt.ptr.injEq] at hv; omega
    · have := hI.live y h hv; omega
  · intro y hy
    by_cases hyx : y = x
    · refine ⟨s.heap.length, by simp [alloc, hyx], by omega, fun z hz => ?_⟩
      simp only [alloc]
      rw [if_neg (by rw [← hyx]; exact hz)]
      intro hv
      exact absurd (hI.live z _ hv) (by omega)
    · obtain ⟨h, h1, h2, h3⟩ := hI.own y ((ho y hy).resolve_left hyx)
      refine ⟨h, by simp [alloc, hyx, h1], h2, fun z hz => ?_⟩
      simp only [alloc]
      split
      · intro hv
        simp only [Pt.ptr.injEq] at hv
        have := hI.live y h h1
        omega
      · exact h3 z hz

omit [AddCommGroup P] in
theorem store_abs {L : Lib P} {s : St P} {o : Nat → Prop} (hI : Inv L s o) {x h : Nat} (p : P)
    (hx : s.vars x = .ptr h) (ho : o x) : abs (store s h p) = put (abs s) x (.point p) := by
  obtain ⟨h', h1, h2, h3⟩ := hI.own x ho
  have hh : h' = h := by rw [hx] at h1; simpa using h1.symm
  subst hh
  funext y
  unfold abs put store
  dsimp only
  by_cases hy : y = x
  · rw [if_pos hy, hy, hx]
    have := hI.live x h' hx
    simp [absV, this]
  · rw [if_neg hy]
    unfold absV
    split
    · next k hv =>
      have hne : h' ≠ k := by
        intro hk; subst hk; exact h3 y hy hv
      rw [List.getElem?_set_ne hne]
    · rfl
    · rfl

omit [AddCommGroup P] in
theorem store_inv {L : Lib P} {s : St P} {o o' : Nat → Prop} (hI : Inv L s o) {x h : Nat} (p : P)
    (hx : s.vars x = .ptr h) (ho : o x) (ho' : ∀ y, o' y → o y) : Inv L (store s h p) o' := by
  obtain ⟨h', h1, h2, h3⟩ := hI.own x ho
  have hh : h' = h := by rw [hx] at h1; simpa using h1.symm
  subst hh
  refine ⟨?_, ?_, ?_⟩
  · show (s.heap.set h' p)[0]? = _
    rw [List.getElem?_set_ne h2]
    exact hI.gen
  · intro y k hv
    have := hI.live y k hv
    simpa [store] using this
  · intro y hy
    exact hI.own y (ho' y hy)

omit [AddCommGroup P] in
theorem setVar_abs (s : St P) (x : Nat) (v : Pt) :
    abs { s with vars := fun y => if y = x then v else s.vars y } = put (abs s) x (absV s v) := by
  funext y
  unfold abs put
  dsimp only
  split <;> rfl

omit [AddCommGroup P] in
theorem setVar_inv {L : Lib P} {s : St P} {o o' : Nat → Prop} (hI : Inv L s o) (x : Nat) (v : Pt)
    (hv : ∀ h, v = .ptr h → h < s.heap.length)
    (ho : ∀ y, o' y → y ≠ x ∧ o y ∧ v ≠ s.vars y) :
    Inv L { s with vars := fun y => if y = x then v else s.vars y } o' := by
  refine ⟨hI.gen, ?_, ?_⟩
  · intro y h hy
    dsimp only at hy
    split at hy
    · exact hv h hy
    · exact hI.live y h hy
  · intro y hy
    obtain ⟨a, b, c⟩ := ho y hy
    obtain ⟨h, h1, h2, h3⟩ := hI.own y b
    refine ⟨h, by simp [a, h1], h2, fun z hz => ?_⟩
    dsimp only
    split
    · rw [← h1]; exact c
    · exact h3 z hz

theorem mp2bn_some {v w : Int} (h : mp2bn v = some w) : w = v := by
  unfold mp2bn at h
  split at h <;> simp_all

theorem mp2bn_none {v : Int} (h : mp2bn v = none) : 2 ^ 8192 ≤ v.natAbs := by
  unfold mp2bn at h
  split at h
  · cases h
  · next hn => exact Nat.le_of_not_lt hn

theorem mp2bn_mod {n : Nat} (k : Int) (h0 : 0 < n) (h : n < 2 ^ 8192) : mp2bn (k % n) = some (k % n) := by
  unfold mp2bn
  have h1 : 0 ≤ k % (n : Int) := Int.emod_nonneg _ (by omega)
  have h2 : k % (n : Int) < n := Int.emod_lt_of_pos _ (by omega)
  rw [if_pos]
  generalize 2 ^ 8192 = N at *
  omega

theorem mod_smul {n : Nat} {p : P} (h : (n : Int) • p = 0) (k : Int) : (k % (n : Int)) • p = k • p := by
  conv_rhs => rw [← Int.emod_add_mul_ediv k n, add_smul, mul_comm, mul_smul, h, smul_zero, add_zero]

theorem invMod_some {k m : Int} {n : Nat} (h : invMod k n = some m) {p : P} (hp : (n : Int) • p = 0) :
    k • (m • p) = p := by
  unfold invMod at h
  split at h
  · next hg =>
    simp only [Option.some.injEq] at h
    subst h
    rw [mod_smul hp, ← mul_smul]
    have := Int.gcd_eq_gcd_ab k n
    rw [hg] at this
    have hk : k * Int.gcdA k n = 1 - n * Int.gcdB k n := by
      have h1 : ((1 : Nat) : Int) = 1 := rfl
      omega
    rw [hk, sub_smul, one_smul, mul_comm, mul_smul, hp, smul_zero, sub_zero]
  · cases h

theorem invMod_lt {k m : Int} {n : Nat} (h0 : 0 < n) (h : invMod k n = some m) (hn : n < 2 ^ 8192) :
    mp2bn m = some m := by
  unfold invMod at h
  split at h
  · simp only [Option.some.injEq] at h
    subst h
    exact mp2bn_mod _ h0 hn
  · cases h

theorem invMod_none {k : Int} {n : Nat} (h : invMod k n = none) : Int.gcd k n ≠ 1 := by
  unfold invMod at h
  split at h
  · cases h
  · assumption

/-- One call against the specification. -/
def Sim (L : Lib P) (s : St P) (o : Nat → Prop) (c : Cmd) : Prop :=
  match step L s c with
  | some s' => Spec L (abs s) c (abs s') ∧ Inv L s' (ownAfter o c)
  | none => MayThrow L (abs s) c

theorem sim_ok {L : Lib P} {s s' : St P} {o : Nat → Prop} {c : Cmd} (h : step L s c = some s')
    (h1 : Spec L (abs s) c (abs s')) (h2 : Inv L s' (ownAfter o c)) : Sim L s o c := by
  unfold Sim; rw [h]; exact ⟨h1, h2⟩

theorem sim_throw {L : Lib P} {s : St P} {o : Nat → Prop} {c : Cmd} (h : step L s c = none)
    (h1 : MayThrow L (abs s) c) : Sim L s o c := by
  unfold Sim; rw [h]; exact h1

theorem own_fresh {o : Nat → Prop} {c : Cmd} {x : Nat} (h : freshTarget c = some x) (y : Nat)
    (hy : ownAfter o c y) : y = x ∨ o y := by
  rcases hy with hy | hy
  · left; rw [h] at hy; simpa using hy.symm
  · exact Or.inr hy.1

theorem own_keep {o : Nat → Prop} {c : Cmd} (h : freshTarget c = none) (y : Nat)
    (hy : ownAfter o c y) : o y := by
  rcases hy with hy | hy
  · rw [h] at hy; cases hy
  · exact hy.1

theorem mp2bn_nat {a : Nat} (h : a < 2 ^ 8192) : mp2bn (a : Int) = some (a : Int) := by
  unfold mp2bn
  rw [if_pos]
  rw [Int.natAbs_natCast]
  exact h

attribute [local irreducible] mp2bn invMod

theorem sim (L : Lib P) (hL : L.Ok) (hsub : ∀ p : P, (L.order : Int) • p = 0) (s : St P) (o : Nat → Prop)
    (hI : Inv L s o) (c : Cmd) (hc : ∀ x, inplaceTarget c = some x → o x) : Sim L s o c := by
  have hmul0 : ∀ (q : P) (m : Int), L.mul 0 q m = m • q := by
    intro q m; rw [hL.mul_eq, zero_smul, zero_add]
  cases c with
  | getGenerator x =>
    refine sim_ok rfl ?_ ?_
    · show abs _ = _
      rw [setVar_abs]
      simp [absV, hI.gen]
    · refine setVar_inv hI x _ ?_ ?_
      · intro h hv
        have : h = 0 := by simpa using hv.symm
        subst this
        exact (List.getElem?_eq_some_iff.mp hI.gen).1
      · intro y hy
        rcases hy with hy | ⟨h1, h2⟩
        · cases hy
        · obtain ⟨h, h3, h4, _⟩ := hI.own y h1
          refine ⟨h2, h1, ?_⟩
          rw [h3]
          intro hv
          exact h4 (by simpa using hv.symm)
  | copyHandle x y =>
    refine sim_ok rfl ?_ ?_
    · show abs _ = _
      rw [setVar_abs]
      rfl
    · refine setVar_inv hI x _ (fun h hv => hI.live y h hv) ?_
      intro z hz
      rcases hz with hz | ⟨h1, h2, h3⟩
      · cases hz
      · obtain ⟨h, h4, h5, h6⟩ := hI.own z h1
        refine ⟨h2, h1, ?_⟩
        rw [h4]
        exact h6 y (fun e => h3 e.symm)
  | affineLit x a b =>
    refine sim_ok rfl ?_ ?_
    · show abs _ = _
      rw [setVar_abs]
      rfl
    · refine setVar_inv hI x _ (fun h hv => by cases hv) ?_
      intro z hz
      rcases hz with hz | ⟨h1, h2⟩
      · cases hz
      · obtain ⟨h, h4, h5, h6⟩ := hI.own z h1
        refine ⟨h2, h1, ?_⟩
        rw [h4]
        intro hv; cases hv
  | copyPoint x y =>
    cases hv : s.vars y with
    | ptr h =>
      have hlt := hI.live y h hv
      have hc : cast s (.ptr h) = some (h, s.heap[h]) := by
        simp [cast, List.getElem?_eq_getElem hlt]
      have hs : step L s (.copyPoint x y) = some (alloc s x s.heap[h]) := by
        simp [step, hv, hc]
      refine sim_ok hs (Or.inl ⟨s.heap[h], ?_, alloc_abs hI _ _⟩) (alloc_inv hI _ _ (own_fresh rfl))
      show absV s (s.vars y) = _
      rw [hv]
      exact (cast_some hc).2.2
    | affine a b =>
      have he : abs s y = .affine a b := by show absV s (s.vars y) = _; rw [hv]; rfl
      cases ha : mp2bn a with
      | none =>
        refine sim_throw (by simp [step, hv, ha]) (Or.inr ⟨a, b, he, Or.inr (Or.inl (mp2bn_none ha))⟩)
      | some a' =>
        cases hb : mp2bn b with
        | none =>
          refine sim_throw (by simp [step, hv, ha, hb]) (Or.inr ⟨a, b, he, Or.inr (Or.inr (mp2bn_none hb))⟩)
        | some b' =>
          have e1 := mp2bn_some ha
          have e2 := mp2bn_some hb
          subst e1 e2
          cases hp : L.setAffine a' b' with
          | none =>
            exact sim_throw (by simp [step, hv, ha, hb, hp]) (Or.inr ⟨_, _, he, Or.inl hp⟩)
          | some p =>
            exact sim_ok (by simp [step, hv, ha, hb, hp] <;> rfl)
              (Or.inr ⟨_, _, p, he, hp, alloc_abs hI _ _⟩) (alloc_inv hI _ _ (own_fresh rfl))
    | bytes =>
      refine sim_throw (by simp [step, hv]) (Or.inl ?_)
      show absV s (s.vars y) = _
      rw [hv]; rfl
  | getAffine x y =>
    cases ha : cast s (s.vars y) with
    | none => exact sim_throw (by simp [step, ha]) (cast_none ha)
    | some a =>
      have hinv : ∀ u v : Int, Inv L { s with vars := fun z => if z = x then Pt.affine u v else s.vars z }
          (ownAfter o (.getAffine x y)) := by
        intro u v
        refine setVar_inv hI x _ (fun h hv => by cases hv) ?_
        intro z hz
        rcases hz with hz | ⟨h1, h2⟩
        · cases hz
        · obtain ⟨h, h4, h5, h6⟩ := hI.own z h1
          refine ⟨h2, h1, ?_⟩
          rw [h4]
          intro hv; cases hv
      cases hp : L.affine a.2 with
      | none =>
        refine sim_ok (by simp [step, ha, hp] <;> rfl) ⟨a.2, (cast_some ha).2.2, Or.inl
          ⟨(hL.affine_zero _).mp hp, ?_⟩⟩ (hinv 0 0)
        rw [setVar_abs]; rfl
      | some q =>
        obtain ⟨u, v⟩ := q
        refine sim_ok (by simp [step, ha, hp] <;> rfl) ⟨a.2, (cast_some ha).2.2, Or.inr
          ⟨u, v, hp, ?_⟩⟩ (hinv u v)
        rw [setVar_abs]; rfl
  | add x y z =>
    cases ha : cast s (s.vars y) with
    | none => exact sim_throw (by simp [step, ha]) (Or.inl (cast_none ha))
    | some a =>
      cases hb : cast s (s.vars z) with
      | none => exact sim_throw (by simp [step, ha, hb]) (Or.inr (cast_none hb))
      | some b =>
        exact sim_ok (by simp [step, ha, hb] <;> rfl)
          ⟨_, _, (cast_some ha).2.2, (cast_some hb).2.2, alloc_abs hI _ _⟩ (alloc_inv hI _ _ (own_fresh rfl))
  | sub x y z =>
    cases hb : cast s (s.vars z) with
    | none => exact sim_throw (by simp [step, hb]) (Or.inr (cast_none hb))
    | some b =>
      cases ha : cast s (s.vars y) with
      | none => exact sim_throw (by simp [step, ha, hb]) (Or.inl (cast_none ha))
      | some a =>
        exact sim_ok (by simp [step, ha, hb] <;> rfl)
          ⟨_, _, (cast_some ha).2.2, (cast_some hb).2.2, by rw [sub_eq_add_neg]; exact alloc_abs hI _ _⟩
          (alloc_inv hI _ _ (own_fresh rfl))
  | addInplace x y =>
    cases ha : cast s (s.vars x) with
    | none => exact sim_throw (by simp [step, ha]) (Or.inl (cast_none ha))
    | some a =>
      cases hb : cast s (s.vars y) with
      | none => exact sim_throw (by simp [step, ha, hb]) (Or.inr (cast_none hb))
      | some b =>
        exact sim_ok (by simp [step, ha, hb] <;> rfl)
          ⟨_, _, (cast_some ha).2.2, (cast_some hb).2.2, store_abs hI _ (cast_some ha).1 (hc x rfl)⟩
          (store_inv hI _ (cast_some ha).1 (hc x rfl) (own_keep rfl))
  | subInplace x y =>
    cases hb : cast s (s.vars y) with
    | none => exact sim_throw (by simp [step, hb]) (Or.inr (cast_none hb))
    | some b =>
      cases ha : cast s (s.vars x) with
      | none => exact sim_throw (by simp [step, ha, hb]) (Or.inl (cast_none ha))
      | some a =>
        exact sim_ok (by simp [step, ha, hb] <;> rfl)
          ⟨_, _, (cast_some ha).2.2, (cast_some hb).2.2,
            by rw [sub_eq_add_neg]; exact store_abs hI _ (cast_some ha).1 (hc x rfl)⟩
          (store_inv hI _ (cast_some ha).1 (hc x rfl) (own_keep rfl))
  | double x y =>
    cases ha : cast s (s.vars y) with
    | none => exact sim_throw (by simp [step, ha]) (cast_none ha)
    | some a =>
      exact sim_ok (by simp [step, ha] <;> rfl)
        ⟨_, (cast_some ha).2.2, by rw [two_smul]; exact alloc_abs hI _ _⟩ (alloc_inv hI _ _ (own_fresh rfl))
  | doubleInplace x =>
    cases ha : cast s (s.vars x) with
    | none => exact sim_throw (by simp [step, ha]) (cast_none ha)
    | some a =>
      exact sim_ok (by simp [step, ha] <;> rfl)
        ⟨_, (cast_some ha).2.2, by rw [two_smul]; exact store_abs hI _ (cast_some ha).1 (hc x rfl)⟩
        (store_inv hI _ (cast_some ha).1 (hc x rfl) (own_keep rfl))
  | negate x y =>
    cases ha : cast s (s.vars y) with
    | none => exact sim_throw (by simp [step, ha]) (cast_none ha)
    | some a =>
      exact sim_ok (by simp [step, ha] <;> rfl)
        ⟨_, (cast_some ha).2.2, alloc_abs hI _ _⟩ (alloc_inv hI _ _ (own_fresh rfl))
  | negateInplace x =>
    cases ha : cast s (s.vars x) with
    | none => exact sim_throw (by simp [step, ha]) (cast_none ha)
    | some a =>
      exact sim_ok (by simp [step, ha] <;> rfl)
        ⟨_, (cast_some ha).2.2, store_abs hI _ (cast_some ha).1 (hc x rfl)⟩
        (store_inv hI _ (cast_some ha).1 (hc x rfl) (own_keep rfl))
  | mulBase x k =>
    have hk := mp2bn_mod k hL.order_pos hL.order_lt
    refine sim_ok (by simp [step, hk] <;> rfl) ?_ (alloc_inv hI _ _ (own_fresh rfl))
    show abs _ = _
    rw [alloc_abs hI, hL.mul_eq, zero_smul, add_zero, mod_smul hL.order_gen]
  | mul x y k =>
    cases hk : mp2bn k with
    | none => exact sim_throw (by simp [step, hk]) (Or.inr (mp2bn_none hk))
    | some m =>
      have e1 := mp2bn_some hk
      subst e1
      cases ha : cast s (s.vars y) with
      | none => exact sim_throw (by simp [step, ha, hk]) (Or.inl (cast_none ha))
      | some a =>
        exact sim_ok (by simp [step, ha, hk] <;> rfl)
          ⟨_, (cast_some ha).2.2, by rw [← hmul0]; exact alloc_abs hI _ _⟩ (alloc_inv hI _ _ (own_fresh rfl))
  | mulInplace x k =>
    cases hk : mp2bn k with
    | none => exact sim_throw (by simp [step, hk]) (Or.inr (mp2bn_none hk))
    | some m =>
      have e1 := mp2bn_some hk
      subst e1
      cases ha : cast s (s.vars x) with
      | none => exact sim_throw (by simp [step, ha, hk]) (Or.inl (cast_none ha))
      | some a =>
        exact sim_ok (by simp [step, ha, hk] <;> rfl)
          ⟨_, (cast_some ha).2.2, by rw [← hmul0]; exact store_abs hI _ (cast_some ha).1 (hc x rfl)⟩
          (store_inv hI _ (cast_some ha).1 (hc x rfl) (own_keep rfl))
  | mulDoubleBase x k1 k2 y =>
    have h1 := mp2bn_mod k1 hL.order_pos hL.order_lt
    have h2 := mp2bn_mod k2 hL.order_pos hL.order_lt
    cases ha : cast s (s.vars y) with
    | none => exact sim_throw (by simp [step, ha, h1, h2]) (cast_none ha)
    | some a =>
      exact sim_ok (by simp [step, ha, h1, h2] <;> rfl)
        ⟨_, (cast_some ha).2.2, by
          rw [alloc_abs hI, hL.mul_eq, mod_smul hL.order_gen, mod_smul (hsub _)]⟩
        (alloc_inv hI _ _ (own_fresh rfl))
  | div x y k =>
    by_cases hk0 : k = 0
    · exact sim_throw (by simp [step, hk0]) (Or.inr (Or.inr hk0))
    · by_cases hkp : 0 < k
      · cases hm : invMod k L.order with
        | none => exact sim_throw (by simp [step, hk0, hkp, hm]) (Or.inr (Or.inl (invMod_none hm)))
        | some m =>
          have hm2 := invMod_lt hL.order_pos hm hL.order_lt
          cases ha : cast s (s.vars y) with
          | none => exact sim_throw (by simp [step, hk0, hkp, hm, hm2, ha]) (Or.inl (cast_none ha))
          | some a =>
            exact sim_ok (by simp [step, hk0, hkp, hm, hm2, ha] <;> rfl)
              ⟨_, _, (cast_some ha).2.2, by rw [hmul0]; exact invMod_some hm (hsub _), alloc_abs hI _ _⟩
              (alloc_inv hI _ _ (own_fresh rfl))
      · have hg : Int.gcd (k.natAbs : Int) L.order = Int.gcd k L.order := by simp only [Int.gcd, Int.natAbs_natCast]
        cases hm : invMod (k.natAbs : Int) L.order with
        | none =>
          exact sim_throw (by simp [step, hk0, -Int.natCast_natAbs, -Nat.cast_natAbs, hkp, hm] <;> rfl)
            (Or.inr (Or.inl (by rw [← hg]; exact invMod_none hm)))
        | some m =>
          have hm2 := invMod_lt hL.order_pos hm hL.order_lt
          cases ha : cast s (s.vars y) with
          | none =>
            exact sim_throw (by simp [step, hk0, -Int.natCast_natAbs, -Nat.cast_natAbs, hkp, hm, hm2, ha] <;> rfl) (Or.inl (cast_none ha))
          | some a =>
            refine sim_ok (s' := alloc s x (-(L.mul 0 a.2 m))) (by simp [step, hk0, -Int.natCast_natAbs, -Nat.cast_natAbs, hkp, hm, hm2, ha] <;> rfl)
              ⟨a.2, _, (cast_some ha).2.2, ?_, alloc_abs hI _ _⟩
              (alloc_inv hI _ _ (own_fresh rfl))
            rw [hmul0]
            have := invMod_some hm (hsub a.2)
            rw [show (k.natAbs : Int) = -k by omega] at this
            rw [smul_neg, ← neg_smul]
            exact this
  | divInplace x k =>
    by_cases hk0 : k = 0
    · exact sim_throw (by simp [step, hk0]) (Or.inr (Or.inr hk0))
    · by_cases hkp : 0 < k
      · cases hm : invMod k L.order with
        | none => exact sim_throw (by simp [step, hk0, hkp, hm]) (Or.inr (Or.inl (invMod_none hm)))
        | some m =>
          have hm2 := invMod_lt hL.order_pos hm hL.order_lt
          cases ha : cast s (s.vars x) with
          | none => exact sim_throw (by simp [step, hk0, hkp, hm, hm2, ha]) (Or.inl (cast_none ha))
          | some a =>
            exact sim_ok (by simp [step, hk0, hkp, hm, hm2, ha] <;> rfl)
              ⟨_, _, (cast_some ha).2.2, by rw [hmul0]; exact invMod_some hm (hsub _),
                store_abs hI _ (cast_some ha).1 (hc x rfl)⟩
              (store_inv hI _ (cast_some ha).1 (hc x rfl) (own_keep rfl))
      · have hg : Int.gcd (k.natAbs : Int) L.order = Int.gcd k L.order := by simp only [Int.gcd, Int.natAbs_natCast]
        cases hm : invMod (k.natAbs : Int) L.order with
        | none =>
          exact sim_throw (by simp [step, hk0, -Int.natCast_natAbs, -Nat.cast_natAbs, hkp, hm] <;> rfl)
            (Or.inr (Or.inl (by rw [← hg]; exact invMod_none hm)))
        | some m =>
          have hm2 := invMod_lt hL.order_pos hm hL.order_lt
          cases ha : cast s (s.vars x) with
          | none =>
            exact sim_throw (by simp [step, hk0, -Int.natCast_natAbs, -Nat.cast_natAbs, hkp, hm, hm2, ha] <;> rfl) (Or.inl (cast_none ha))
          | some a =>
            refine sim_ok (s' := store s a.1 (-(L.mul 0 a.2 m))) (by simp [step, hk0, -Int.natCast_natAbs, -Nat.cast_natAbs, hkp, hm, hm2, ha] <;> rfl)
              ⟨a.2, _, (cast_some ha).2.2, ?_, store_abs hI _ (cast_some ha).1 (hc x rfl)⟩
              (store_inv hI _ (cast_some ha).1 (hc x rfl) (own_keep rfl))
            rw [hmul0]
            have := invMod_some hm (hsub a.2)
            rw [show (k.natAbs : Int) = -k by omega] at this
            rw [smul_neg, ← neg_smul]
            exact this

theorem run_sim (L : Lib P) (hL : L.Ok) (hsub : ∀ p : P, (L.order : Int) • p = 0) (cs : List Cmd) :
    ∀ (s : St P) (o : Nat → Prop), Inv L s o → Disciplined L s o cs →
      SpecRun L (abs s) cs (abs (run L s cs)) := by
  induction cs with
  | nil => intro s o _ _; exact .nil _
  | cons c cs ih =>
    intro s o hI hd
    obtain ⟨h1, h2⟩ := hd
    have hs := sim L hL hsub s o hI c h1
    unfold Sim at hs
    show SpecRun L (abs s) (c :: cs) (abs (run L ((step L s c).getD s) cs))
    cases h : step L s c with
    | none => rw [h] at hs h2; exact .throws hs (ih s o hI h2)
    | some s' => rw [h] at hs h2; exact .ok hs.1 (ih s' _ hs.2 h2)

/-- **C121.** A program that calls the OpenSSL backend in any order, on a curve
whose points all have an order dividing the group order, and that updates in
place only variables holding a point of their own, sees values: every call that
returns has computed the group operation of its name on the values of its
arguments and changed no other variable, and a call throws only on a variable
without a point, coordinates off the curve, an integer of more than 8192 bits, or
a division by a non-unit.  Partial: without the discipline or with a cofactor
this fails, see the `_violated` theorems. -/
theorem C121_value_semantics_partial (L : Lib P) (hL : L.Ok) (hsub : ∀ p : P, (L.order : Int) • p = 0)
    (cs : List Cmd) (hd : Disciplined L (init L) (fun _ => False) cs) :
    SpecRun L (fun _ => .bytes) cs (abs (run L (init L) cs)) := by
  refine run_sim L hL hsub cs (init L) _ ⟨rfl, ?_, ?_⟩ hd
  · intro x h hv; cases hv
  · intro x hx; exact hx.elim

/-- **C121.** Without in-place calls no discipline is needed. -/
theorem C121_pure_programs_partial (L : Lib P) (hL : L.Ok) (hsub : ∀ p : P, (L.order : Int) • p = 0)
    (cs : List Cmd) (hp : ∀ c ∈ cs, inplaceTarget c = none) :
    SpecRun L (fun _ => .bytes) cs (abs (run L (init L) cs)) := by
  refine C121_value_semantics_partial L hL hsub cs ?_
  have : ∀ (cs : List Cmd) (s : St P) (o : Nat → Prop), (∀ c ∈ cs, inplaceTarget c = none) →
      Disciplined L s o cs := by
    intro cs
    induction cs with
    | nil => intro _ _ _; trivial
    | cons c cs ih =>
      intro s o h
      refine ⟨fun x hx => by (rw [h c (by simp)] at hx; cases hx), ?_⟩
      split
      · exact ih _ _ fun c hc => h c (by simp [hc])
      · exact ih _ _ fun c hc => h c (by simp [hc])
  exact this cs _ _ hp

/-! ## Bytes -/

omit [AddCommGroup P] in
theorem deserialize_ne (L : Lib P) (z : UInt8) (t : List UInt8) (hz : z ≠ 0) :
    deserialize L (z :: t) = match L.ofOct (z :: t) with | some p => .ok p | none => .throws := by
  have h : (if z :: t ≠ [] ∧ (z :: t).head? ≠ some 0 then (z :: t).length else 1) = (z :: t).length := by
    rw [if_pos]; exact ⟨by simp, by simpa using hz⟩
  unfold deserialize
  simp only [h]
  rw [if_neg (by simp), List.take_length]
  cases L.ofOct (z :: t) <;> rfl

omit [AddCommGroup P] in
theorem deserialize_zero (L : Lib P) (t : List UInt8) :
    deserialize L (0 :: t) = match L.ofOct [0] with | some p => .ok p | none => .throws := by
  unfold deserialize
  simp
  cases L.ofOct [0] <;> rfl

/-- **C121.** Every point survives serialization in every format, both through
the returned buffer and through a caller's buffer of the announced length;
serialization into a shorter buffer throws, except for the one byte of the point
at infinity, and two different points never have the same bytes. -/
theorem C121_serialize_roundtrip (L : Lib P) (hL : L.Ok) (f : Format) (p : P) :
    deserialize L (serialize L f p) = .ok p ∧
    (∃ b, serializeTo L f p (serializeLength L f) = some b ∧ b.length = serializeLength L f ∧
      deserialize L b = .ok p) ∧
    (p ≠ 0 → ∀ n, n < serializeLength L f → serializeTo L f p n = none) ∧
    (∀ q, serialize L f p = serialize L f q → p = q) := by
  have hrt : deserialize L (serialize L f p) = .ok p := by
    unfold serialize
    by_cases hp : p = 0
    · have h0 := hL.ofOct_toOct (formOf f) p
      subst hp
      rw [hL.toOct_zero] at h0 ⊢
      rw [deserialize_zero, h0]
    · obtain ⟨z, t, e, hz⟩ := hL.toOct_ne (formOf f) p hp
      have h0 := hL.ofOct_toOct (formOf f) p
      rw [e] at h0 ⊢
      rw [deserialize_ne L z t hz, h0]
  refine ⟨hrt, ?_, ?_, ?_⟩
  · by_cases hp : p = 0
    · subst hp
      obtain ⟨z, t, e, hz⟩ := hL.toOct_ne (formOf f) L.gen hL.gen_ne
      have hlen : 1 ≤ serializeLength L f := by unfold serializeLength; rw [e]; simp
      refine ⟨[0] ++ List.replicate (serializeLength L f - 1) 0, ?_, ?_, ?_⟩
      · unfold serializeTo
        rw [hL.toOct_zero]
        exact if_pos hlen
      · simp; omega
      · have h0 := hL.ofOct_toOct (formOf f) 0
        rw [hL.toOct_zero] at h0
        show deserialize L (0 :: _) = _
        rw [deserialize_zero, h0]
    · refine ⟨serialize L f p, ?_, ?_, hrt⟩
      · have hlen := hL.toOct_len (formOf f) p L.gen hp hL.gen_ne
        unfold serializeTo serializeLength serialize
        simp [hlen]
      · exact hL.toOct_len (formOf f) p L.gen hp hL.gen_ne
  · intro hp n hn
    have hlen := hL.toOct_len (formOf f) p L.gen hp hL.gen_ne
    unfold serializeLength at hn
    unfold serializeTo
    simp [hlen, hn]
  · intro q hq
    have h1 := hL.ofOct_toOct (formOf f) p
    have h2 := hL.ofOct_toOct (formOf f) q
    unfold serialize at hq
    rw [hq, h2] at h1
    exact (Option.some.inj h1).symm

/-- **C121.** Getting the coordinates of a point other than infinity and copying
them back gives the point. -/
theorem C121_affine_roundtrip (L : Lib P) (hL : L.Ok) (s : St P) (x y z : Nat) (p : P)
    (hv : abs s x = .point p) (hp : p ≠ 0)
    (hsz : ∀ a b, L.affine p = some (a, b) → a < 2 ^ 8192 ∧ b < 2 ^ 8192) :
    ∃ s1 s2, step L s (.getAffine y x) = some s1 ∧ step L s1 (.copyPoint z y) = some s2 ∧
      abs s2 z = .point p := by
  have hc : ∃ h, cast s (s.vars x) = some (h, p) := by
    unfold abs absV at hv
    split at hv
    · next h e =>
      split at hv
      · next q e2 =>
        have : q = p := by simpa using hv
        subst this
        exact ⟨h, by rw [e]; simp [cast, e2]⟩
      · cases hv
    · cases hv
    · cases hv
  obtain ⟨h, hc⟩ := hc
  cases ha : L.affine p with
  | none => exact absurd ((hL.affine_zero p).mp ha) hp
  | some ab =>
    obtain ⟨a, b⟩ := ab
    obtain ⟨ha1, hb1⟩ := hsz a b ha
    have h1 : mp2bn (a : Int) = some (a : Int) := mp2bn_nat ha1
    have h2 : mp2bn (b : Int) = some (b : Int) := mp2bn_nat hb1
    have hset := hL.setAffine_affine _ _ _ ha
    let s1 : St P := { s with vars := fun z => if z = y then Pt.affine a b else s.vars z }
    refine ⟨s1, alloc s1 z p, by simp [step, hc, ha, s1], ?_, ?_⟩
    · have e : s1.vars y = Pt.affine a b := by simp [s1]
      simp [step, e, h1, h2, hset]
    · simp [abs, absV, alloc]

/-- **C121.** The hash of the point at infinity is 0 and that of a point with a
nonzero x coordinate is `h(x)` plus the parity of y: it depends on the point, not
on its projective representation. -/
theorem C121_hash_point (L : Lib P) (hL : L.Ok) (h : Nat → Nat) (p : P) :
    (p = 0 → hashPoint L h p = some 0) ∧
    (∀ x y, L.affine p = some (x, y) → x ≠ 0 → hashPoint L h p = some ((h x + y % 2) % 2 ^ 64)) := by
  constructor
  · intro hp
    have := (hL.affine_zero p).mpr hp
    simp [hashPoint, this]
  · intro x y e hx
    simp [hashPoint, e, hashBn, hx]

/-! ## Hashing to the curve -/

/-- The hash a re-hash strategy really uses. -/
def usedHash : Strategy → HashAlg
  | .sha2 | .blake3 | .autonomous => .blake3
  | .sha3 => .shake128
  | .sm => .sm3

/-- Its output length in bytes. -/
def usedLen (bits : Nat) : Strategy → Nat
  | .sm => 32
  | _ => (bits + 7) / 8

omit [AddCommGroup P] in
theorem tryLoop_iff (L : Lib P) (nxt : List UInt8 → List UInt8) (p : P) : ∀ (n : Nat) (b : List UInt8),
    tryLoop L nxt n b = some p ↔ ∃ t, t < n ∧ L.decompress (bin2bn (nxt^[t] b) % L.field) false = some p ∧
      ∀ u, u < t → L.decompress (bin2bn (nxt^[u] b) % L.field) false = none := by
  intro n
  induction n with
  | zero => intro b; simp [tryLoop]
  | succ n ih =>
    intro b
    unfold tryLoop
    cases h : L.decompress (bin2bn b % L.field) false with
    | some q =>
      constructor
      · intro e
        have e : q = p := by simpa using e
        subst e
        exact ⟨0, by omega, h, fun u hu => by omega⟩
      · rintro ⟨t, h1, h2, h3⟩
        cases t with
        | zero =>
          have h2 : L.decompress (bin2bn b % L.field) false = some p := h2
          rw [h] at h2; exact h2
        | succ t =>
          have : L.decompress (bin2bn b % L.field) false = none := h3 0 (by omega)
          rw [h] at this; cases this
    | none =>
      show tryLoop L nxt n (nxt b) = some p ↔ _
      rw [ih]
      constructor
      · rintro ⟨t, h1, h2, h3⟩
        refine ⟨t + 1, by omega, h2, ?_⟩
        intro u hu
        cases u with
        | zero => exact h
        | succ u => exact h3 u (by omega)
      · rintro ⟨t, h1, h2, h3⟩
        cases t with
        | zero =>
          have h2 : L.decompress (bin2bn b % L.field) false = some p := h2
          rw [h] at h2; cases h2
        | succ t => exact ⟨t, by omega, h2, fun u hu => h3 (u + 1) (by omega)⟩

/-- **C121.** Hashing to the curve by re-hashing returns a point exactly when one
of the first 100 iterated hashes of the message, read big endian and reduced
modulo the field, is the x coordinate of a curve point; the result is the point of
the first such hash, with the even y, it is not the point at infinity, and its x
coordinate is that hash.  The SHA2 strategy, and the SM strategy on a curve other
than SM2, always throw. -/
theorem C121_hash_to_curve (L : Lib P) (hL : L.Ok) (H : HashAlg → Nat → List UInt8 → List UInt8)
    (curve : String) (bits : Nat) (st : Strategy) (msg : List UInt8) (p : P) :
    (hashToCurve L H curve bits st msg = some p ↔
      st ≠ .sha2 ∧ (st = .sm → curve = "SM2") ∧
      ∃ t, t < 100 ∧
        L.decompress (bin2bn ((H (usedHash st) (usedLen bits st))^[t + 1] msg) % L.field) false = some p ∧
        ∀ u, u < t →
          L.decompress (bin2bn ((H (usedHash st) (usedLen bits st))^[u + 1] msg) % L.field) false = none) ∧
    (hashToCurve L H curve bits st msg = some p → p ≠ 0 ∧
      ∃ t y, t < 100 ∧ L.affine p = some (bin2bn ((H (usedHash st) (usedLen bits st))^[t + 1] msg) % L.field, y)) := by
  have key : hashToCurve L H curve bits st msg = some p ↔
      st ≠ .sha2 ∧ (st = .sm → curve = "SM2") ∧
      ∃ t, t < 100 ∧
        L.decompress (bin2bn ((H (usedHash st) (usedLen bits st))^[t + 1] msg) % L.field) false = some p ∧
        ∀ u, u < t →
          L.decompress (bin2bn ((H (usedHash st) (usedLen bits st))^[u + 1] msg) % L.field) false = none := by
    simp only [Function.iterate_succ, Function.comp_apply]
    cases st with
    | sha2 => simp [hashToCurve, chooseAlg]
    | sha3 =>
      have e : ∀ a, a = HashAlg.shake128 ∨ a = .shake256 →
          rehash H a bits = H .shake128 ((bits + 7) / 8) := by
        rintro a (rfl | rfl) <;> rfl
      have e2 : rehash H (if bits ≤ 256 then HashAlg.shake128 else .shake256) bits = H .shake128 ((bits + 7) / 8) :=
        e _ (by split <;> simp)
      have : hashToCurve L H curve bits .sha3 msg =
          tryLoop L (H .shake128 ((bits + 7) / 8)) 100 (H .shake128 ((bits + 7) / 8) msg) := by
        show tryLoop L (rehash H (if bits ≤ 256 then HashAlg.shake128 else .shake256) bits) 100
          (rehash H (if bits ≤ 256 then HashAlg.shake128 else .shake256) bits msg) = _
        rw [e2]
      rw [this, tryLoop_iff]
      simp [usedHash, usedLen]
    | sm =>
      by_cases hc : curve = "SM2"
      · have : hashToCurve L H curve bits .sm msg = tryLoop L (H .sm3 32) 100 (H .sm3 32 msg) := by
          subst hc; rfl
        rw [this, tryLoop_iff]
        simp [usedHash, usedLen, hc]
      · simp [hashToCurve, chooseAlg, hc]
    | blake3 =>
      have : hashToCurve L H curve bits .blake3 msg =
          tryLoop L (H .blake3 ((bits + 7) / 8)) 100 (H .blake3 ((bits + 7) / 8) msg) := rfl
      rw [this, tryLoop_iff]
      simp [usedHash, usedLen]
    | autonomous =>
      have : hashToCurve L H curve bits .autonomous msg =
          tryLoop L (H .blake3 ((bits + 7) / 8)) 100 (H .blake3 ((bits + 7) / 8) msg) := rfl
      rw [this, tryLoop_iff]
      simp [usedHash, usedLen]
  refine ⟨key, fun h => ?_⟩
  obtain ⟨_, _, t, h1, h2, _⟩ := key.mp h
  obtain ⟨y, hy⟩ := hL.decompress_x _ _ _ (Nat.mod_lt _ hL.field_pos) h2
  refine ⟨fun h0 => ?_, t, y, h1, hy⟩
  rw [(hL.affine_zero p).mpr h0] at hy
  cases hy

end Verif.Ecc.Openssl
