import Verif.Ecc.MclModel
import Verif.Ecc.OpensslProps

/-!
# C134: programs over the libmcl curve backend

The specification of a program is the one of C121: an `EcPoint` variable is a
value, calls compute in the curve group, only the variable a call names changes.
-/

namespace Verif.Ecc.Mcl

open Verif.Ecc.Openssl (Pt St Cmd cast alloc store invMod Format Lib Val put Spec abs absV inplaceTarget
  ownAfter)

variable {P : Type} [AddCommGroup P]

/-! ## Specification -/

/-- What libmcl is taken to do, for a curve without a point `(0, 0)`. -/
structure Mcl.Ok (M : Mcl P) : Prop where
  order_pos : 0 < M.order
  order_lt : M.order < 2 ^ 8192
  order_gen : (M.order : Int) • M.gen = 0
  gen_ne : M.gen ≠ 0
  p_pos : 0 < M.p
  p_lt : M.p < 2 ^ 8192
  sz_pos : 0 < M.sz
  /-- `sz` bytes hold every field element. -/
  p_le : M.p ≤ 256 ^ M.sz
  mul_eq : ∀ q k, 0 ≤ k → M.mul q k = k • q
  mulCT_eq : ∀ q k, 0 ≤ k → M.mulCT q k = k • q
  mulVec_eq : ∀ q r k l, 0 ≤ k → 0 ≤ l → M.mulVec q r k l = k • q + l • r
  affine_zero : ∀ q, M.affine q = none ↔ q = 0
  affine_inj : ∀ q r, M.affine q = M.affine r → q = r
  affine_lt : ∀ q x y, M.affine q = some (x, y) → x < M.p ∧ y < M.p
  /-- `set` accepts the coordinates of a point and nothing else. -/
  set_iff : ∀ x y q, M.set x y = some q ↔ M.affine q = some (x, y)
  origin : ∀ q, M.affine q ≠ some (0, 0)
  lift_affine : ∀ q x y, M.affine q = some (x, y) → M.lift x (y % 2 == 1) = some q
  lift_x : ∀ x b q, M.lift x b = some q → ∃ y, M.affine q = some (x, y)
  /-- The first `x` from `v` on that is the coordinate of a point. -/
  tryInc : ∀ v, ∃ i y, M.affine (M.tryInc v) = some ((v + i) % M.p, y) ∧
    ∀ j, j < i → ∀ q y, M.affine q ≠ some ((v + j) % M.p, y)

/-- The curve as C121 sees it: its group law, its coordinates and which pairs are
coordinates. -/
def curve (M : Mcl P) : Lib P where
  gen := M.gen
  order := M.order
  field := M.p
  mul n q m := n • M.gen + m • q
  affine := M.affine
  setAffine a b := if 0 ≤ a ∧ 0 ≤ b then M.set a.toNat b.toNat else none
  toOct _ q := match M.affine q with
    | none => [0]
    | some (x, y) => 4 :: (leB M.sz x ++ leB M.sz y)
  ofOct b := match b with
    | [0] => some 0
    | b => M.set (leV ((b.drop 1).take M.sz)) (leV (b.drop (M.sz + 1)))
  decompress := M.lift

/-- When a call may throw: on a variable without a point, on coordinates that no
point has, on a division by a non-unit. -/
def MayThrow (M : Mcl P) (e : Nat → Val P) : Cmd → Prop
  | .getGenerator _ | .copyHandle _ _ | .affineLit _ _ _ | .mulBase _ _ => False
  | .copyPoint _ y => e y = .bytes ∨ ∃ a b : Int, e y = .affine a b ∧
      ∀ q (x z : Nat), M.affine q = some (x, z) → ¬ ((x : Int) = a ∧ (z : Int) = b)
  | .getAffine _ y | .double _ y | .negate _ y | .mul _ y _ | .mulDoubleBase _ _ _ y => ∀ p, e y ≠ .point p
  | .doubleInplace x | .negateInplace x | .mulInplace x _ => ∀ p, e x ≠ .point p
  | .add _ y z | .sub _ y z => (∀ p, e y ≠ .point p) ∨ ∀ p, e z ≠ .point p
  | .addInplace x y | .subInplace x y => (∀ p, e x ≠ .point p) ∨ ∀ p, e y ≠ .point p
  | .div _ y k => (∀ p, e y ≠ .point p) ∨ Int.gcd k M.order ≠ 1 ∨ k = 0
  | .divInplace x k => (∀ p, e x ≠ .point p) ∨ Int.gcd k M.order ≠ 1 ∨ k = 0

/-- A run of the specification: each call does what C121's `Spec` says, or throws
where it may and changes nothing.  The constant-time flag plays no part. -/
inductive SpecRun (M : Mcl P) : (Nat → Val P) → List (Bool × Cmd) → (Nat → Val P) → Prop
  | nil (e) : SpecRun M e [] e
  | ok {e e' e'' ct c cs} : Spec (curve M) e c e' → SpecRun M e' cs e'' → SpecRun M e ((ct, c) :: cs) e''
  | throws {e e'' ct c cs} : MayThrow M e c → SpecRun M e cs e'' → SpecRun M e ((ct, c) :: cs) e''

/-- Every in-place update of the program is of a variable with a point of its own. -/
def Disciplined (M : Mcl P) : St P → (Nat → Prop) → List (Bool × Cmd) → Prop
  | _, _, [] => True
  | s, o, (ct, c) :: cs =>
    (∀ x, inplaceTarget c = some x → o x) ∧
    match step M ct s c with
    | some s' => Disciplined M s' (ownAfter o c) cs
    | none => Disciplined M s o cs

/-- The coordinates a program writes down itself are numbers below the field
characteristic. -/
def Coords (M : Mcl P) (cs : List (Bool × Cmd)) : Prop :=
  ∀ ct x a b, (ct, Cmd.affineLit x a b) ∈ cs → (0 ≤ a ∧ a < M.p) ∧ 0 ≤ b ∧ b < M.p

/-! ## Bytes and numbers -/

theorem leB_length (n : Nat) : ∀ v, (leB n v).length = n := by
  induction n with
  | zero => intro v; rfl
  | succ n ih => intro v; simp [leB, ih]

theorem leV_leB (n : Nat) : ∀ v, leV (leB n v) = v % 256 ^ n := by
  induction n with
  | zero => intro v; simp [leB, leV, Nat.mod_one]
  | succ n ih =>
    intro v
    rw [leB, leV, ih, UInt8.toNat_ofNat', show (2 : Nat) ^ 8 = 256 by norm_num, pow_succ (256 : Nat), Nat.mul_comm (256 ^ n) 256, Nat.mod_mul]

theorem leB_split (n : Nat) : ∀ v, leB (n + 1) v = leB n v ++ [UInt8.ofNat (v / 256 ^ n)] := by
  induction n with
  | zero => intro v; simp [leB]
  | succ n ih =>
    intro v
    rw [leB, ih, leB, List.cons_append, Nat.div_div_eq_div_mul, pow_succ, Nat.mul_comm (256 ^ n)]

theorem leV_append_zero (l : Bytes) : leV (l ++ [0]) = leV l := by
  induction l with
  | nil => simp [leV]
  | cons a l ih => rw [List.cons_append, leV, leV, ih]

theorem leV_zeros (n : Nat) : leV (List.replicate n 0) = 0 := by
  induction n with
  | zero => rfl
  | succ n ih => rw [List.replicate_succ, leV, ih]; rfl

omit [AddCommGroup P] in
theorem fpDeser_of (M : Mcl P) {b : Bytes} (h : M.sz ≤ b.length) (hv : leV (b.take M.sz) < M.p) :
    fpDeser M b = .value (leV (b.take M.sz)) := by
  unfold fpDeser
  rw [if_neg (by omega), if_pos hv]

theorem fpDeser_leB (M : Mcl P) (hM : M.Ok) {v : Nat} (hv : v < M.p) (t : Bytes) :
    fpDeser M (leB M.sz v ++ t) = .value v := by
  have e : (leB M.sz v ++ t).take M.sz = leB M.sz v := by
    rw [List.take_append_of_le_length (by simp [leB_length]), List.take_of_length_le (by simp [leB_length])]
  have hl : leV (leB M.sz v) = v := by
    rw [leV_leB, Nat.mod_eq_of_lt (lt_of_lt_of_le hv hM.p_le)]
  rw [fpDeser_of M (by simp [leB_length]) (by rw [e, hl]; exact hv), e, hl]

theorem toBytes_nat (M : Mcl P) (hM : M.Ok) {a : Int} (h0 : 0 ≤ a) (h : a < M.p) :
    toBytes M.sz a = leB M.sz a.toNat := by
  unfold toBytes
  have h1 : (M.p : Int) ≤ (256 : Int) ^ M.sz := by exact_mod_cast hM.p_le
  rw [Int.emod_eq_of_lt h0 (by omega)]

theorem getMclPoint_range (M : Mcl P) (hM : M.Ok) {a b : Int} (ha : 0 ≤ a ∧ a < M.p) (hb : 0 ≤ b ∧ b < M.p) :
    getMclPoint M a b = M.set a.toNat b.toNat := by
  unfold getMclPoint
  rw [toBytes_nat M hM ha.1 ha.2, toBytes_nat M hM hb.1 hb.2]
  have e1 := fpDeser_leB M hM (v := a.toNat) (by omega) []
  have e2 := fpDeser_leB M hM (v := b.toNat) (by omega) []
  rw [List.append_nil] at e1 e2
  rw [e1, e2]

/-! ## Programs -/

theorem curve_ok (M : Mcl P) (hM : M.Ok) : (curve M).Ok where
  order_pos := hM.order_pos
  order_lt := hM.order_lt
  order_gen := hM.order_gen
  field_pos := hM.p_pos
  mul_eq _ _ _ := rfl
  affine_zero := hM.affine_zero
  affine_inj := hM.affine_inj
  setAffine_affine q x y h := by
    show (if 0 ≤ (x : Int) ∧ 0 ≤ (y : Int) then M.set (x : Int).toNat (y : Int).toNat else none) = some q
    rw [if_pos ⟨by omega, by omega⟩, Int.toNat_natCast, Int.toNat_natCast]
    exact (hM.set_iff x y q).mpr h
  setAffine_ne x y q h := by
    intro hq
    change (if 0 ≤ x ∧ 0 ≤ y then M.set x.toNat y.toNat else none) = some q at h
    split at h
    · have := (hM.set_iff _ _ q).mp h
      rw [(hM.affine_zero q).mpr hq] at this
      cases this
    · cases h
  toOct_zero f := by
    show (match M.affine 0 with | none => _ | some (x, y) => _) = _
    rw [(hM.affine_zero 0).mpr rfl]
  toOct_ne f q hq := by
    have e : (curve M).toOct f q = match M.affine q with
      | none => [0]
      | some (x, y) => 4 :: (leB M.sz x ++ leB M.sz y) := rfl
    rw [e]
    cases h : M.affine q with
    | none => exact absurd ((hM.affine_zero q).mp h) hq
    | some xy => exact ⟨4, _, rfl, by decide⟩
  toOct_len f q r hq hr := by
    show (match M.affine q with | none => _ | some (x, y) => _ : Bytes).length =
      (match M.affine r with | none => _ | some (x, y) => _ : Bytes).length
    cases h : M.affine q with
    | none => exact absurd ((hM.affine_zero q).mp h) hq
    | some xy =>
      cases h' : M.affine r with
      | none => exact absurd ((hM.affine_zero r).mp h') hr
      | some xy' => simp [leB_length]
  ofOct_toOct f q := by
    show (curve M).ofOct (match M.affine q with | none => _ | some (x, y) => _) = _
    cases h : M.affine q with
    | none => rw [(hM.affine_zero q).mp h]; rfl
    | some xy =>
      obtain ⟨x, y⟩ := xy
      obtain ⟨hx, hy⟩ := hM.affine_lt q x y h
      have hp := hM.p_le
      show M.set _ _ = _
      have e1 : leV (((4 :: (leB M.sz x ++ leB M.sz y)).drop 1).take M.sz) = x := by
        rw [List.drop_one, List.tail_cons, List.take_append_of_le_length (by simp [leB_length]),
          List.take_of_length_le (by simp [leB_length]), leV_leB, Nat.mod_eq_of_lt (by omega)]
      have e2 : leV ((4 :: (leB M.sz x ++ leB M.sz y)).drop (M.sz + 1)) = y := by
        rw [List.drop_succ_cons, List.drop_append_of_le_length (by simp [leB_length]),
          List.drop_of_length_le (by simp [leB_length]), List.nil_append, leV_leB, Nat.mod_eq_of_lt (by omega)]
      rw [e1, e2]
      exact (hM.set_iff x y q).mpr h
  gen_ne := hM.gen_ne
  decompress_x x b q _ h := hM.lift_x x b q h

/-- The call with the scalar reduced first. -/
def red (M : Mcl P) : Cmd → Cmd
  | .mul x y k => .mul x y (k % M.order)
  | .mulInplace x k => .mulInplace x (k % M.order)
  | c => c

/-- All coordinates in variables are field elements. -/
def InRange (M : Mcl P) (s : St P) : Prop :=
  ∀ x a b, s.vars x = .affine a b → (0 ≤ a ∧ a < M.p) ∧ 0 ≤ b ∧ b < M.p

theorem mulBy_eq (M : Mcl P) (hM : M.Ok) (ct : Bool) (q : P) {k : Int} (hk : 0 ≤ k) : mulBy M ct q k = k • q := by
  unfold mulBy
  split
  · exact hM.mulCT_eq q k hk
  · exact hM.mul_eq q k hk

theorem mod_bounds (M : Mcl P) (hM : M.Ok) (k : Int) :
    0 ≤ k % M.order ∧ Openssl.mp2bn (k % M.order) = some (k % M.order) := by
  have h1 : (0 : Int) < M.order := by exact_mod_cast hM.order_pos
  have h2 := Int.emod_nonneg k (ne_of_gt h1)
  have h3 := Int.emod_lt_of_pos k h1
  have h4 := hM.order_lt
  refine ⟨h2, ?_⟩
  unfold Openssl.mp2bn
  generalize (2 : Nat) ^ 8192 = B at h4 ⊢
  rw [if_pos (by omega)]

theorem invMod_mod (M : Mcl P) (hM : M.Ok) {k m : Int} (h : invMod k M.order = some m) : m % M.order = m := by
  have h1 : (0 : Int) < M.order := by exact_mod_cast hM.order_pos
  unfold invMod at h
  split at h
  · have : m = Int.gcdA k M.order % M.order := by simpa using h.symm
    rw [this, Int.emod_emod_of_dvd _ (dvd_refl _)]
  · cases h

theorem step_eq (M : Mcl P) (hM : M.Ok) (s : St P) (o : Nat → Prop) (hI : Openssl.Inv (curve M) s o)
    (hr : InRange M s) (ct : Bool) (c : Cmd) : step M ct s c = Openssl.step (curve M) s (red M c) := by
  have hg : cast s (.ptr 0) = some (0, M.gen) := by
    have : s.heap[0]? = some M.gen := hI.gen
    simp [Openssl.cast, this]
  have hmul : ∀ (n : Int) (q : P) (m : Int), (curve M).mul n q m = n • M.gen + m • q := fun _ _ _ => rfl
  have hord : (curve M).order = M.order := rfl
  have hmod := mod_bounds M hM
  have hby : ∀ (q : P) (k : Int), mulBy M ct q (k % M.order) = (k % M.order : Int) • q :=
    fun q k => mulBy_eq M hM ct q (hmod k).1
  cases c with
  | getGenerator x => rfl
  | copyHandle x y => rfl
  | affineLit x a b => rfl
  | copyPoint x y =>
    simp only [step, red, Openssl.step]
    cases hv : s.vars y with
    | ptr h => rfl
    | bytes => rfl
    | affine a b =>
      obtain ⟨ha, hb⟩ := hr y a b hv
      have hp := hM.p_lt
      have e1 : Openssl.mp2bn a = some a := by
        unfold Openssl.mp2bn
        generalize (2 : Nat) ^ 8192 = B at hp ⊢
        rw [if_pos (by omega)]
      have e2 : Openssl.mp2bn b = some b := by
        unfold Openssl.mp2bn
        generalize (2 : Nat) ^ 8192 = B at hp ⊢
        rw [if_pos (by omega)]
      have e3 : (curve M).setAffine a b = M.set a.toNat b.toNat := if_pos ⟨ha.1, hb.1⟩
      simp only [getMclPoint_range M hM ha hb, e1, e2, Option.bind_eq_bind, Option.bind_some, e3]
  | getAffine x y =>
    simp only [step, red, Openssl.step]
    have : (curve M).affine = M.affine := rfl
    cases hc : cast s (s.vars y) with
    | none => rfl
    | some c =>
      simp only [this, Option.bind_eq_bind, Option.bind_some]
      cases ha : M.affine c.2 with
      | none => rfl
      | some xy =>
        obtain ⟨a, b⟩ := xy
        have h := hM.affine_lt _ _ _ ha
        have hp := hM.p_le
        simp only [leV_leB, Nat.mod_eq_of_lt (show a < 256 ^ M.sz by omega),
          Nat.mod_eq_of_lt (show b < 256 ^ M.sz by omega)]
  | add x y z => rfl
  | addInplace x y => rfl
  | sub x y z => rfl
  | subInplace x y => rfl
  | double x y => rfl
  | doubleInplace x => rfl
  | negate x y => rfl
  | negateInplace x => rfl
  | mulBase x k =>
    simp only [step, red, Openssl.step, hg, hord, (hmod k).2, hby, hmul, Option.bind_eq_bind, Option.bind_some]
    simp
  | mul x y k =>
    simp only [step, red, Openssl.step, (hmod k).2, hby, hmul, Option.bind_eq_bind, Option.bind_some]
    simp
  | mulInplace x k =>
    simp only [step, red, Openssl.step, (hmod k).2, hby, hmul, Option.bind_eq_bind, Option.bind_some]
    simp
  | mulDoubleBase x k1 k2 y =>
    simp only [step, red, Openssl.step, hg, hord, (hmod k1).2, (hmod k2).2,
      hM.mulVec_eq _ _ _ _ (hmod k1).1 (hmod k2).1, hmul, Option.bind_eq_bind, Option.bind_some]
  | div x y k =>
    simp only [step, red, Openssl.step, hord]
    split
    · rfl
    · split
      · cases hm : invMod k M.order with
        | none => simp only [Option.bind_eq_bind, Option.bind_none]
        | some m =>
          have e := invMod_mod M hM hm
          have e2 := (hmod m).2
          rw [e] at e2
          simp only [e2, hmul, Option.bind_eq_bind, Option.bind_some, hby, e]
          simp
      · cases hm : invMod (k.natAbs : Int) M.order with
        | none => simp only [Option.bind_eq_bind, Option.bind_none]
        | some m =>
          have e := invMod_mod M hM hm
          have e2 := (hmod m).2
          rw [e] at e2
          simp only [e2, hmul, Option.bind_eq_bind, Option.bind_some, hby, e]
          simp
  | divInplace x k =>
    simp only [step, red, Openssl.step, hord]
    split
    · rfl
    · split
      · cases hm : invMod k M.order with
        | none => simp only [Option.bind_eq_bind, Option.bind_none]
        | some m =>
          have e := invMod_mod M hM hm
          have e2 := (hmod m).2
          rw [e] at e2
          simp only [e2, hmul, Option.bind_eq_bind, Option.bind_some, hby, e]
          simp
      · cases hm : invMod (k.natAbs : Int) M.order with
        | none => simp only [Option.bind_eq_bind, Option.bind_none]
        | some m =>
          have e := invMod_mod M hM hm
          have e2 := (hmod m).2
          rw [e] at e2
          simp only [e2, hmul, Option.bind_eq_bind, Option.bind_some, hby, e]
          simp

omit [AddCommGroup P] in
theorem red_target (M : Mcl P) (c : Cmd) : inplaceTarget (red M c) = inplaceTarget c := by cases c <;> rfl
omit [AddCommGroup P] in
theorem red_own (M : Mcl P) (o : Nat → Prop) (c : Cmd) : ownAfter o (red M c) = ownAfter o c := by cases c <;> rfl

theorem mod_smul (M : Mcl P) (hsub : ∀ p : P, (M.order : Int) • p = 0) (k : Int) (q : P) :
    (k % M.order : Int) • q = k • q := by
  conv_rhs => rw [← Int.emod_add_mul_ediv k M.order, add_smul, mul_comm, mul_smul, hsub, smul_zero, add_zero]

theorem red_spec (M : Mcl P) (hsub : ∀ p : P, (M.order : Int) • p = 0) (e e' : Nat → Val P) (c : Cmd)
    (h : Spec (curve M) e (red M c) e') : Spec (curve M) e c e' := by
  cases c with
  | mul x y k =>
    obtain ⟨q, h1, h2⟩ := h
    exact ⟨q, h1, by rw [h2, mod_smul M hsub]⟩
  | mulInplace x k =>
    obtain ⟨q, h1, h2⟩ := h
    exact ⟨q, h1, by rw [h2, mod_smul M hsub]⟩
  | _ => exact h

theorem red_throw (M : Mcl P) (hM : M.Ok) (s : St P) (hr : InRange M s) (c : Cmd)
    (h : Openssl.MayThrow (curve M) (abs s) (red M c)) : MayThrow M (abs s) c := by
  have hk : ∀ k : Int, ¬ 2 ^ 8192 ≤ (k % M.order).natAbs := by
    intro k hk
    have := (mod_bounds M hM k).2
    unfold Openssl.mp2bn at this
    rw [if_neg (by omega)] at this
    cases this
  cases c with
  | mul x y k => exact h.resolve_right (hk k)
  | mulInplace x k => exact h.resolve_right (hk k)
  | copyPoint x y =>
    rcases h with h | ⟨a, b, h1, h2⟩
    · exact Or.inl h
    · refine Or.inr ⟨a, b, h1, ?_⟩
      have hv : s.vars y = .affine a b := by
        unfold Openssl.abs absV at h1
        split at h1
        · split at h1 <;> cases h1
        · next e => rw [e]; simpa using h1
        · cases h1
      obtain ⟨ha, hb⟩ := hr y a b hv
      have hp := hM.p_lt
      rcases h2 with h2 | h2 | h2
      · intro q x z hq hxz
        obtain ⟨rfl, rfl⟩ := hxz
        have := (curve_ok M hM).setAffine_affine q x z hq
        rw [this] at h2
        cases h2
      · generalize (2 : Nat) ^ 8192 = B at hp h2
        omega
      · generalize (2 : Nat) ^ 8192 = B at hp h2
        omega
  | _ => exact h

theorem step_range (M : Mcl P) (hM : M.Ok) (s s' : St P) (hr : InRange M s) (ct : Bool) (c : Cmd)
    (hc : ∀ x a b, c = .affineLit x a b → (0 ≤ a ∧ a < M.p) ∧ 0 ≤ b ∧ b < M.p)
    (h : step M ct s c = some s') : InRange M s' := by
  have halloc : ∀ x q, InRange M (alloc s x q) := by
    intro x q z a b hz
    simp only [alloc] at hz
    split at hz
    · cases hz
    · exact hr z a b hz
  have hstore : ∀ i q, InRange M (store s i q) := fun i q z a b hz => hr z a b hz
  have hset : ∀ x v, (∀ a b, v = Pt.affine a b → (0 ≤ a ∧ a < M.p) ∧ 0 ≤ b ∧ b < M.p) →
      InRange M { s with vars := fun y => if y = x then v else s.vars y } := by
    intro x v hv z a b hz
    simp only at hz
    split at hz
    · exact hv a b hz
    · exact hr z a b hz
  cases c with
  | getGenerator x =>
    simp only [step, Option.some.injEq] at h
    subst h
    exact hset x _ (fun a b e => by cases e)
  | copyHandle x y =>
    simp only [step, Option.some.injEq] at h
    subst h
    exact hset x _ (fun a b e => hr y a b e)
  | affineLit x a b =>
    simp only [step, Option.some.injEq] at h
    subst h
    refine hset x _ (fun a' b' e => ?_)
    have := hc x a b rfl
    cases e
    exact this
  | copyPoint x y =>
    simp only [step] at h
    split at h
    · rw [Option.map_eq_some_iff] at h
      obtain ⟨q, -, rfl⟩ := h
      exact halloc _ _
    · simp only [Option.bind_eq_bind, Option.bind_eq_some_iff, Option.some.injEq] at h
      obtain ⟨q, -, rfl⟩ := h
      exact halloc _ _
    · cases h
  | getAffine x y =>
    simp only [step, Option.bind_eq_bind, Option.bind_eq_some_iff, Option.some.injEq] at h
    obtain ⟨q, -, rfl⟩ := h
    refine hset x _ (fun a b e => ?_)
    have hp := hM.p_pos
    split at e
    · cases e; constructor <;> constructor <;> omega
    · next a' b' ha =>
      have h := hM.affine_lt _ _ _ ha
      have hp := hM.p_le
      rw [leV_leB, leV_leB, Nat.mod_eq_of_lt (by omega), Nat.mod_eq_of_lt (by omega)] at e
      cases e
      constructor <;> constructor <;> omega
  | div x y k =>
    simp only [step] at h
    split at h
    · cases h
    · split at h <;>
      · simp only [Option.bind_eq_bind, Option.bind_eq_some_iff, Option.some.injEq] at h
        obtain ⟨_, -, _, -, rfl⟩ := h
        exact halloc _ _
  | divInplace x k =>
    simp only [step] at h
    split at h
    · cases h
    · split at h <;>
      · simp only [Option.bind_eq_bind, Option.bind_eq_some_iff, Option.some.injEq] at h
        obtain ⟨_, -, _, -, rfl⟩ := h
        exact hstore _ _
  | _ =>
    simp only [step, Option.bind_eq_bind, Option.bind_eq_some_iff, Option.some.injEq] at h
    first
      | (obtain ⟨_, -, _, -, rfl⟩ := h; first | exact halloc _ _ | exact hstore _ _)
      | (obtain ⟨_, -, rfl⟩ := h; first | exact halloc _ _ | exact hstore _ _)

theorem run_sim (M : Mcl P) (hM : M.Ok) (hsub : ∀ p : P, (M.order : Int) • p = 0) (cs : List (Bool × Cmd)) :
    ∀ (s : St P) (o : Nat → Prop), Openssl.Inv (curve M) s o → InRange M s → Coords M cs → Disciplined M s o cs →
      SpecRun M (abs s) cs (abs (run M s cs)) := by
  induction cs with
  | nil => intro s o _ _ _ _; exact .nil _
  | cons cc cs ih =>
    obtain ⟨ct, c⟩ := cc
    intro s o hI hr hco hd
    obtain ⟨h1, h2⟩ := hd
    have hs := Openssl.sim (curve M) (curve_ok M hM) hsub s o hI (red M c) (by rw [red_target]; exact h1)
    have he := step_eq M hM s o hI hr ct c
    have hco' : Coords M cs := fun ct x a b h => hco ct x a b (List.mem_cons_of_mem _ h)
    unfold Openssl.Sim at hs
    rw [← he, red_own] at hs
    show SpecRun M (abs s) ((ct, c) :: cs) (abs (run M ((step M ct s c).getD s) cs))
    cases h : step M ct s c with
    | none =>
      rw [h] at hs h2
      exact .throws (red_throw M hM s hr c hs) (ih s o hI hr hco' h2)
    | some s' =>
      rw [h] at hs h2
      refine .ok (red_spec M hsub _ _ c hs.1) (ih s' _ hs.2 ?_ hco' h2)
      exact step_range M hM s s' hr ct c (fun x a b e => hco ct x a b (by rw [e]; exact List.mem_cons_self ..)) h

/-- **C134.** A program that calls the libmcl backend in any order, with the
constant-time flag set or not at each call, on a curve whose points all have an
order dividing the group order, that updates in place only variables holding a
point of their own and writes down coordinates below the characteristic only, sees
values: every call that returns has computed the group operation of its name on
the values of its arguments and changed no other variable, and a call throws only
on a variable without a point, on coordinates that no point has, or on a division
by a non-unit.  Partial: for what happens otherwise see the `_violated` theorems. -/
theorem C134_value_semantics_partial (M : Mcl P) (hM : M.Ok) (hsub : ∀ p : P, (M.order : Int) • p = 0)
    (cs : List (Bool × Cmd)) (hco : Coords M cs) (hd : Disciplined M (init M) (fun _ => False) cs) :
    SpecRun M (fun _ => .bytes) cs (abs (run M (init M) cs)) := by
  refine run_sim M hM hsub cs (init M) _ ⟨rfl, ?_, ?_⟩ ?_ hco hd
  · intro x h hv; cases hv
  · intro x hx; exact hx.elim
  · intro x a b h; cases h

/-- **C134.** Without in-place calls no discipline is needed. -/
theorem C134_pure_programs_partial (M : Mcl P) (hM : M.Ok) (hsub : ∀ p : P, (M.order : Int) • p = 0)
    (cs : List (Bool × Cmd)) (hco : Coords M cs) (hp : ∀ ct c, (ct, c) ∈ cs → inplaceTarget c = none) :
    SpecRun M (fun _ => .bytes) cs (abs (run M (init M) cs)) := by
  refine C134_value_semantics_partial M hM hsub cs hco ?_
  have : ∀ (cs : List (Bool × Cmd)) (s : St P) (o : Nat → Prop),
      (∀ ct c, (ct, c) ∈ cs → inplaceTarget c = none) → Disciplined M s o cs := by
    intro cs
    induction cs with
    | nil => intro _ _ _; trivial
    | cons c cs ih =>
      obtain ⟨ct, c⟩ := c
      intro s o h
      refine ⟨fun x hx => by (rw [h ct c (by simp)] at hx; cases hx), ?_⟩
      split
      · exact ih _ _ fun ct c hc => h ct c (by simp [hc])
      · exact ih _ _ fun ct c hc => h ct c (by simp [hc])
  exact this cs _ _ hp

/-- **C134** fails without the discipline: `GetGenerator` hands out the one
generator object of the process.  Doubling the point it returned in place doubles
the generator of every group object of the curve, and `MulBase` multiplies the
wrong point from then on. -/
theorem C134_generator_violated (M : Mcl P) (hM : M.Ok) (k : Int) (hk : 0 ≤ k ∧ k < M.order) :
    abs (run M (init M) [(false, .getGenerator 0), (false, .doubleInplace 0), (false, .mulBase 1 k),
      (false, .getGenerator 2)]) 1 = .point (k • (M.gen + M.gen)) ∧
    abs (run M (init M) [(false, .getGenerator 0), (false, .doubleInplace 0), (false, .mulBase 1 k),
      (false, .getGenerator 2)]) 2 = .point (M.gen + M.gen) := by
  have : k % M.order = k := Int.emod_eq_of_lt hk.1 hk.2
  constructor
  · simp [run, step, init, Openssl.cast, store, alloc, Openssl.abs, absV, this, mulBy, hM.mul_eq _ _ hk.1]
  · simp [run, step, init, Openssl.cast, store, alloc, Openssl.abs, absV]

/-- **C134** fails for coordinates that are not below the characteristic: a
multiple of `256 ^ size` added to a coordinate, positive or negative, makes no
difference, so numbers that are the coordinates of no point are accepted. -/
theorem C134_affine_wrap_violated (M : Mcl P) (hM : M.Ok) (q : P) (x y : Nat) (h : M.affine q = some (x, y))
    (i j : Int) (s : St P) (v z : Nat) (hv : s.vars v = .affine (x + i * 256 ^ M.sz) (y + j * 256 ^ M.sz)) :
    ∃ s', step M false s (.copyPoint z v) = some s' ∧ abs s' z = .point q := by
  obtain ⟨hx, hy⟩ := hM.affine_lt q x y h
  have e : ∀ (a : Nat) (i : Int), toBytes M.sz (a + i * 256 ^ M.sz) = toBytes M.sz a := by
    intro a i
    unfold toBytes
    rw [Int.add_mul_emod_self_right]
  have e2 : getMclPoint M (x + i * 256 ^ M.sz) (y + j * 256 ^ M.sz) = some q := by
    unfold getMclPoint
    rw [e, e, toBytes_nat M hM (a := x) (by omega) (by omega), toBytes_nat M hM (a := y) (by omega) (by omega)]
    have f1 := fpDeser_leB M hM hx []
    have f2 := fpDeser_leB M hM hy []
    rw [List.append_nil] at f1 f2
    rw [Int.toNat_natCast, Int.toNat_natCast, f1, f2]
    exact (hM.set_iff x y q).mpr h
  exact ⟨alloc s z q, by simp [step, hv, e2], by simp [Openssl.abs, absV, alloc]⟩

/-! ## Bytes -/

theorem affineBytes_length (M : Mcl P) (q : P) : (affineBytes M q).length = 2 * M.sz := by
  unfold affineBytes
  split
  · simp
  · simp [leB_length]; omega

theorem affineDeser_bytes (M : Mcl P) (hM : M.Ok) (q : P) : affineDeser M (affineBytes M q) 0 = .point q := by
  unfold affineDeser affineBytes
  have hp := hM.p_pos
  cases h : M.affine q with
  | none =>
    have e : List.replicate (2 * M.sz) (0 : UInt8) = List.replicate M.sz 0 ++ List.replicate M.sz 0 := by
      rw [← List.replicate_add]; congr 1; omega
    have e1 : fpDeser M (List.replicate (2 * M.sz) 0) = .value 0 := by
      rw [fpDeser_of M (by simp; omega) (by rw [List.take_replicate, leV_zeros]; exact hp), List.take_replicate, leV_zeros]
    have e2 : fpDeser M ((List.replicate (2 * M.sz) 0).drop M.sz) = .value 0 := by
      rw [List.drop_replicate, fpDeser_of M (by simp; omega) (by rw [List.take_replicate, leV_zeros]; exact hp),
        List.take_replicate, leV_zeros]
    simp only [e1, e2, and_self, if_true]
    rw [(hM.affine_zero q).mp h]
  | some xy =>
    obtain ⟨x, y⟩ := xy
    obtain ⟨hx, hy⟩ := hM.affine_lt q x y h
    have e1 := fpDeser_leB M hM hx (leB M.sz y)
    have e2 : fpDeser M ((leB M.sz x ++ leB M.sz y).drop M.sz) = .value y := by
      rw [List.drop_append_of_le_length (by simp [leB_length]), List.drop_of_length_le (by simp [leB_length]),
        List.nil_append]
      have := fpDeser_leB M hM hy []
      rwa [List.append_nil] at this
    simp only [e1, e2]
    rw [if_neg (by rintro ⟨rfl, rfl⟩; exact hM.origin q h), (hM.set_iff x y q).mpr h]

theorem written_len (M : Mcl P) (f : Format) (q : P) (len : Nat) (hf : serializeLength M f = some len) :
    ∃ w n, written M q f = some (w, n) ∧ w.length = len := by
  cases f <;> simp only [serializeLength, Option.some.injEq, reduceCtorEq] at hf <;> subst hf
  · unfold written
    cases M.affine q with
    | none => exact ⟨_, _, rfl, by simp⟩
    | some xy => exact ⟨_, _, rfl, by simp [leB_length]⟩
  · unfold written
    cases M.affine q with
    | none => exact ⟨_, _, rfl, by simp⟩
    | some xy => exact ⟨_, _, rfl, by simp [leB_length]⟩
  · exact ⟨_, _, rfl, by simp [affineBytes_length]; omega⟩
  · exact ⟨_, _, rfl, by simp [affineBytes_length]; omega⟩

theorem compressed_deser (M : Mcl P) (hM : M.Ok) {f : Format} (hf : f = .autonomous ∨ f = .x962Compressed)
    (z : UInt8) (v : Nat) (hv : v < M.p) (hne : z ≠ 0) (t : Bytes) :
    deserialize M f (z :: (leB M.sz v ++ t)) =
      match M.lift v (decide (z = 3)) with
      | some q => .point q
      | none => .throws := by
  have hl : serializeLength M f = some (M.sz + 1) := by rcases hf with rfl | rfl <;> rfl
  unfold deserialize
  simp only [hl]
  rw [if_neg (by simp [leB_length])]
  have h0 : ¬ (z :: (leB M.sz v ++ t)).take (M.sz + 1) = List.replicate (M.sz + 1) 0 := by
    rw [List.take_succ_cons, List.replicate_succ]
    intro h
    exact hne (List.cons.inj h).1
  have hd : fpDeser M (((z :: (leB M.sz v ++ t)).drop 1).take (M.sz + 1 - 1)) = .value v := by
    rw [List.drop_one, List.tail_cons, Nat.add_sub_cancel, List.take_append_of_le_length (by simp [leB_length]),
      List.take_of_length_le (by simp [leB_length])]
    have := fpDeser_leB M hM hv []
    rwa [List.append_nil] at this
  have ho : decide ((z :: (leB M.sz v ++ t)).head? = some 3) = decide (z = 3) := by simp
  rcases hf with rfl | rfl <;> · simp only [if_neg h0, hd, ho]; rfl

theorem compressed_inf (M : Mcl P) {f : Format} (hf : f = .autonomous ∨ f = .x962Compressed) (t : Bytes) :
    deserialize M f (List.replicate (M.sz + 1) 0 ++ t) = .point 0 := by
  have hl : serializeLength M f = some (M.sz + 1) := by rcases hf with rfl | rfl <;> rfl
  unfold deserialize
  simp only [hl]
  rw [if_neg (by simp; omega)]
  have h0 : (List.replicate (M.sz + 1) 0 ++ t).take (M.sz + 1) = List.replicate (M.sz + 1) (0 : UInt8) := by
    rw [List.take_append_of_le_length (by simp), List.take_of_length_le (by simp)]
  rcases hf with rfl | rfl <;> simp only [if_pos h0]

theorem written_deser (M : Mcl P) (hM : M.Ok) (f : Format) (q : P) (w : Bytes) (n : Nat)
    (h : written M q f = some (w, n)) (t : Bytes) : deserialize M f (w ++ t) = .point q := by
  have hcomp : ∀ f : Format, (f = .autonomous ∨ f = .x962Compressed) →
      (match M.affine q with
        | none => some (List.replicate (M.sz + 1) 0, M.sz + 1)
        | some (x, _) => some ((if yOdd M q then 3 else 2) :: leB M.sz x, M.sz)) = some (w, n) →
      deserialize M f (w ++ t) = .point q := by
    intro f hf h
    cases ha : M.affine q with
    | none =>
      rw [ha] at h
      simp only [Option.some.injEq, Prod.mk.injEq] at h
      rw [← h.1, (hM.affine_zero q).mp ha]
      exact compressed_inf M hf t
    | some xy =>
      obtain ⟨x, y⟩ := xy
      obtain ⟨hx, hy⟩ := hM.affine_lt q x y ha
      rw [ha] at h
      simp only [Option.some.injEq, Prod.mk.injEq] at h
      rw [← h.1, List.cons_append, compressed_deser M hM hf _ x hx (by split <;> decide) t]
      have e : decide ((if yOdd M q then (3 : UInt8) else 2) = 3) = (y % 2 == 1) := by
        unfold yOdd
        rw [ha]
        simp only
        by_cases hy1 : y % 2 = 1 <;> simp [hy1]
      rw [e, hM.lift_affine q x y ha]
  have haff : ∀ b : UInt8, (((b :: affineBytes M q) ++ t).drop 1).take (M.sz * 2 + 1 - 1) = affineBytes M q := by
    intro b
    rw [List.cons_append, List.drop_one, List.tail_cons, Nat.add_sub_cancel,
      List.take_append_of_le_length (by simp [affineBytes_length]; omega),
      List.take_of_length_le (by simp [affineBytes_length]; omega)]
  have hlen : ∀ b : UInt8, ¬ ((b :: affineBytes M q) ++ t).length < M.sz * 2 + 1 := by
    intro b; simp [affineBytes_length]; omega
  cases f with
  | plainUncompressed => simp [written] at h
  | zcash => simp [written] at h
  | autonomous => exact hcomp _ (Or.inl rfl) h
  | x962Compressed => exact hcomp _ (Or.inr rfl) h
  | x962Uncompressed =>
    simp only [written, Option.some.injEq, Prod.mk.injEq] at h
    rw [← h.1]
    unfold deserialize
    simp only [serializeLength]
    rw [if_neg (hlen 4), if_pos (by simp), haff]
    exact affineDeser_bytes M hM q
  | x962Hybrid =>
    simp only [written, Option.some.injEq, Prod.mk.injEq] at h
    rw [← h.1]
    unfold deserialize
    simp only [serializeLength]
    rw [if_neg (hlen _), if_pos (by cases yOdd M q <;> simp), haff]
    exact affineDeser_bytes M hM q

/-- **C134.** Every point, infinity included, survives serialization in each
format that has a length, through the returned buffer and through a caller's
buffer of exactly that length; bytes after it are not looked at; a shorter buffer
throws when writing and when reading; different points have different bytes.  The
other formats throw. -/
theorem C134_bytes (M : Mcl P) (hM : M.Ok) (f : Format) (q : P) :
    (serializeLength M f = none ↔ f = .plainUncompressed ∨ f = .zcash) ∧
    (serializeLength M f = none → serialize M f q = none ∧ ∀ b, deserialize M f b = .throws) ∧
    ∀ len, serializeLength M f = some len →
      (∃ b, serialize M f q = some b ∧ serializeTo M f q len = some b ∧ b.length = len ∧
        ∀ t, deserialize M f (b ++ t) = .point q) ∧
      (∀ n, n < len → serializeTo M f q n = none) ∧
      (∀ b, b.length < len → deserialize M f b = .throws) ∧
      (∀ r, serialize M f q = serialize M f r → q = r) := by
  refine ⟨by cases f <;> simp [serializeLength], ?_, ?_⟩
  · intro h
    constructor
    · simp [serialize, h]
    · intro b
      unfold deserialize
      rw [h]
  · intro len hf
    have key : ∀ q : P, ∃ b, serialize M f q = some b ∧ serializeTo M f q len = some b ∧ b.length = len ∧
        ∀ t, deserialize M f (b ++ t) = .point q := by
      intro q
      obtain ⟨w, n, hw, hl⟩ := written_len M f q len hf
      have h1 : serializeTo M f q len = some w := by
        unfold serializeTo
        simp [hf, hw]
      exact ⟨w, by simp [serialize, hf, h1], h1, hl, written_deser M hM f q w n hw⟩
    refine ⟨key q, ?_, ?_, ?_⟩
    · intro n hn
      unfold serializeTo
      simp [hf, hn]
    · intro b hb
      unfold deserialize
      simp only [hf]
      rw [if_pos hb]
    · intro r hr
      obtain ⟨b, h1, -, -, h2⟩ := key q
      obtain ⟨b', h1', -, -, h2'⟩ := key r
      rw [hr, h1'] at h1
      have : b' = b := Option.some.inj h1
      subst this
      have := (h2 []).symm.trans (h2' [])
      simpa using this

/-- The coordinate a format puts last. -/
def lastCoord (f : Format) (x y : Nat) : Nat :=
  match f with
  | .x962Uncompressed | .x962Hybrid => y
  | _ => x

theorem leB_cut (M : Mcl P) (hM : M.Ok) (v : Nat) :
    (leB M.sz v).take (M.sz - 1) ++ [0] = leB M.sz (v % 256 ^ (M.sz - 1)) := by
  obtain ⟨n, hn⟩ : ∃ n, M.sz = n + 1 := ⟨M.sz - 1, by have := hM.sz_pos; omega⟩
  rw [hn, Nat.add_sub_cancel, leB_split, List.take_append_of_le_length (by simp [leB_length]),
    List.take_of_length_le (by simp [leB_length]), leB_split]
  have h : ∀ n v, leB n (v % 256 ^ n) = leB n v := by
    intro n
    induction n with
    | zero => intro v; rfl
    | succ n ih =>
      intro v
      rw [leB, leB]
      have e1 : UInt8.ofNat (v % 256 ^ (n + 1)) = UInt8.ofNat v := by
        apply UInt8.toNat_inj.mp
        rw [UInt8.toNat_ofNat', UInt8.toNat_ofNat']
        exact Nat.mod_mod_of_dvd v (by rw [pow_succ]; exact Dvd.intro_left _ rfl)
      have e2 : v % 256 ^ (n + 1) / 256 = v / 256 % 256 ^ n := by
        rw [pow_succ, Nat.mod_mul_left_div_self]
      rw [e1, e2, ih]
  rw [h, Nat.div_eq_of_lt (Nat.mod_lt _ (by positivity))]
  rfl

/-- **C134** fails for a caller's buffer longer than the announced length: the
bytes after the encoding are cleared from one byte too early, so that the top byte
of the last coordinate is lost.  The buffer reads back as the point exactly if
that byte was 0; infinity is not affected in the compressed format. -/
theorem C134_long_buffer_violated (M : Mcl P) (hM : M.Ok) (f : Format) (q : P) (len n : Nat)
    (hf : serializeLength M f = some len) (hn : len < n) (x y : Nat) (h : M.affine q = some (x, y)) :
    ∃ b, serializeTo M f q n = some b ∧
      (deserialize M f b = .point q ↔ lastCoord f x y < 256 ^ (M.sz - 1)) := by
  obtain ⟨hx, hy⟩ := hM.affine_lt q x y h
  have hp := hM.p_le
  have hs := hM.sz_pos
  have hmod : ∀ v, v < M.p → v % 256 ^ (M.sz - 1) < M.p := fun v hv => lt_of_le_of_lt (Nat.mod_le _ _) hv
  have hiff : ∀ v : Nat, v % 256 ^ (M.sz - 1) = v ↔ v < 256 ^ (M.sz - 1) := by
    intro v
    constructor
    · intro e; rw [← e]; exact Nat.mod_lt _ (by positivity)
    · exact Nat.mod_eq_of_lt
  have hrep : ∀ k, 0 < k → List.replicate k (0 : UInt8) = [0] ++ List.replicate (k - 1) 0 := by
    intro k hk
    obtain ⟨j, rfl⟩ : ∃ j, k = j + 1 := ⟨k - 1, by omega⟩
    simp [List.replicate_succ]
  have hcomp : ∀ f : Format, (f = .autonomous ∨ f = .x962Compressed) → M.sz + 1 < n →
      (written M q f = some ((if yOdd M q then 3 else 2) :: leB M.sz x, M.sz)) →
      ∃ b, serializeTo M f q n = some b ∧ (deserialize M f b = .point q ↔ x < 256 ^ (M.sz - 1)) := by
    intro f hf' hn hw
    have hl : serializeLength M f = some (M.sz + 1) := by rcases hf' with rfl | rfl <;> rfl
    refine ⟨((if yOdd M q then 3 else 2) :: leB M.sz x).take M.sz ++ List.replicate (n - M.sz) 0, ?_, ?_⟩
    · unfold serializeTo
      simp [hl, hw, hn, show ¬ n < M.sz + 1 by omega]
    · have e : ((if yOdd M q then (3 : UInt8) else 2) :: leB M.sz x).take M.sz ++ List.replicate (n - M.sz) 0 =
          (if yOdd M q then 3 else 2) :: (leB M.sz (x % 256 ^ (M.sz - 1)) ++ List.replicate (n - M.sz - 1) 0) := by
        rw [← leB_cut M hM x, hrep (n - M.sz) (by omega)]
        obtain ⟨k, hk⟩ : ∃ k, M.sz = k + 1 := ⟨M.sz - 1, by omega⟩
        rw [hk, List.take_succ_cons]
        simp
      rw [e, compressed_deser M hM hf' _ _ (hmod x hx) (by split <;> decide), ← hiff]
      have ho : decide ((if yOdd M q then (3 : UInt8) else 2) = 3) = (y % 2 == 1) := by
        unfold yOdd
        rw [h]
        simp only
        by_cases hy1 : y % 2 = 1 <;> simp [hy1]
      rw [ho]
      constructor
      · intro hd
        cases hlift : M.lift (x % 256 ^ (M.sz - 1)) (y % 2 == 1) with
        | none => rw [hlift] at hd; cases hd
        | some r =>
          rw [hlift] at hd
          have hr : r = q := by simpa using hd
          subst hr
          obtain ⟨y', hy'⟩ := hM.lift_x _ _ _ hlift
          rw [h] at hy'
          simp only [Option.some.injEq, Prod.mk.injEq] at hy'
          exact hy'.1.symm
      · intro he
        rw [he, hM.lift_affine q x y h]
  have haff : ∀ z : UInt8, M.sz * 2 + 1 < n →
      ((z :: affineBytes M q).take (2 * M.sz) ++ List.replicate (n - 2 * M.sz) 0) =
        z :: ((leB M.sz x ++ leB M.sz (y % 256 ^ (M.sz - 1))) ++ List.replicate (n - 2 * M.sz - 1) 0) := by
    intro z hn
    have e : affineBytes M q = leB M.sz x ++ leB M.sz y := by unfold affineBytes; rw [h]
    rw [e, ← leB_cut M hM y, hrep (n - 2 * M.sz) (by omega)]
    obtain ⟨k, hk⟩ : ∃ k, 2 * M.sz = k + 1 := ⟨2 * M.sz - 1, by omega⟩
    rw [hk, List.take_succ_cons, List.take_append, List.take_of_length_le (by simp [leB_length]; omega), leB_length,
      show k - M.sz = M.sz - 1 by omega]
    simp
  have hda : affineDeser M (leB M.sz x ++ leB M.sz (y % 256 ^ (M.sz - 1))) 0 = .point q ↔ y < 256 ^ (M.sz - 1) := by
    have e1 := fpDeser_leB M hM hx (leB M.sz (y % 256 ^ (M.sz - 1)))
    have e2 : fpDeser M ((leB M.sz x ++ leB M.sz (y % 256 ^ (M.sz - 1))).drop M.sz) = .value (y % 256 ^ (M.sz - 1)) := by
      rw [List.drop_append_of_le_length (by simp [leB_length]), List.drop_of_length_le (by simp [leB_length]),
        List.nil_append]
      have := fpDeser_leB M hM (hmod y hy) []
      rwa [List.append_nil] at this
    unfold affineDeser
    simp only [e1, e2]
    rw [← hiff]
    split
    · next h0 =>
      constructor
      · intro hd
        have : q = 0 := by simpa using hd.symm
        rw [(hM.affine_zero q).mpr this] at h
        cases h
      · intro he
        exfalso
        rw [← he, h0.1, h0.2] at h
        exact hM.origin q h
    · constructor
      · intro hd
        cases hset : M.set x (y % 256 ^ (M.sz - 1)) with
        | none => rw [hset] at hd; cases hd
        | some r =>
          rw [hset] at hd
          have hr : r = q := by simpa using hd
          subst hr
          have := (hM.set_iff _ _ r).mp hset
          rw [h] at this
          simp only [Option.some.injEq, Prod.mk.injEq] at this
          exact this.2.symm
      · intro he
        rw [he, (hM.set_iff x y q).mpr h]
  have htake : ∀ z : UInt8, (((z :: ((leB M.sz x ++ leB M.sz (y % 256 ^ (M.sz - 1))) ++
      List.replicate (n - 2 * M.sz - 1) 0)).drop 1).take (M.sz * 2 + 1 - 1)) =
      leB M.sz x ++ leB M.sz (y % 256 ^ (M.sz - 1)) := by
    intro z
    rw [List.drop_one, List.tail_cons, Nat.add_sub_cancel,
      List.take_append_of_le_length (by simp [leB_length]; omega),
      List.take_of_length_le (by simp [leB_length]; omega)]
  have hlen : ∀ z : UInt8, ¬ (z :: ((leB M.sz x ++ leB M.sz (y % 256 ^ (M.sz - 1))) ++
      List.replicate (n - 2 * M.sz - 1) 0)).length < M.sz * 2 + 1 := by
    intro z; simp [leB_length]; omega
  cases f with
  | plainUncompressed => simp [serializeLength] at hf
  | zcash => simp [serializeLength] at hf
  | autonomous =>
    simp only [serializeLength, Option.some.injEq] at hf
    exact hcomp _ (Or.inl rfl) (by omega) (by simp [written, h])
  | x962Compressed =>
    simp only [serializeLength, Option.some.injEq] at hf
    exact hcomp _ (Or.inr rfl) (by omega) (by simp [written, h])
  | x962Uncompressed =>
    simp only [serializeLength, Option.some.injEq] at hf
    refine ⟨(4 :: affineBytes M q).take (2 * M.sz) ++ List.replicate (n - 2 * M.sz) 0, ?_, ?_⟩
    · unfold serializeTo
      simp [serializeLength, written, affineBytes_length, show ¬ n < M.sz * 2 + 1 by omega,
        show M.sz * 2 + 1 < n by omega]
    · rw [haff 4 (by omega)]
      unfold deserialize
      simp only [serializeLength]
      rw [if_neg (hlen 4), if_pos (by simp), htake]
      exact hda
  | x962Hybrid =>
    simp only [serializeLength, Option.some.injEq] at hf
    refine ⟨((if yOdd M q then 7 else 6) :: affineBytes M q).take (2 * M.sz) ++ List.replicate (n - 2 * M.sz) 0, ?_, ?_⟩
    · unfold serializeTo
      simp [serializeLength, written, affineBytes_length, show ¬ n < M.sz * 2 + 1 by omega,
        show M.sz * 2 + 1 < n by omega]
    · rw [haff _ (by omega)]
      unfold deserialize
      simp only [serializeLength]
      rw [if_neg (hlen _), if_pos (by cases yOdd M q <;> simp), htake]
      exact hda

/-- **C134.** Into a longer buffer, infinity is written rightly in the compressed
format. -/
theorem C134_long_buffer_infinity (M : Mcl P) (hM : M.Ok) (n : Nat) (hn : M.sz + 1 < n) :
    serializeTo M .x962Compressed (0 : P) n = some (List.replicate n 0) ∧
    deserialize M .x962Compressed (List.replicate n 0) = .point (0 : P) := by
  have h := (hM.affine_zero 0).mpr rfl
  constructor
  · unfold serializeTo
    simp [serializeLength, written, h, hn, show ¬ n < M.sz + 1 by omega]
    omega
  · have := compressed_inf M (f := .x962Compressed) (Or.inr rfl) (List.replicate (n - (M.sz + 1)) 0)
    rw [← List.replicate_add, show M.sz + 1 + (n - (M.sz + 1)) = n by omega] at this
    exact this

/-- **C134** fails for malformed bytes.  Compressed: any first byte but 3 stands
for an even `y`.  Hybrid: the parity in the first byte is not compared with `y`.
Uncompressed: coordinates that no point has are not refused, the call returns an
object. -/
theorem C134_malformed_violated (M : Mcl P) (hM : M.Ok) :
    (∀ (q : P) x y, M.affine q = some (x, y) → y % 2 = 0 → ∀ z : UInt8, z ≠ 3 → z ≠ 0 →
      deserialize M .x962Compressed (z :: leB M.sz x) = .point q) ∧
    (∀ q : P, deserialize M .x962Hybrid (6 :: affineBytes M q) = .point q ∧
      deserialize M .x962Hybrid (7 :: affineBytes M q) = .point q) ∧
    (∀ x y : Nat, x < 256 ^ M.sz → y < 256 ^ M.sz → (x ≠ 0 ∨ y ≠ 0) → (∀ q, M.affine q ≠ some (x, y)) →
      deserialize M .x962Uncompressed (4 :: (leB M.sz x ++ leB M.sz y)) = .junk) := by
  refine ⟨?_, ?_, ?_⟩
  · intro q x y h hy z hz hz0
    have := compressed_deser M hM (f := .x962Compressed) (Or.inr rfl) z x (hM.affine_lt q x y h).1 hz0 []
    rw [List.append_nil] at this
    rw [this]
    have e : decide (z = 3) = (y % 2 == 1) := by simp [hz, hy]
    rw [e, hM.lift_affine q x y h]
  · intro q
    have htake : ((affineBytes M q)).take (M.sz * 2 + 1 - 1) = affineBytes M q :=
      List.take_of_length_le (by simp [affineBytes_length]; omega)
    constructor <;>
    · unfold deserialize
      simp only [serializeLength]
      rw [if_neg (by simp [affineBytes_length]; omega), if_pos (by simp), List.drop_one, List.tail_cons, htake]
      exact affineDeser_bytes M hM q
  · intro x y hx hy h0 hne
    have htake : (leB M.sz x ++ leB M.sz y).take (M.sz * 2 + 1 - 1) = leB M.sz x ++ leB M.sz y :=
      List.take_of_length_le (by simp [leB_length]; omega)
    unfold deserialize
    simp only [serializeLength]
    rw [if_neg (by simp [leB_length]; omega), if_pos (by simp), List.drop_one, List.tail_cons, htake]
    unfold affineDeser
    have e1 : fpDeser M (leB M.sz x ++ leB M.sz y) = if x < M.p then .value x else .junk := by
      unfold fpDeser
      rw [if_neg (by simp [leB_length]), List.take_append_of_le_length (by simp [leB_length]),
        List.take_of_length_le (by simp [leB_length]), leV_leB, Nat.mod_eq_of_lt hx]
    have e2 : fpDeser M ((leB M.sz x ++ leB M.sz y).drop M.sz) = if y < M.p then .value y else .junk := by
      rw [List.drop_append_of_le_length (by simp [leB_length]), List.drop_of_length_le (by simp [leB_length]),
        List.nil_append]
      unfold fpDeser
      rw [if_neg (by simp [leB_length]), List.take_of_length_le (by simp [leB_length]), leV_leB, Nat.mod_eq_of_lt hy]
    rw [e1, e2]
    by_cases hxp : x < M.p
    · by_cases hyp : y < M.p
      · rw [if_pos hxp, if_pos hyp]
        simp only
        rw [if_neg (by omega)]
        cases hset : M.set x y with
        | none => rfl
        | some q => exact absurd ((hM.set_iff x y q).mp hset) (hne q)
      · rw [if_pos hxp, if_neg hyp]
    · rw [if_neg hxp]

/-! ## Hash to curve -/

/-- **C134.** `HashToCurve` with a hash of enough bytes whose first `size` bytes,
read little-endian, are below the characteristic, gives the point with the first
`x` from that number on; it is not infinity.  SHA-2 and BLAKE3 give enough bytes
on every curve of up to 512 bits.  Partial: see the `_violated` theorems. -/
theorem C134_hash_partial (M : Mcl P) (hM : M.Ok) (bits : Nat) (hsz : M.sz = (bits + 7) / 8) (hb : bits ≤ 512)
    (H : HashAlg → Nat → Bytes → Bytes) (nist : Nat → Bytes → Int × Int)
    (hlen : ∀ n m, (H .sha224 n m).length = 28 ∧ (H .sha256 n m).length = 32 ∧ (H .sha384 n m).length = 48 ∧
      (H .sha512 n m).length = 64 ∧ (H .sm3 n m).length = 32 ∧ (H .blake3 n m).length = n)
    (st : Strategy) (m : Bytes)
    (hst : st = .sha2 ∨ st = .blake3 ∨ st = .autonomous ∨ (st = .sm ∧ bits ≤ 256)) :
    ∃ alg, chooseAlg bits st = some alg ∧ M.sz ≤ (H alg ((bits + 7) / 8) m).length ∧
      ∀ v, v = leV ((H alg ((bits + 7) / 8) m).take M.sz) → v < M.p →
        hashToCurve M bits H nist st m = .point (M.tryInc v) ∧ M.tryInc v ≠ 0 ∧
        ∃ i y, M.affine (M.tryInc v) = some ((v + i) % M.p, y) ∧
          ∀ j, j < i → ∀ q y, M.affine q ≠ some ((v + j) % M.p, y) := by
  have hl := fun n => hlen n m
  have main : ∀ alg, chooseAlg bits st = some alg → M.sz ≤ (H alg ((bits + 7) / 8) m).length →
      ∀ v, v = leV ((H alg ((bits + 7) / 8) m).take M.sz) → v < M.p →
        hashToCurve M bits H nist st m = .point (M.tryInc v) ∧ M.tryInc v ≠ 0 ∧
        ∃ i y, M.affine (M.tryInc v) = some ((v + i) % M.p, y) ∧
          ∀ j, j < i → ∀ q y, M.affine q ≠ some ((v + j) % M.p, y) := by
    intro alg ha hs v hv hvp
    refine ⟨?_, ?_, hM.tryInc v⟩
    · have hd : fpDeser M (H alg ((bits + 7) / 8) m) = .value v := by
        rw [fpDeser_of M hs (by rw [← hv]; exact hvp), ← hv]
      unfold hashToCurve
      rcases hst with rfl | rfl | rfl | ⟨rfl, -⟩ <;> simp only [ha, hd]
    · intro h0
      obtain ⟨i, y, h1, -⟩ := hM.tryInc v
      rw [(hM.affine_zero _).mpr h0] at h1
      cases h1
  rcases hst with rfl | rfl | rfl | ⟨rfl, h256⟩
  · have : ∃ alg, chooseAlg bits .sha2 = some alg ∧ M.sz ≤ (H alg ((bits + 7) / 8) m).length := by
      refine ⟨_, rfl, ?_⟩
      obtain ⟨h1, h2, h3, h4, -⟩ := hl ((bits + 7) / 8)
      by_cases c1 : bits ≤ 224
      · rw [if_pos c1, h1]; omega
      · by_cases c2 : bits ≤ 256
        · rw [if_neg c1, if_pos c2, h2]; omega
        · by_cases c3 : bits ≤ 384
          · rw [if_neg c1, if_neg c2, if_pos c3, h3]; omega
          · rw [if_neg c1, if_neg c2, if_neg c3, h4]; omega
    obtain ⟨alg, ha, hs⟩ := this
    exact ⟨alg, ha, hs, main alg ha hs⟩
  · have hs : M.sz ≤ (H .blake3 ((bits + 7) / 8) m).length := by rw [(hl _).2.2.2.2.2]; omega
    exact ⟨_, rfl, hs, main _ rfl hs⟩
  · have hs : M.sz ≤ (H .blake3 ((bits + 7) / 8) m).length := by rw [(hl _).2.2.2.2.2]; omega
    exact ⟨_, rfl, hs, main _ rfl hs⟩
  · have hs : M.sz ≤ (H .sm3 ((bits + 7) / 8) m).length := by rw [(hl _).2.2.2.2.1]; omega
    exact ⟨_, rfl, hs, main _ rfl hs⟩

/-- **C134** fails for `TryAndIncrement_SM` on secp384r1 (and any field of more
than 32 bytes): SM3 gives 32 bytes, reading 48 fails, the failure is not looked
at, and every message hashes to the same point. -/
theorem C134_hash_sm_violated (M : Mcl P) (bits : Nat) (hsz : 32 < M.sz)
    (H : HashAlg → Nat → Bytes → Bytes) (hlen : ∀ n m, (H .sm3 n m).length = 32)
    (nist : Nat → Bytes → Int × Int) (m m' : Bytes) :
    hashToCurve M bits H nist .sm m = hashToCurve M bits H nist .sm m' ∧
    hashToCurve M bits H nist .sm m = .point (M.tryInc 0) := by
  have h : ∀ m, hashToCurve M bits H nist .sm m = .point (M.tryInc 0) := by
    intro m
    have : fpDeser M (H .sm3 ((bits + 7) / 8) m) = .unchanged := by
      unfold fpDeser
      rw [if_pos (by rw [hlen]; exact hsz)]
    unfold hashToCurve
    simp only [chooseAlg, this]
  exact ⟨by rw [h, h], h m⟩

/-- **C134** fails for the SSWU strategies: on every curve they return the
coordinates of a point of P-256, P-384 or P-521, as an `AffinePoint`, on which the
group's own operations throw. -/
theorem C134_hash_sswu_violated (M : Mcl P) (bits : Nat) (H : HashAlg → Nat → Bytes → Bytes)
    (nist : Nat → Bytes → Int × Int) (m : Bytes) :
    hashToCurve M bits H nist .p256Nu m = .affine (nist 256 m).1 (nist 256 m).2 ∧
    hashToCurve M bits H nist .p384Nu m = .affine (nist 384 m).1 (nist 384 m).2 ∧
    hashToCurve M bits H nist .p521Nu m = .affine (nist 521 m).1 (nist 521 m).2 ∧
    ∀ (s : St P) (v : Nat) (a b : Int), s.vars v = .affine a b → ∀ x y ct k,
      step M ct s (.add x v y) = none ∧ step M ct s (.mul x v k) = none ∧ step M ct s (.negate x v) = none := by
  refine ⟨rfl, rfl, rfl, ?_⟩
  intro s v a b hv x y ct k
  simp [step, hv, Openssl.cast]

/-- **C134.** The strategies `HashToCurve` does not know throw. -/
theorem C134_hash_throws (M : Mcl P) (bits : Nat) (H : HashAlg → Nat → Bytes → Bytes)
    (nist : Nat → Bytes → Int × Int) (m : Bytes) :
    hashToCurve M bits H nist .sha3 m = .throws ∧ hashToCurve M bits H nist .other m = .throws := ⟨rfl, rfl⟩

/-- **C134.** The hash of a point depends on the point only, and a point and its
opposite with `y` of the other parity have hashes that differ. -/
theorem C134_hash_point (M : Mcl P) (hM : M.Ok) (q r : P) (x y y' : Nat) (h : M.affine q = some (x, y))
    (h' : M.affine r = some (x, y')) (hu : M.unit x < 2 ^ 64 - 1) :
    hashPoint M q = M.unit x + y % 2 ∧ (hashPoint M q = hashPoint M r ↔ y % 2 = y' % 2) := by
  have := hM.p_pos
  unfold hashPoint
  rw [h, h']
  simp only
  rw [Nat.mod_eq_of_lt (show M.unit x + y % 2 < 2 ^ 64 by omega),
    Nat.mod_eq_of_lt (show M.unit x + y' % 2 < 2 ^ 64 by omega)]
  omega

/-! ## A curve that meets the hypotheses: `y² = x³ + 5` over the field of 7 elements -/

/-- The coordinates of the multiples of `(3, 2)`. -/
def toyAffine (q : ZMod 7) : Option (Nat × Nat) :=
  match q.val with
  | 0 => none
  | 1 => some (3, 2)
  | 2 => some (5, 2)
  | 3 => some (6, 5)
  | 4 => some (6, 2)
  | 5 => some (5, 5)
  | _ => some (3, 5)

/-- How far from `w` the next `x` is. -/
def toyStep (w : Nat) : Nat := if w ≤ 3 then 3 - w else if w ≤ 5 then 5 - w else 6 - w

/-- All points. -/
def toyPoints : List (ZMod 7) := [0, 1, 2, 3, 4, 5, 6]

/-- The toy libmcl. -/
def toy : Mcl (ZMod 7) where
  gen := 1
  order := 7
  p := 7
  sz := 1
  mul q k := k • q
  mulCT q k := k • q
  mulVec q r k l := k • q + l • r
  affine := toyAffine
  set x y := toyPoints.find? fun q => decide (toyAffine q = some (x, y))
  setJunk _ _ := none
  lift x b := toyPoints.find? fun q => match toyAffine q with
    | none => false
    | some (x', y) => x' == x && (y % 2 == 1) == b
  tryInc v := if v % 7 ≤ 3 then 1 else if v % 7 ≤ 5 then 2 else 3
  unit x := x

theorem toyAffine_inj : ∀ q r : ZMod 7, toyAffine q = toyAffine r → q = r := by decide +kernel

theorem toy_ok : toy.Ok where
  order_pos := by decide
  order_lt := by
    show 7 < 2 ^ 8192
    calc 7 < 2 ^ 3 := by norm_num
      _ ≤ 2 ^ 8192 := Nat.pow_le_pow_right (by norm_num) (by norm_num)
  order_gen := by decide +kernel
  gen_ne := by decide +kernel
  p_pos := by decide
  p_lt := by
    show 7 < 2 ^ 8192
    calc 7 < 2 ^ 3 := by norm_num
      _ ≤ 2 ^ 8192 := Nat.pow_le_pow_right (by norm_num) (by norm_num)
  sz_pos := by decide
  p_le := by decide
  mul_eq _ _ _ := rfl
  mulCT_eq _ _ _ := rfl
  mulVec_eq _ _ _ _ _ _ := rfl
  affine_zero := by decide +kernel
  affine_inj := toyAffine_inj
  affine_lt := by
    have : ∀ q : ZMod 7, ∀ xy, toyAffine q = some xy → xy.1 < 7 ∧ xy.2 < 7 := by decide +kernel
    exact fun q x y h => this q (x, y) h
  set_iff x y q := by
    show toyPoints.find? (fun q => decide (toyAffine q = some (x, y))) = some q ↔ toyAffine q = some (x, y)
    have hmem : ∀ q : ZMod 7, q ∈ toyPoints := by decide +kernel
    constructor
    · intro h
      have := List.find?_some h
      simpa using this
    · intro h
      cases hf : toyPoints.find? (fun q => decide (toyAffine q = some (x, y))) with
      | none =>
        rw [List.find?_eq_none] at hf
        exact absurd (by simpa using h) (hf q (hmem q))
      | some r =>
        have := List.find?_some hf
        have hr : toyAffine r = some (x, y) := by simpa using this
        rw [toyAffine_inj r q (by rw [hr, h])]
  origin := by decide +kernel
  lift_affine := by
    have : ∀ q : ZMod 7, ∀ xy, toyAffine q = some xy → toy.lift xy.1 (xy.2 % 2 == 1) = some q := by decide +kernel
    exact fun q x y h => this q (x, y) h
  lift_x x b q h := by
    have := List.find?_some h
    show ∃ y, toyAffine q = some (x, y)
    cases ha : toyAffine q with
    | none => simp [ha] at this
    | some xy =>
      obtain ⟨x', y⟩ := xy
      simp only [ha, Bool.and_eq_true, beq_iff_eq] at this
      exact ⟨y, by rw [this.1]⟩
  tryInc v := by
    have h : ∀ w : Fin 7, toyAffine (toy.tryInc w) = some ((w + toyStep w) % 7, if w.val ≤ 5 then 2 else 5) ∧
        ∀ j : Fin 7, j.val < toyStep w → ∀ q, ∀ y : Fin 7, toyAffine q ≠ some ((w + j.val) % 7, y.val) := by
      decide +kernel
    have hlt : ∀ q : ZMod 7, ∀ xy, toyAffine q = some xy → xy.2 < 7 := by decide +kernel
    have hv : v % 7 < 7 := Nat.mod_lt _ (by norm_num)
    obtain ⟨h1, h2⟩ := h ⟨v % 7, hv⟩
    have hi : toyStep (v % 7) < 7 := by
      unfold toyStep
      split
      · omega
      · split <;> omega
    refine ⟨toyStep (v % 7), if v % 7 ≤ 5 then 2 else 5, ?_, ?_⟩
    · have e : toy.tryInc v = toy.tryInc (v % 7) := by
        show (if v % 7 ≤ 3 then (1 : ZMod 7) else if v % 7 ≤ 5 then 2 else 3) =
          if v % 7 % 7 ≤ 3 then 1 else if v % 7 % 7 ≤ 5 then 2 else 3
        rw [Nat.mod_mod]
      show toyAffine _ = some ((v + toyStep (v % 7)) % 7, _)
      rw [e, h1, Nat.mod_add_mod]
    · intro j hj q y hq
      have hq' : toyAffine q = some ((v + j) % 7, y) := hq
      refine h2 ⟨j, by omega⟩ hj q ⟨y, hlt q _ hq'⟩ ?_
      rw [hq', Nat.mod_add_mod]

theorem toy_sub : ∀ p : ZMod 7, (toy.order : Int) • p = 0 := by decide +kernel

/-- A program that is disciplined: a multiple of the generator, doubled in place. -/
example : Coords toy [(true, .mulBase 0 9), (false, .doubleInplace 0), (false, .affineLit 1 3 2)] ∧
    Disciplined toy (init toy) (fun _ => False)
      [(true, .mulBase 0 9), (false, .doubleInplace 0), (false, .affineLit 1 3 2)] := by
  constructor
  · intro ct x a b h
    simp at h
    obtain ⟨-, -, rfl, rfl⟩ := h
    decide
  · refine ⟨fun x h => by simp [inplaceTarget] at h, ?_⟩
    refine ⟨fun x h => ?_, ?_⟩
    · have : x = 0 := by simpa [inplaceTarget] using h.symm
      subst this
      exact Or.inl rfl
    · exact ⟨fun x h => by simp [inplaceTarget] at h, trivial⟩

/-- The generator `(3, 2)` written to three bytes loses its `x` coordinate. -/
example : serialize toy .x962Compressed 1 = some [2, 3] ∧ serializeTo toy .x962Compressed 1 3 = some [2, 0, 0] ∧
    deserialize toy .x962Compressed [2, 0, 0] = .throws ∧ deserialize toy .x962Compressed [99, 3] = .point 1 := by
  decide +kernel

/-- `(1, 1)` is not on the curve. -/
example : deserialize toy .x962Uncompressed [4, 1, 1] = .junk := by decide +kernel

end Verif.Ecc.Mcl
