import Verif.BigInt.GmpMont

/-! The Montgomery spaces of the libtommath and OpenSSL backends, with the reduction of the library as a parameter, and worked examples: yacl/math/bigint/{tommath,openssl}/mont_space.cc.
Property C109. -/
namespace Yacl.BigInt.Lib

/-- What the libraries document about their Montgomery reduction (`mp_montgomery_reduce`, `BN_from_montgomery`): for `0 ≤ x < m R` the result is in `[0, m)` and is `x / R` modulo `m`. -/
structure Reduction (m R : Nat) (red : Int → Int) : Prop where
  coprime : Nat.Coprime R m
  pos : 0 < m
  le : m ≤ R
  range : ∀ x : Int, 0 ≤ x → x < m * R → 0 ≤ red x ∧ red x < m
  val : ∀ x : Int, 0 ≤ x → x < m * R → red x * R ≡ x [ZMOD m]

/-- tommath/mont_space.cc L33-56: `identity_` is `R mod m` (`mp_montgomery_calc_normalization`), `MapIntoMSpace` is `mp_mulmod` with it, `MulMod` a product and a reduction. -/
def tomSpace (m R : Nat) (red : Int → Int) : Space Int := ⟨(R % m : Nat), fun a => a * (R % m : Nat) % m, fun a b => red (a * b), fun a => a < 0⟩

/-- openssl/mont_space.cc L37-60: `BN_to_montgomery` multiplies with `R^2 mod m` and reduces; `identity_` is 1 mapped into the space; numbers outside `[0, m)` are reduced first. -/
def osslSpace (m R : Nat) (red : Int → Int) : Space Int :=
  ⟨red (1 * (R * R % m : Nat)), fun a => red ((if a < 0 ∨ (m : Int) ≤ a then a % m else a) * (R * R % m : Nat)), fun a b => red (a * b), fun a => a < 0⟩

/-- The number that a number in Montgomery form stands for. -/
noncomputable def val (m R : Nat) (a : Int) : ZMod m := (a : ZMod m) * ((R : Nat) : ZMod m)⁻¹

variable {m R : Nat} {red : Int → Int}

theorem unit_inv (h : Reduction m R red) : ((R : Nat) : ZMod m) * ((R : Nat) : ZMod m)⁻¹ = 1 := ZMod.coe_mul_inv_eq_one _ h.coprime

theorem red_val (h : Reduction m R red) (x : Int) (h0 : 0 ≤ x) (h1 : x < m * R) : (red x : ZMod m) = (x : ZMod m) * ((R : Nat) : ZMod m)⁻¹ := by
  have := (ZMod.intCast_eq_intCast_iff _ _ _).mpr (h.val x h0 h1)
  rw [Int.cast_mul, Int.cast_natCast] at this
  rw [← this, mul_assoc, unit_inv h, mul_one]

theorem mul_bound (h : Reduction m R red) (a b : Int) (ha : 0 ≤ a ∧ a < m) (hb : 0 ≤ b ∧ b < m) : 0 ≤ a * b ∧ a * b < m * R := by
  refine ⟨mul_nonneg ha.1 hb.1, ?_⟩
  have hm : (0 : Int) < m := by have := h.pos; omega
  have hle : (m : Int) ≤ R := by have := h.le; omega
  calc a * b ≤ a * m := mul_le_mul_of_nonneg_left hb.2.le ha.1
    _ < m * m := mul_lt_mul_of_pos_right ha.2 hm
    _ ≤ m * R := mul_le_mul_of_nonneg_left hle hm.le

theorem tom_law (h : Reduction m R red) : (tomSpace m R red).Law (fun a => 0 ≤ a ∧ a < m) (val m R) := by
  have hm : 0 < m := h.pos
  refine ⟨⟨Int.natCast_nonneg _, ?_⟩, ?_, ?_, ?_⟩
  · show ((R % m : Nat) : Int) < m
    exact_mod_cast Nat.mod_lt R hm
  · show val m R ((R % m : Nat) : Int) = 1
    unfold val
    rw [Int.cast_natCast, ZMod.natCast_mod, unit_inv h]
  · intro a b ha hb
    obtain ⟨h0, h1⟩ := mul_bound h a b ha hb
    exact h.range _ h0 h1
  · intro a b ha hb
    obtain ⟨h0, h1⟩ := mul_bound h a b ha hb
    show val m R (red (a * b)) = _
    unfold val
    rw [red_val h _ h0 h1, Int.cast_mul]
    ring

theorem ossl_into (h : Reduction m R red) (a : Int) : (0 ≤ (osslSpace m R red).into a ∧ (osslSpace m R red).into a < m) ∧ val m R ((osslSpace m R red).into a) = (a : ZMod m) := by
  have hm : (0 : Int) < m := by have := h.pos; omega
  have hz : ∃ w : Int, (if a < 0 ∨ (m : Int) ≤ a then a % m else a) = w ∧ (0 ≤ w ∧ w < m) ∧ (w : ZMod m) = (a : ZMod m) := by
    split_ifs with hc
    · exact ⟨_, rfl, ⟨Int.emod_nonneg _ hm.ne', Int.emod_lt_of_pos _ hm⟩, (ZMod.intCast_eq_intCast_iff _ _ _).mpr (Int.mod_modEq _ _)⟩
    · exact ⟨a, rfl, ⟨by omega, by omega⟩, rfl⟩
  obtain ⟨w, e, hw, hwv⟩ := hz
  have hr : (0 : Int) ≤ (R * R % m : Nat) ∧ ((R * R % m : Nat) : Int) < m := ⟨by omega, by exact_mod_cast Nat.mod_lt _ h.pos⟩
  obtain ⟨h0, h1⟩ := mul_bound h _ _ hw hr
  show (0 ≤ red ((if a < 0 ∨ (m : Int) ≤ a then a % m else a) * (R * R % m : Nat)) ∧ red ((if a < 0 ∨ (m : Int) ≤ a then a % m else a) * (R * R % m : Nat)) < m) ∧
    val m R (red ((if a < 0 ∨ (m : Int) ≤ a then a % m else a) * (R * R % m : Nat))) = (a : ZMod m)
  rw [e]
  refine ⟨h.range _ h0 h1, ?_⟩
  unfold val
  rw [red_val h _ h0 h1, Int.cast_mul, Int.cast_natCast, ZMod.natCast_mod, Nat.cast_mul, hwv]
  have hu := unit_inv h
  calc (a : ZMod m) * ((R : ZMod m) * R) * (R : ZMod m)⁻¹ * (R : ZMod m)⁻¹ = a * ((R * (R : ZMod m)⁻¹) * (R * (R : ZMod m)⁻¹)) := by ring
    _ = a := by rw [hu]; ring

theorem ossl_law (h : Reduction m R red) (h1m : 1 < m) : (osslSpace m R red).Law (fun a => 0 ≤ a ∧ a < m) (val m R) := by
  have e1 : (osslSpace m R red).one = (osslSpace m R red).into 1 := by
    show red (1 * (R * R % m : Nat)) = red ((if (1 : Int) < 0 ∨ (m : Int) ≤ 1 then (1 : Int) % m else 1) * (R * R % m : Nat))
    rw [if_neg (by omega)]
  refine ⟨?_, ?_, ?_, ?_⟩
  · rw [e1]; exact (ossl_into h 1).1
  · rw [e1, (ossl_into h 1).2]; simp
  · intro a b ha hb
    obtain ⟨h0, h1⟩ := mul_bound h a b ha hb
    exact h.range _ h0 h1
  · intro a b ha hb
    obtain ⟨h0, h1⟩ := mul_bound h a b ha hb
    show val m R (red (a * b)) = _
    unfold val
    rw [red_val h _ h0 h1, Int.cast_mul]
    ring

theorem red_of_val (h : Reduction m R red) (r : Int) (hr : 0 ≤ r ∧ r < m) (a : Int) (hv : val m R r = (a : ZMod m)) : red r = a % m := by
  have hm : (0 : Int) < m := by have := h.pos; omega
  have hR : (0 : Int) < R := by have := h.le; omega
  have hb : r < m * R := lt_of_lt_of_le hr.2 (le_mul_of_one_le_right hm.le (by omega))
  have h1 := red_val h r hr.1 hb
  rw [show (r : ZMod m) * ((R : Nat) : ZMod m)⁻¹ = (a : ZMod m) from hv] at h1
  have h2 : red r ≡ a [ZMOD m] := (ZMod.intCast_eq_intCast_iff _ _ _).mp h1
  obtain ⟨h3, h4⟩ := h.range r hr.1 hb
  rw [← h2, Int.emod_eq_of_lt h3 h4]

/-- C109 (libtommath, words of 60 bits). -/
theorem C109_tom_pow (h : Reduction m R red) (base : Int) (hbase : 0 ≤ base) (unit max : Nat) (hu0 : 0 < unit) (hu : unit < 32) :
    ∃ T, makeTable (tomSpace m R red) base unit max = .ok T ∧ max ≤ T.maxBits ∧
      (∀ e : Nat, e.size ≤ T.maxBits → ∃ r, powMod (tomSpace m R red) 60 T e (getWords 60 e) = .ok r ∧ red r = base ^ e % m) ∧
      (∀ e : Int, e < 0 ∨ T.maxBits < e.natAbs.size → powMod (tomSpace m R red) 60 T e (getWords 60 e.natAbs) = .throws) := by
  have hm : (0 : Int) < m := by have := h.pos; omega
  obtain ⟨T, hT, hmax⟩ := (C109_table (tomSpace m R red) base unit max).2 (by simpa [tomSpace] using hbase) hu0 hu
  have hb : 0 ≤ (tomSpace m R red).into base ∧ (tomSpace m R red).into base < m := ⟨Int.emod_nonneg _ hm.ne', Int.emod_lt_of_pos _ hm⟩
  have hiv : val m R ((tomSpace m R red).into base) = (base : ZMod m) := by
    show val m R (base * (R % m : Nat) % m) = _
    unfold val
    rw [(ZMod.intCast_eq_intCast_iff (base * (R % m : Nat) % m) (base * (R % m : Nat)) m).mpr (Int.mod_modEq _ _), Int.cast_mul, Int.cast_natCast, ZMod.natCast_mod, mul_assoc, unit_inv h, mul_one]
  refine ⟨T, hT, hmax, ?_, ?_⟩
  · intro e he
    obtain ⟨w1, w2⟩ := getWords_ok 60 e (by omega)
    obtain ⟨r, h1, h2, h3⟩ := (C109_pow (tom_law h) base hb unit max T hT 60 (by omega) (by omega) e _ w1 (by simpa using w2)).1 ⟨by omega, by simpa using he⟩
    refine ⟨r, h1, red_of_val h r h2 _ ?_⟩
    rw [h3, hiv, Int.cast_pow]
    rfl
  · intro e he
    obtain ⟨w1, w2⟩ := getWords_ok 60 e.natAbs (by omega)
    exact (C109_pow (tom_law h) base hb unit max T hT 60 (by omega) (by omega) e _ w1 w2).2 (by omega)

/-- C109 (OpenSSL, padded words of 64 bits). -/
theorem C109_ossl_pow (h : Reduction m R red) (h1m : 1 < m) (base : Int) (hbase : 0 ≤ base) (unit max : Nat) (hu0 : 0 < unit) (hu : unit < 32) :
    ∃ T, makeTable (osslSpace m R red) base unit max = .ok T ∧ max ≤ T.maxBits ∧
      (∀ e : Nat, e.size ≤ T.maxBits → ∃ r, powMod (osslSpace m R red) 64 T e (getWordsOpenssl e) = .ok r ∧ red r = base ^ e % m) ∧
      (∀ e : Int, e < 0 ∨ T.maxBits < e.natAbs.size → powMod (osslSpace m R red) 64 T e (getWordsOpenssl e.natAbs) = .throws) := by
  obtain ⟨T, hT, hmax⟩ := (C109_table (osslSpace m R red) base unit max).2 (by simpa [osslSpace] using hbase) hu0 hu
  obtain ⟨hb, hiv⟩ := ossl_into h base
  refine ⟨T, hT, hmax, ?_, ?_⟩
  · intro e he
    obtain ⟨w1, w2⟩ := getWordsOpenssl_ok e
    obtain ⟨r, h1, h2, h3⟩ := (C109_pow (ossl_law h h1m) base hb unit max T hT 64 (by omega) (by omega) e _ w1 (by simpa using w2)).1 ⟨by omega, by simpa using he⟩
    refine ⟨r, h1, red_of_val h r h2 _ ?_⟩
    rw [h3, hiv, Int.cast_pow]
    rfl
  · intro e he
    obtain ⟨w1, w2⟩ := getWordsOpenssl_ok e.natAbs
    exact (C109_pow (ossl_law h h1m) base hb unit max T hT 64 (by omega) (by omega) e _ w1 w2).2 (by omega)

/-! ### Non-vacuity -/

/-- A reduction exists for every modulus that is coprime to `R`: the GMP one above is such a reduction. -/
theorem gmp_reduction (n : Int) (c : Gmp.Ctx) (hc : Gmp.mkCtx n = some c) : Reduction c.n (Gmp.B ^ Gmp.size c.n) (Gmp.back c) := by
  obtain ⟨-, h⟩ := Gmp.good_of_mk hc
  have hpos : 0 < c.n := by have := h.odd; omega
  have key : ∀ x : Int, 0 ≤ x → x < c.n * (Gmp.B ^ Gmp.size c.n : Nat) → ∃ z, z < c.n ∧ z * Gmp.B ^ Gmp.size c.n ≡ x.natAbs [MOD c.n] ∧ Gmp.back c x = (z : Nat) := by
    intro x h0 h1
    obtain ⟨z, g1, g2, g3⟩ := Gmp.reduce_spec c.n c.rho h.rho hpos x (by
      have : (x.natAbs : Int) = x := by omega
      have h2 : (x.natAbs : Int) < ((c.n * Gmp.B ^ Gmp.size c.n : Nat) : Int) := by rw [this, Nat.cast_mul]; exact h1
      exact_mod_cast h2)
    exact ⟨z, g1, g2, by unfold Gmp.back; rw [g3, if_neg (by omega)]⟩
  refine ⟨Gmp.coprime_pow c h, hpos, (Gmp.n_lt c h).le, ?_, ?_⟩
  · intro x h0 h1
    obtain ⟨z, g1, -, g3⟩ := key x h0 h1
    rw [g3]; omega
  · intro x h0 h1
    obtain ⟨z, -, g2, g3⟩ := key x h0 h1
    rw [g3]
    have e : ((x.natAbs : Nat) : Int) = x := by omega
    have g4 := Int.natCast_modEq_iff.mpr g2
    rw [e, Nat.cast_mul] at g4
    exact g4

/-- A modulus of 127 bits is accepted, and the hypotheses of the theorems above hold for it. -/
example : ∃ c, Gmp.mkCtx (2 ^ 127 - 1) = some c ∧ Reduction c.n (Gmp.B ^ Gmp.size c.n) (Gmp.back c) ∧ Gmp.back c (Gmp.mul c (Gmp.into c (-5)) (Gmp.into c (2 ^ 126))) = -5 * 2 ^ 126 % (2 ^ 127 - 1) := by
  obtain ⟨c, hc⟩ := (Gmp.C109_gmp_new (2 ^ 127 - 1)).2 (by decide)
  exact ⟨c, hc, gmp_reduction _ c hc, Gmp.C109_gmp_mul _ c hc _ _⟩

/-- A table with units of 5 bits for 100-bit exponents; the units cross the words. -/
example : ∃ c T r, Gmp.mkCtx 97 = some c ∧ makeTable (Gmp.space c) 3 5 100 = .ok T ∧ powMod (Gmp.space c) 64 T ((2 ^ 99 : Nat) : Int) (getWords 64 (2 ^ 99)) = .ok r ∧
    Gmp.back c r = 3 ^ (2 ^ 99) % 97 := by
  obtain ⟨c, hc⟩ := (Gmp.C109_gmp_new 97).2 (by decide)
  obtain ⟨T, h1, h2, h3, -⟩ := Gmp.C109_gmp_pow 97 c hc 3 (by omega) 5 100 (by omega) (by omega)
  obtain ⟨r, h4, h5⟩ := h3 (2 ^ 99) (le_trans (by rw [Nat.size_pow]) h2)
  exact ⟨c, T, r, hc, h1, h4, h5⟩

/-- C109. Units of 32 bits and more are not refused: the shift is undefined. -/
theorem C109_unit_violated {α : Type} (S : Space α) (base : α) (hb : S.neg base = false) (max : Nat) : makeTable S base 32 max = .ub := by
  unfold makeTable
  rw [if_neg (by simp [hb]), if_neg (by omega), if_pos (by omega)]

end Yacl.BigInt.Lib
