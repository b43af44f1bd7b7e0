import Verif.Aes.Model
import Mathlib.Data.Fintype.Basic
import Mathlib.Tactic.FinCases

/-!
# AES: facts about the standard's operations and the instructions
-/

namespace Verif.Aes

open Fips

theorem forall_byte {P : BitVec 8 → Prop} (h : ∀ n : Fin 256, P (BitVec.ofFin n)) (b : BitVec 8) : P b := by
  have := h b.toFin
  simpa using this

theorem invSbox_sbox (b : BitVec 8) : invSbox (sbox b) = b :=
  forall_byte (P := fun b => invSbox (sbox b) = b) (by decide +kernel) b

theorem sbox_invSbox (b : BitVec 8) : sbox (invSbox b) = b :=
  forall_byte (P := fun b => sbox (invSbox b) = b) (by decide +kernel) b

theorem xtime_xor (a b : BitVec 8) : xtime (a ^^^ b) = xtime a ^^^ xtime b := by
  unfold xtime
  rw [BitVec.shiftLeft_xor_distrib, BitVec.msb_xor]
  generalize a <<< 1 = x
  generalize b <<< 1 = y
  have h : ∀ x y k : BitVec 8, (x ^^^ k) ^^^ (y ^^^ k) = x ^^^ y := by
    intro x y k
    rw [show (x ^^^ k) ^^^ (y ^^^ k) = (x ^^^ y) ^^^ (k ^^^ k) by ac_rfl]
    simp
  cases a.msb <;> cases b.msb <;> simp only [bne_self_eq_false, Bool.false_bne, Bool.bne_false,
    Bool.not_true, if_true, Bool.false_eq_true, if_false, BitVec.xor_zero]
  · ac_rfl
  · ac_rfl
  · exact (h _ _ _).symm

theorem xtime_iter_xor (n : Nat) (a b : BitVec 8) :
    xtime^[n] (a ^^^ b) = xtime^[n] a ^^^ xtime^[n] b := by
  induction n generalizing a b with
  | zero => rfl
  | succ n ih => simp only [Function.iterate_succ, Function.comp, xtime_xor, ih]

theorem xor4 (a b c d : BitVec 8) : (a ^^^ b) ^^^ (c ^^^ d) = (a ^^^ c) ^^^ (b ^^^ d) := by
  ac_rfl

theorem gmul_xor (c a b : BitVec 8) : gmul c (a ^^^ b) = gmul c a ^^^ gmul c b := by
  unfold gmul
  induction List.range 8 with
  | nil => simp
  | cons i l ih =>
    rw [List.foldr_cons, ih, List.foldr_cons, List.foldr_cons]
    split
    · rw [xtime_iter_xor]
      exact xor4 _ _ _ _
    · simp

theorem shiftRows_subBytes (s : State) : shiftRows (subBytes s) = subBytes (shiftRows s) := rfl

theorem invShiftRows_invSubBytes (s : State) :
    invShiftRows (invSubBytes s) = invSubBytes (invShiftRows s) := rfl

theorem invSubBytes_subBytes (s : State) : invSubBytes (subBytes s) = s := by
  funext i; exact invSbox_sbox _

theorem invShiftRows_shiftRows (s : State) : invShiftRows (shiftRows s) = s := by
  funext i
  have h : pos ((pos (i.val % 4) (i.val / 4 + 4 - i.val % 4)).val % 4)
      ((pos (i.val % 4) (i.val / 4 + 4 - i.val % 4)).val / 4 +
        (pos (i.val % 4) (i.val / 4 + 4 - i.val % 4)).val % 4) = i := by
    revert i; decide
  show s _ = _
  rw [h]

theorem circ0 (x : BitVec 8) :
    gmul 0x0e#8 (gmul 2#8 x) ^^^ gmul 0x0b#8 (gmul 1#8 x) ^^^ gmul 0x0d#8 (gmul 1#8 x) ^^^
      gmul 0x09#8 (gmul 3#8 x) = x :=
  forall_byte (P := fun x => gmul 0x0e#8 (gmul 2#8 x) ^^^ gmul 0x0b#8 (gmul 1#8 x) ^^^
    gmul 0x0d#8 (gmul 1#8 x) ^^^ gmul 0x09#8 (gmul 3#8 x) = x) (by decide +kernel) x

theorem circ1 (x : BitVec 8) :
    gmul 0x0e#8 (gmul 3#8 x) ^^^ gmul 0x0b#8 (gmul 2#8 x) ^^^ gmul 0x0d#8 (gmul 1#8 x) ^^^
      gmul 0x09#8 (gmul 1#8 x) = 0#8 :=
  forall_byte (P := fun x => gmul 0x0e#8 (gmul 3#8 x) ^^^ gmul 0x0b#8 (gmul 2#8 x) ^^^
    gmul 0x0d#8 (gmul 1#8 x) ^^^ gmul 0x09#8 (gmul 1#8 x) = 0#8) (by decide +kernel) x

theorem circ2 (x : BitVec 8) :
    gmul 0x0e#8 (gmul 1#8 x) ^^^ gmul 0x0b#8 (gmul 3#8 x) ^^^ gmul 0x0d#8 (gmul 2#8 x) ^^^
      gmul 0x09#8 (gmul 1#8 x) = 0#8 :=
  forall_byte (P := fun x => gmul 0x0e#8 (gmul 1#8 x) ^^^ gmul 0x0b#8 (gmul 3#8 x) ^^^
    gmul 0x0d#8 (gmul 2#8 x) ^^^ gmul 0x09#8 (gmul 1#8 x) = 0#8) (by decide +kernel) x

theorem circ3 (x : BitVec 8) :
    gmul 0x0e#8 (gmul 1#8 x) ^^^ gmul 0x0b#8 (gmul 1#8 x) ^^^ gmul 0x0d#8 (gmul 3#8 x) ^^^
      gmul 0x09#8 (gmul 2#8 x) = 0#8 :=
  forall_byte (P := fun x => gmul 0x0e#8 (gmul 1#8 x) ^^^ gmul 0x0b#8 (gmul 1#8 x) ^^^
    gmul 0x0d#8 (gmul 3#8 x) ^^^ gmul 0x09#8 (gmul 2#8 x) = 0#8) (by decide +kernel) x

/-- One entry of `InvMixColumns (MixColumns column)`. -/
theorem circ_col (a b c d : BitVec 8) :
    gmul 0x0e#8 (gmul 2#8 a ^^^ gmul 3#8 b ^^^ gmul 1#8 c ^^^ gmul 1#8 d) ^^^
    gmul 0x0b#8 (gmul 2#8 b ^^^ gmul 3#8 c ^^^ gmul 1#8 d ^^^ gmul 1#8 a) ^^^
    gmul 0x0d#8 (gmul 2#8 c ^^^ gmul 3#8 d ^^^ gmul 1#8 a ^^^ gmul 1#8 b) ^^^
    gmul 0x09#8 (gmul 2#8 d ^^^ gmul 3#8 a ^^^ gmul 1#8 b ^^^ gmul 1#8 c) = a := by
  have ha := circ0 a
  have hb := circ1 b
  have hc := circ2 c
  have hd := circ3 d
  simp only [gmul_xor]
  have : ∀ a1 a2 a3 a4 b1 b2 b3 b4 c1 c2 c3 c4 d1 d2 d3 d4 : BitVec 8,
      (a1 ^^^ b1 ^^^ c1 ^^^ d1) ^^^ (b2 ^^^ c2 ^^^ d2 ^^^ a2) ^^^ (c3 ^^^ d3 ^^^ a3 ^^^ b3) ^^^
        (d4 ^^^ a4 ^^^ b4 ^^^ c4) =
      (a1 ^^^ a2 ^^^ a3 ^^^ a4) ^^^ (b1 ^^^ b2 ^^^ b3 ^^^ b4) ^^^ (c1 ^^^ c2 ^^^ c3 ^^^ c4) ^^^
        (d1 ^^^ d2 ^^^ d3 ^^^ d4) := by
    intros; ac_rfl
  rw [this, ha, hb, hc, hd]
  simp

attribute [local irreducible] gmul in
theorem invMix_mix (s : State) : invMixColumns (mixColumns s) = s := by
  funext i
  have h : i = pos (i.val % 4) (i.val / 4) := by revert i; decide
  conv_rhs => rw [h]
  rw [← circ_col (s (pos (i.val % 4) (i.val / 4))) (s (pos (i.val % 4 + 1) (i.val / 4)))
    (s (pos (i.val % 4 + 2) (i.val / 4))) (s (pos (i.val % 4 + 3) (i.val / 4)))]
  fin_cases i <;> rfl

theorem invMix_xor (a b : State) :
    invMixColumns (xor128 a b) = xor128 (invMixColumns a) (invMixColumns b) := by
  funext i
  simp only [invMixColumns, circulant, xor128, gmul_xor]
  ac_rfl

theorem xor128_cancel (a b : M128) : xor128 (xor128 a b) b = a := by
  funext i
  simp [xor128, BitVec.xor_assoc]

end Verif.Aes
