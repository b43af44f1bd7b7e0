import Verif.Ecc.HashToCurve
import Verif.Crypto.BlockCipherProps

namespace Yacl.Ecc.H2C
open Vss (addMod subMod mulMod invertMod cast_mod)
open BlockCipher (Byte Bytes beNat beBytes)

/-! ### Specification: RFC 9380 -/
namespace Rfc

/-- The blocks `b_1, b_2, …` (5.3.1, steps 8 to 10). -/
def block (H : Bytes → Bytes) (b0 dstPrime : Bytes) : Nat → Bytes
  | 0 => []
  | 1 => H (b0 ++ beBytes 1 1 ++ dstPrime)
  | i + 2 => H (List.zipWith (· ^^^ ·) b0 (block H b0 dstPrime (i + 1)) ++ beBytes 1 (i + 2) ++ dstPrime)

/-- `expand_message_xmd` (5.3.1) with hash `H`, whose block has `s` bytes and digest `b` bytes. -/
def expand (H : Bytes → Bytes) (b s : Nat) (msg dst : Bytes) (len : Nat) : Bytes :=
  let dstPrime := dst ++ beBytes 1 dst.length
  let b0 := H (List.replicate s 0 ++ msg ++ beBytes 2 len ++ beBytes 1 0 ++ dstPrime)
  (((List.range ((len + b - 1) / b)).map fun i => block H b0 dstPrime (i + 1)).flatten).take len

/-- `hash_to_field` (5.2) for a prime field: `count` numbers below `p`. -/
def field (H : Bytes → Bytes) (b s : Nat) (p l : Nat) (msg dst : Bytes) (count : Nat) : List Nat :=
  (List.range count).map fun i => beNat (((expand H b s msg dst (count * l)).drop (l * i)).take l) % p

end Rfc

theorem block_length (h : Hash) (b0 d : Bytes) (i : Nat) : (Rfc.block h.fn b0 d (i + 1)).length = h.size := by
  cases i with
  | zero => exact h.fn_len _
  | succ i => exact h.fn_len _

theorem beBytes_one (i : Nat) : beBytes 1 i = [BitVec.ofNat 8 i] := rfl

theorem zip_comm : ∀ a b : Bytes, List.zipWith (· ^^^ ·) a b = List.zipWith (· ^^^ ·) b a
  | [], [] => rfl
  | [], _ :: _ => rfl
  | _ :: _, [] => rfl
  | x :: a, y :: b => by
    simp only [List.zipWith_cons_cons, BitVec.xor_comm x y]
    rw [zip_comm a b]

theorem xmdLoop_eq (h : Hash) (d b0 : Bytes) (k i : Nat) (ret : Bytes) :
    xmdLoop h d b0 k (i + 2) (Rfc.block h.fn b0 d (i + 1)) ret = ret ++ ((List.range k).map fun j => Rfc.block h.fn b0 d (i + 2 + j)).flatten := by
  induction k generalizing i ret with
  | zero => simp [xmdLoop]
  | succ k ih =>
    simp only [xmdLoop, hashUpdate, hashReset, hashCumulative, List.nil_append]
    have hb : h.fn (List.zipWith (· ^^^ ·) (Rfc.block h.fn b0 d (i + 1)) b0 ++ [BitVec.ofNat 8 (i + 2)] ++ d) = Rfc.block h.fn b0 d (i + 2) := by
      rw [zip_comm]
      rfl
    rw [hb]
    have := ih (i + 1) (ret ++ Rfc.block h.fn b0 d (i + 2))
    rw [show i + 1 + 2 = i + 2 + 1 by omega, show i + 1 + 1 = i + 2 by omega] at this
    rw [this, List.range_succ_eq_map, List.map_cons, List.flatten_cons, List.map_map, List.append_assoc]
    congr 3
    apply List.map_congr_left
    intro j _
    simp only [Function.comp]
    rw [show i + 2 + 1 + j = i + 2 + j.succ by omega]

theorem blocks_length (h : Hash) (b0 d : Bytes) (n : Nat) : ((List.range n).map fun i => Rfc.block h.fn b0 d (i + 1)).flatten.length = n * h.size := by
  induction n with
  | zero => simp
  | succ n ih => rw [List.range_succ, List.map_append, List.flatten_append, List.length_append, ih]; simp [block_length, Nat.succ_mul]

theorem ceil_le (len b : Nat) (hb : 0 < b) : len ≤ (len + b - 1) / b * b := by
  have h1 := Nat.div_add_mod (len + b - 1) b
  have h2 := Nat.mod_lt (len + b - 1) hb
  rw [Nat.mul_comm] at h1
  omega

/-- The requests `ExpandMessageXmd` accepts. -/
def Accepts (c : Ctx) (dst : Bytes) (len : Nat) : Prop :=
  (len + c.hash.size - 1) / c.hash.size ≤ 255 ∧ len ≤ 65535 ∧ 16 ≤ dst.length ∧ dst.length ≤ 255

instance (c : Ctx) (dst : Bytes) (len : Nat) : Decidable (Accepts c dst len) := by unfold Accepts; infer_instance

/-- C104. `ExpandMessageXmd` is `expand_message_xmd` of RFC 9380 for every hash, message, tag and length it accepts (the RFC's bounds, and tags of at least 16
bytes), and it throws for all others. The result has the requested length. -/
theorem C104_expand (c : Ctx) (msg dst : Bytes) (len : Nat) :
    (expandMessageXmd c msg dst len = if Accepts c dst len then some (Rfc.expand c.hash.fn c.hash.size c.sInBytes msg dst len) else none) ∧
    (Rfc.expand c.hash.fn c.hash.size c.sInBytes msg dst len).length = len := by
  have hl : ∀ b0 d, len ≤ ((List.range ((len + c.hash.size - 1) / c.hash.size)).map fun i => Rfc.block c.hash.fn b0 d (i + 1)).flatten.length := by
    intro b0 d
    rw [blocks_length]
    exact ceil_le len _ c.hash.size_pos
  refine ⟨?_, ?_⟩
  · unfold expandMessageXmd
    by_cases h : Accepts c dst len
    · rw [if_pos h]
      obtain ⟨h1, h2, h3, h4⟩ := h
      simp only
      rw [if_pos ⟨h1, h2, h3, h4⟩]
      have e1 : i2osp dst.length 1 = some (beBytes 1 dst.length) := if_pos (by omega)
      have e2 : i2osp len 2 = some (beBytes 2 len) := if_pos (by omega)
      rw [e1, Option.bind_some, e2, Option.bind_some]
      congr 1
      simp only [hashUpdate, hashReset, hashCumulative, List.nil_append]
      unfold Rfc.expand
      simp only
      generalize hb0 : c.hash.fn (List.replicate c.sInBytes 0 ++ msg ++ beBytes 2 len ++ [0] ++ (dst ++ beBytes 1 dst.length)) = b0
      have hb0' : c.hash.fn (List.replicate c.sInBytes 0 ++ msg ++ beBytes 2 len ++ beBytes 1 0 ++ (dst ++ beBytes 1 dst.length)) = b0 := hb0
      rw [hb0']
      generalize hd : dst ++ beBytes 1 dst.length = d
      have hb1 : c.hash.fn (b0 ++ [1] ++ d) = Rfc.block c.hash.fn b0 d 1 := rfl
      rw [hb1]
      have hx := xmdLoop_eq c.hash d b0 ((len + c.hash.size - 1) / c.hash.size - 1) 0 (Rfc.block c.hash.fn b0 d 1)
      rw [Nat.zero_add] at hx
      rw [Nat.zero_add] at hx
      rw [hx]
      by_cases h0 : len = 0
      · subst h0
        simp
      · have hell : 0 < (len + c.hash.size - 1) / c.hash.size := Nat.div_pos (by have := c.hash.size_pos; omega) c.hash.size_pos
        have hs : Rfc.block c.hash.fn b0 d 1 ++ ((List.range ((len + c.hash.size - 1) / c.hash.size - 1)).map fun j => Rfc.block c.hash.fn b0 d (2 + j)).flatten =
            ((List.range ((len + c.hash.size - 1) / c.hash.size)).map fun i => Rfc.block c.hash.fn b0 d (i + 1)).flatten := by
          obtain ⟨k, hk⟩ : ∃ k, (len + c.hash.size - 1) / c.hash.size = k + 1 := ⟨_, (Nat.succ_pred_eq_of_pos hell).symm⟩
          rw [hk, List.range_succ_eq_map, List.map_cons, List.flatten_cons, List.map_map]
          congr 2
          apply List.map_congr_left
          intro j _
          simp only [Function.comp]
          rw [show 2 + j = j.succ + 1 by omega]
        rw [hs, Nat.sub_eq_zero_of_le (hl b0 d), List.replicate_zero, List.append_nil]
    · rw [if_neg h]
      simp only
      exact if_neg h
  · unfold Rfc.expand
    simp only
    rw [List.length_take, Nat.min_eq_left (hl _ _)]

/-- C104. `HashToField` gives the field elements of RFC 9380, each as `keySize` big-endian bytes, for every context whose prime fits. -/
theorem C104_field (c : Ctx) (p : Nat) (hp : c.at? "p" = some (p : Int)) (h0 : 0 < p) (hk : p ≤ 256 ^ c.keySize) (msg dst : Bytes) (count l : Nat) :
    hashToField c msg dst count l =
      if Accepts c dst (count * l) then some ((Rfc.field c.hash.fn c.hash.size c.sInBytes p l msg dst count).map (beBytes c.keySize)) else none := by
  unfold hashToField
  rw [(C104_expand c msg dst (count * l)).1]
  by_cases h : Accepts c dst (count * l)
  · rw [if_pos h, if_pos h, Option.bind_some]
    unfold Rfc.field
    rw [List.map_map]
    generalize Rfc.expand c.hash.fn c.hash.size c.sInBytes msg dst (count * l) = u
    have key : ∀ L : List Nat, (L.mapM fun i => (c.at? "p").bind fun p => toBytesPad c.keySize ((beNat ((u.drop (l * i)).take l) : Int) % p)) =
        some (L.map (beBytes c.keySize ∘ fun i => beNat ((u.drop (l * i)).take l) % p)) := by
      intro L
      induction L with
      | nil => rfl
      | cons i L ih =>
        have e : (c.at? "p").bind (fun p => toBytesPad c.keySize ((beNat ((u.drop (l * i)).take l) : Int) % p)) =
            some (beBytes c.keySize (beNat ((u.drop (l * i)).take l) % p)) := by
          rw [hp, Option.bind_some]
          unfold toBytesPad
          have e : ((beNat ((u.drop (l * i)).take l) : Int) % (p : Int)).toNat = beNat ((u.drop (l * i)).take l) % p := by
            rw [← Int.natCast_emod, Int.toNat_natCast]
          rw [e, if_pos (lt_of_lt_of_le (Nat.mod_lt _ h0) hk)]
        rw [List.mapM_cons, e, ih]
        rfl
    exact key _
  · rw [if_neg h, if_neg h]
    rfl

/-- Every element is below the prime and comes back from its bytes. -/
theorem field_lt (H : Bytes → Bytes) (b s p l : Nat) (h0 : 0 < p) (msg dst : Bytes) (count : Nat) : ∀ v ∈ Rfc.field H b s p l msg dst count, v < p := by
  intro v hv
  unfold Rfc.field at hv
  obtain ⟨i, -, rfl⟩ := List.mem_map.mp hv
  exact Nat.mod_lt _ h0

theorem beNat_pad (k v : Nat) (h : v < 256 ^ k) : beNat (beBytes k v) = v := by
  rw [BlockCipher.beBytes_beNat, Nat.mod_eq_of_lt h]

/-! ### Powers -/

theorem powMod_range {p : ℕ} [Fact p.Prime] (a e : Int) : 0 ≤ powMod a e p ∧ powMod a e p < p := by
  unfold powMod
  rw [Int.toNat_natCast, pw_eq _ _ _ _ Nat.lt_log2_self]
  have := Nat.mod_lt ((a % (p : Int)).toNat ^ e.toNat) (Fact.out : p.Prime).pos
  omega

theorem cast_pow {p : ℕ} [Fact p.Prime] (a e : Int) : ((powMod a e p : Int) : ZMod p) = (a : ZMod p) ^ e.toNat := by
  unfold powMod
  rw [Int.toNat_natCast, pw_eq _ _ _ _ Nat.lt_log2_self, Int.cast_natCast, ZMod.natCast_mod, Nat.cast_pow]
  have h : (((a % (p : Int)).toNat : ℕ) : ZMod p) = (a : ZMod p) := by
    have h0 : 0 ≤ a % (p : Int) := Int.emod_nonneg _ (by have := (Fact.out : p.Prime).pos; omega)
    have : (((a % (p : Int)).toNat : Int) : ZMod p) = ((a % (p : Int) : Int) : ZMod p) := by rw [Int.toNat_of_nonneg h0]
    rw [Int.cast_natCast] at this
    rw [this, cast_mod]
  rw [h]

/-- A hash for examples: one byte, the sum of the bytes. -/
def toyHash : Hash := ⟨1, fun x => [x.foldl (· + ·) 1], by decide, fun _ => rfl⟩

/-- The bounds are met: 96 bytes with a tag of 20. -/
example : Accepts (ctx256 toyHash) (List.replicate 20 1) 96 ∧ ¬ Accepts (ctx256 toyHash) (List.replicate 15 1) 96 := by decide

end Yacl.Ecc.H2C
