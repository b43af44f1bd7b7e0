import Verif.Ecc.Ristretto
import Verif.Ecc.HashToField
import Verif.Ecc.Primes
import Mathlib.Data.ZMod.Basic
import Mathlib.Tactic.Abel

/-! # C133: the Ristretto255 group of libsodium computes in the group, and X25519 agrees on keys -/
namespace Yacl.Ecc.Sodium
open BlockCipher (Byte Bytes beNat beBytes beBytes_beNat beBytes_length beNat_lt)
open H2C (Hash Ctx expandMessageXmd C104_expand)

/-! ## Specification -/

variable {G : Type} [AddCommGroup G]
attribute [local irreducible] order

/-- What libsodium documents: `enc` is the canonical encoding of a group `G` of the given order, `map` the one-way map of 64 bytes to the group. The arithmetic
rejects bytes that are not encodings; the multiplication also rejects a result that is the neutral element. -/
structure ROk (L : RLib) (enc : G → Bytes) (gen : G) (map : Bytes → G) : Prop where
  enc_len : ∀ a, (enc a).length = 32
  enc_inj : ∀ a b, enc a = enc b → a = b
  enc_zero : enc 0 = List.replicate 32 0
  torsion : ∀ a : G, order • a = 0
  add : ∀ a b, L.add (enc a) (enc b) = some (enc (a + b))
  add_bad : ∀ x y, (∀ a, enc a ≠ x) ∨ (∀ a, enc a ≠ y) → L.add x y = none
  sub : ∀ a b, L.sub (enc a) (enc b) = some (enc (a - b))
  sub_bad : ∀ x y, (∀ a, enc a ≠ x) ∨ (∀ a, enc a ≠ y) → L.sub x y = none
  mul : ∀ s a, s.length = 32 → leNat s < order → leNat s • a ≠ 0 → L.mul s (enc a) = some (enc (leNat s • a))
  mul_zero : ∀ s a, s.length = 32 → leNat s • a = 0 → L.mul s (enc a) = none
  mul_bad : ∀ s x, (∀ a, enc a ≠ x) → L.mul s x = none
  base : ∀ s, s.length = 32 → leNat s < order → L.base s = enc (leNat s • gen)
  valid : ∀ b, L.valid b = true ↔ ∃ a, enc a = b
  fromHash : ∀ u, u.length = 64 → L.fromHash u = enc (map u)
  scalarReduce : ∀ u, u.length = 64 → L.scalarReduce u = leBytes 32 (leNat u % order)
  sha_len : L.sha512.size = 64

/-- `expand_message_xmd` of RFC 9380 with SHA-512. -/
def xmd (L : RLib) (msg dst : Bytes) (len : Nat) : Bytes := H2C.Rfc.expand L.sha512.fn 64 128 msg dst len

/-- The tag: the caller's, or the default when it is empty; tags must have 16 to 255 bytes. -/
def tag (dst dflt : Bytes) : Bytes := if dst = [] then dflt else dst
def TagOk (dst : Bytes) : Prop := 16 ≤ dst.length ∧ dst.length ≤ 255
instance (dst : Bytes) : Decidable (TagOk dst) := by unfold TagOk; infer_instance

def ascii (s : String) : Bytes := s.toList.map fun c => BitVec.ofNat 8 c.toNat

/-- The element a strategy hashes to. -/
def hashElem (L : RLib) (map : Bytes → G) (s : Strategy) (str dst : Bytes) : Option G :=
  match s with
  | .r255Ro =>
    let t := tag dst (ascii "QUUX-V01-CS02-with-ristretto255_XMD:SHA-512_R255MAP_RO_")
    if TagOk t then some (map ((xmd L str t 128).take 64) + map ((xmd L str t 128).drop 64)) else none
  | .r255Nu =>
    let t := tag dst (ascii "QUUX-V01-CS02-with-ristretto255_XMD:SHA-512_R255MAP_NU_")
    if TagOk t then some (map (xmd L str t 64)) else none
  | _ => some (map (L.sha512.fn (dst ++ str)))

/-- The meaning of one call in the group. -/
def gstep (L : RLib) (gen : G) (map : Bytes → G) (g : Nat → G) : Op → Option (Nat → G)
  | .add d a b => some (Function.update g d (g a + g b))
  | .addIn d b => some (Function.update g d (g d + g b))
  | .sub d a b => some (Function.update g d (g a - g b))
  | .subIn d b => some (Function.update g d (g d - g b))
  | .double d a => some (Function.update g d (g a + g a))
  | .doubleIn d => some (Function.update g d (g d + g d))
  | .mulBase d k => some (Function.update g d (k • gen))
  | .mul d a k => some (Function.update g d (k • g a))
  | .mulIn d k => some (Function.update g d (k • g d))
  | .mulDoubleBase d k1 k2 a => some (Function.update g d (k1 • gen + k2 • g a))
  | .negate d a => some (Function.update g d (-g a))
  | .negateIn d => some (Function.update g d (-g d))
  | .copy d a => some (Function.update g d (g a))
  | .viaBytes d a => some (Function.update g d (g a))
  | .generator d => some (Function.update g d gen)
  | .hash d s str dst => (hashElem L map s str dst).map (Function.update g d)

def grun (L : RLib) (gen : G) (map : Bytes → G) (g : Nat → G) : List Op → Option (Nat → G)
  | [] => some g
  | o :: os => (gstep L gen map g o).bind fun g' => grun L gen map g' os

/-- The point object of a group element. -/
def pt (enc : G → Bytes) (a : G) : EcPoint := .array32 (enc a)

/-- The scalar X25519 uses for 32 bytes (RFC 7748, `decodeScalar25519`): the three low bits and the top bit cleared, bit 254 set. -/
def clamp (v : Nat) : Nat := 2 ^ 254 + v % 2 ^ 254 / 8 * 8

/-- What libsodium documents for X25519 on the multiples of the base point: `xb k` is the encoding of the `x` coordinate of `k` times the base point; two
multiples share it exactly when they are equal or opposite. The multiplication fails when the result is the neutral element. -/
structure XOk (L : XLib) (xb : ZMod order → Bytes) : Prop where
  len : ∀ k, (xb k).length = 32
  eq : ∀ i j, xb i = xb j ↔ i = j ∨ i = -j
  base : ∀ s, s.length = 32 → L.base s = some (xb (clamp (leNat s)))
  mult : ∀ s k, s.length = 32 → L.mult s (xb k) = if (clamp (leNat s) : ZMod order) * k = 0 then none else some (xb (clamp (leNat s) * k))

/-! ## Lemmas -/

theorem leBytes_leNat (k v : Nat) : leNat (leBytes k v) = v % 256 ^ k := by
  unfold leNat leBytes
  rw [List.reverse_reverse, beBytes_beNat]

theorem leBytes_length (k v : Nat) : (leBytes k v).length = k := by
  unfold leBytes
  rw [List.length_reverse, beBytes_length]

theorem leNat_lt (b : Bytes) : leNat b < 256 ^ b.length := by
  have := beNat_lt b.reverse
  rwa [List.length_reverse] at this

theorem leNat_inj (a b : Bytes) (hl : a.length = b.length) (h : leNat a = leNat b) : a = b := by
  have := BlockCipher.beNat_inj b.length a.reverse b.reverse (by simpa using hl) (by simp) h
  exact List.reverse_injective this

theorem order_pos : 0 < order := by decide +kernel
theorem order_lt : order < 256 ^ 32 := by decide +kernel
theorem order_prime : order.Prime := by
  have e : order = 7237005577332262213973186563042994240857116359379907606001950938285454250989 := by decide +kernel
  rw [e]; exact Primes.n25519
instance : Fact order.Prime := ⟨order_prime⟩
instance : NeZero order := ⟨order_prime.ne_zero⟩

theorem scalar_lt (k : Int) : (k % order).toNat < order := by
  have h1 := Int.emod_lt_of_pos k (show (0 : Int) < order by exact_mod_cast order_pos)
  have := order_pos
  omega

theorem scalar_len (k : Int) : (scalar k).length = 32 := leBytes_length _ _

theorem scalar_val (k : Int) : leNat (scalar k) = (k % order).toNat := by
  unfold scalar
  rw [leBytes_leNat, Nat.mod_eq_of_lt (lt_trans (scalar_lt k) order_lt)]

theorem scalar_smul (k : Int) (a : G) (ha : order • a = 0) : leNat (scalar k) • a = k • a := by
  rw [scalar_val]
  have h0 := Int.emod_nonneg k (show (order : Int) ≠ 0 by have := order_pos; omega)
  have e : ((k % order).toNat : Int) • a = k • a := by
    rw [Int.toNat_of_nonneg h0]
    have e2 : k • a = (order * (k / order) + k % order) • a := by rw [Int.mul_ediv_add_emod]
    rw [e2, add_smul, mul_comm, mul_smul, natCast_zsmul, ha, smul_zero, zero_add]
  rw [← natCast_zsmul]
  exact e

section
variable {L : RLib} {enc : G → Bytes} {gen : G} {map : Bytes → G}

theorem all_zero (b : Bytes) (n : Nat) (hl : b.length = n) : (b.all (· = 0)) = decide (b = List.replicate n 0) := by
  rw [Bool.eq_iff_iff, List.all_eq_true, decide_eq_true_iff, List.eq_replicate_iff]
  simp only [decide_eq_true_iff]
  exact ⟨fun h => ⟨hl, h⟩, fun h => h.2⟩

theorem isInfinity_pt (h : ROk L enc gen map) (a : G) [Decidable (a = 0)] : isInfinity (pt enc a) = some (decide (a = 0)) := by
  unfold isInfinity pt cast
  rw [Option.map_some, all_zero _ 32 (h.enc_len a), ← h.enc_zero]
  congr 1
  rw [Bool.eq_iff_iff, decide_eq_true_iff, decide_eq_true_iff]
  exact ⟨h.enc_inj _ _, fun h => by rw [h]⟩

theorem inf_pt (h : ROk L enc gen map) : EcPoint.array32 inf = pt enc 0 := by
  unfold pt inf; rw [h.enc_zero]

theorem add_pt (h : ROk L enc gen map) (a b : G) : add L (pt enc a) (pt enc b) = some (pt enc (a + b)) := by
  simp [add, pt, cast, h.add]
theorem addInplace_pt (h : ROk L enc gen map) (a b : G) : addInplace L (pt enc a) (pt enc b) = some (pt enc (a + b)) := by
  simp [addInplace, pt, cast, h.add]
theorem sub_pt (h : ROk L enc gen map) (a b : G) : sub L (pt enc a) (pt enc b) = some (pt enc (a - b)) := by
  simp [sub, pt, cast, h.sub]
theorem subInplace_pt (h : ROk L enc gen map) (a b : G) : subInplace L (pt enc a) (pt enc b) = some (pt enc (a - b)) := by
  simp [subInplace, pt, cast, h.sub]
theorem doubleInplace_pt (h : ROk L enc gen map) (a : G) : doubleInplace L (pt enc a) = some (pt enc (a + a)) := by
  simp [doubleInplace, pt, cast, h.add]
theorem mulBase_pt (h : ROk L enc gen map) (k : Int) : mulBase L k = pt enc (k • gen) := by
  unfold mulBase pt
  rw [h.base _ (scalar_len k) (by rw [scalar_val]; exact scalar_lt k), scalar_smul k gen (h.torsion _)]

theorem libMul_pt (h : ROk L enc gen map) (a : G) (k : Int) :
    (match L.mul (scalar k) (enc a) with | none => EcPoint.array32 inf | some r => .array32 r) = pt enc (k • a) := by
  have hs := scalar_smul k a (h.torsion _)
  by_cases h0 : leNat (scalar k) • a = 0
  · rw [h.mul_zero _ _ (scalar_len k) h0, ← hs, h0]; exact inf_pt h
  · rw [h.mul _ _ (scalar_len k) (by rw [scalar_val]; exact scalar_lt k) h0, ← hs]; rfl

open Classical in
theorem mul_pt (h : ROk L enc gen map) (a : G) (k : Int) : mul L (pt enc a) k = some (pt enc (k • a)) := by
  unfold mul
  rw [isInfinity_pt h a, Option.bind_some]
  by_cases ha : a = 0
  · rw [if_pos (by simp [ha]), ha, smul_zero, inf_pt h]
  · rw [if_neg (by simp [ha])]
    show some _ = _
    rw [← libMul_pt h]
    rfl
open Classical in
theorem mulInplace_pt (h : ROk L enc gen map) (a : G) (k : Int) : mulInplace L (pt enc a) k = some (pt enc (k • a)) := by
  unfold mulInplace
  rw [isInfinity_pt h a, Option.bind_some]
  by_cases ha : a = 0
  · rw [if_pos (by simp [ha]), ha, smul_zero]
  · rw [if_neg (by simp [ha])]
    show some _ = _
    rw [← libMul_pt h]
    rfl
open Classical in
theorem negate_pt (h : ROk L enc gen map) (a : G) : negate L (pt enc a) = some (pt enc (-a)) := by
  unfold negate
  rw [isInfinity_pt h a, Option.bind_some]
  by_cases ha : a = 0
  · rw [if_pos (by simp [ha]), ha, neg_zero]
  · rw [if_neg (by simp [ha]), inf_pt h, sub_pt h, zero_sub]
open Classical in
theorem negateInplace_pt (h : ROk L enc gen map) (a : G) : negateInplace L (pt enc a) = some (pt enc (-a)) := by
  unfold negateInplace
  rw [isInfinity_pt h a, Option.bind_some]
  by_cases ha : a = 0
  · rw [if_pos (by simp [ha]), ha, neg_zero]
  · rw [if_neg (by simp [ha])]
    show (L.sub inf (enc a)).map EcPoint.array32 = _
    rw [show inf = enc 0 from h.enc_zero.symm, h.sub, zero_sub]; rfl

theorem isInCurveGroup_iff (h : ROk L enc gen map) (b : Bytes) (hl : b.length = 32) :
    isInCurveGroup L (.array32 b) = some (L.valid b) := by
  unfold isInCurveGroup isInfinity cast
  rw [Option.map_some, Option.bind_some, all_zero b 32 hl]
  by_cases hb : b = List.replicate 32 0
  · rw [if_pos (by rw [decide_eq_true_iff]; exact hb)]
    have := (h.valid b).mpr ⟨0, by rw [h.enc_zero, hb]⟩
    rw [this]
  · rw [if_neg (by rw [decide_eq_true_iff]; exact hb)]; rfl

theorem deserialize_iff (h : ROk L enc gen map) (b : Bytes) (p : EcPoint) :
    deserialize L b = some p ↔ 32 ≤ b.length ∧ ∃ a, enc a = b.take 32 ∧ p = pt enc a := by
  unfold deserialize
  by_cases hl : 32 ≤ b.length
  · rw [if_pos hl]
    simp only []
    rw [isInCurveGroup_iff h _ (by rw [List.length_take]; omega), Option.bind_some]
    by_cases hv : L.valid (b.take 32) = true
    · rw [if_pos hv]
      obtain ⟨a, ha⟩ := (h.valid _).mp hv
      constructor
      · intro e; exact ⟨hl, a, ha, by rw [← Option.some.inj e, pt, ha]⟩
      · rintro ⟨_, a', ha', rfl⟩; rw [pt, ha']
    · rw [if_neg hv]
      constructor
      · intro e; exact absurd e (by simp)
      · rintro ⟨_, a, ha, _⟩; exact absurd ((h.valid _).mpr ⟨a, ha⟩) hv
  · rw [if_neg hl]
    constructor
    · intro e; exact absurd e (by simp)
    · rintro ⟨h1, _⟩; exact absurd h1 hl

theorem dstOk_iff (dst : Bytes) : dstOk dst = true ↔ TagOk dst := by
  unfold dstOk TagOk; rw [Bool.and_eq_true, decide_eq_true_iff, decide_eq_true_iff]

theorem expand_eq (h : ROk L enc gen map) (msg dst : Bytes) (len : Nat) (hl : len ≤ 255 * 64) (ht : TagOk dst) :
    expandMessageXmd (ctx L.sha512) msg dst len = some (xmd L msg dst len) ∧ (xmd L msg dst len).length = len := by
  obtain ⟨e1, e2⟩ := C104_expand (ctx L.sha512) msg dst len
  have es : (ctx L.sha512).hash.size = 64 := h.sha_len
  rw [es] at e1 e2
  refine ⟨?_, e2⟩
  rw [e1, if_pos]
  · rfl
  · unfold H2C.Accepts
    rw [es]
    exact ⟨by omega, by omega, ht.1, ht.2⟩

theorem encodeToCurve_eq (h : ROk L enc gen map) (msg dst : Bytes) :
    encodeToCurve L msg dst = if TagOk dst then some (pt enc (map (xmd L msg dst 64))) else none := by
  unfold encodeToCurve
  by_cases ht : TagOk dst
  · obtain ⟨e1, e2⟩ := expand_eq h msg dst 64 (by omega) ht
    rw [if_pos ((dstOk_iff dst).mpr ht), if_pos ht, e1, Option.map_some, h.fromHash _ e2]; rfl
  · rw [if_neg (fun e => ht ((dstOk_iff dst).mp e)), if_neg ht]

theorem hashToCurveRo_eq (h : ROk L enc gen map) (msg dst : Bytes) :
    hashToCurveRo L msg dst = if TagOk dst then some (pt enc (map ((xmd L msg dst 128).take 64) + map ((xmd L msg dst 128).drop 64))) else none := by
  unfold hashToCurveRo
  by_cases ht : TagOk dst
  · obtain ⟨e1, e2⟩ := expand_eq h msg dst 128 (by omega) ht
    rw [if_pos ((dstOk_iff dst).mpr ht), if_pos ht, e1, Option.bind_some]
    simp only []
    rw [h.fromHash _ (by rw [List.length_take]; omega), h.fromHash _ (by rw [List.length_drop]; omega), h.add]; rfl
  · rw [if_neg (fun e => ht ((dstOk_iff dst).mp e)), if_neg ht]

theorem tag_eq (dst d : Bytes) : (if dst.isEmpty = true then d else dst) = tag dst d := by
  unfold tag; cases dst <;> simp

theorem hashToCurve_eq (h : ROk L enc gen map) (s : Strategy) (str dst : Bytes) :
    hashToCurve L s str dst = (hashElem L map s str dst).map (pt enc) := by
  have hauto : some (EcPoint.array32 (L.fromHash (L.sha512.fn (dst ++ str)))) = (some (map (L.sha512.fn (dst ++ str)))).map (pt enc) := by
    rw [h.fromHash _ (by rw [L.sha512.fn_len, h.sha_len])]; rfl
  cases s with
  | r255Ro =>
    show hashToCurveRo L str (if dst.isEmpty = true then dstRo else dst) = _
    rw [tag_eq, hashToCurveRo_eq h]
    show _ = (if TagOk (tag dst dstRo) then _ else none : Option G).map (pt enc)
    by_cases ht : TagOk (tag dst dstRo)
    · rw [if_pos ht, if_pos ht]; rfl
    · rw [if_neg ht, if_neg ht]; rfl
  | r255Nu =>
    show encodeToCurve L str (if dst.isEmpty = true then dstNu else dst) = _
    rw [tag_eq, encodeToCurve_eq h]
    show _ = (if TagOk (tag dst dstNu) then _ else none : Option G).map (pt enc)
    by_cases ht : TagOk (tag dst dstNu)
    · rw [if_pos ht, if_pos ht]; rfl
    · rw [if_neg ht, if_neg ht]; rfl
  | _ => exact hauto

theorem upd (g : Nat → G) (d : Nat) (a : G) : Function.update (fun i => pt enc (g i)) d (pt enc a) = fun i => pt enc (Function.update g d a i) := by
  funext i
  by_cases hi : i = d
  · subst hi; simp
  · simp [Function.update_of_ne hi]

theorem step_eq (h : ROk L enc gen map) (g : Nat → G) (o : Op) :
    step L (fun i => pt enc (g i)) o = (gstep L gen map g o).map fun g' i => pt enc (g' i) := by
  cases o with
  | add d a b => simp only [step, gstep, add_pt h, Option.map_some, upd]
  | addIn d b => simp only [step, gstep, addInplace_pt h, Option.map_some, upd]
  | sub d a b => simp only [step, gstep, sub_pt h, Option.map_some, upd]
  | subIn d b => simp only [step, gstep, subInplace_pt h, Option.map_some, upd]
  | double d a => simp only [step, gstep, double, add_pt h, Option.map_some, upd]
  | doubleIn d => simp only [step, gstep, doubleInplace_pt h, Option.map_some, upd]
  | mulBase d k => simp only [step, gstep, mulBase_pt h, Option.map_some, upd]
  | mul d a k => simp only [step, gstep, mul_pt h, Option.map_some, upd]
  | mulIn d k => simp only [step, gstep, mulInplace_pt h, Option.map_some, upd]
  | mulDoubleBase d k1 k2 a => simp only [step, gstep, mulDoubleBase, mul_pt h, mulBase_pt h, Option.bind_some, addInplace_pt h, Option.map_some, upd]
  | negate d a => simp only [step, gstep, negate_pt h, Option.map_some, upd]
  | negateIn d => simp only [step, gstep, negateInplace_pt h, Option.map_some, upd]
  | copy d a =>
    simp only [step, gstep, Option.map_some]
    rw [← upd]; rfl
  | viaBytes d a =>
    simp only [step, gstep, Option.map_some]
    have e : (serialize (pt enc (g a))).bind (deserialize L) = some (pt enc (g a)) := by
      show deserialize L (enc (g a)) = _
      rw [deserialize_iff h]
      exact ⟨(h.enc_len _).ge, g a, by rw [List.take_of_length_le (h.enc_len _).le], rfl⟩
    rw [e, Option.map_some, upd]
  | generator d => simp only [step, gstep, generator, mulBase_pt h, one_smul, Option.map_some, upd]
  | hash d s str dst =>
    simp only [step, gstep, hashToCurve_eq h, Option.map_map]
    congr 1
    funext a
    exact upd g d a

end

/-! ## C133, Ristretto255 -/

section
variable {L : RLib} {enc : G → Bytes} {gen : G} {map : Bytes → G}

/-- C133. Every program of calls on points — sums, differences, doubles, negatives, multiples by any integer, the mixed multiple with the base point, in place or
not, with the same variable in several places, copies, serialization and parsing, hashes — leaves in every variable the encoding of the element that the same program
computes in the group, and throws exactly when a tag has a wrong length. -/
theorem C133_programs (h : ROk L enc gen map) (ops : List Op) (g : Nat → G) :
    run L (fun i => pt enc (g i)) ops = (grun L gen map g ops).map fun g' i => pt enc (g' i) := by
  induction ops generalizing g with
  | nil => rfl
  | cons o os ih =>
    simp only [run, grun, step_eq h]
    cases e : gstep L gen map g o with
    | none => rfl
    | some g' => simpa using ih g'

/-- C133. Equality of points is equality in the group, equal points have equal hashes, only the neutral element is infinity, every element is in the group, and the
affine form tells points apart. -/
theorem C133_observers (h : ROk L enc gen map) (a b : G) :
    (pointEqual (pt enc a) (pt enc b) = some true ↔ a = b) ∧ (pointEqual (pt enc a) (pt enc b) = some false ↔ a ≠ b) ∧
    (a = b → hashPoint (pt enc a) = hashPoint (pt enc b)) ∧ (∃ v, hashPoint (pt enc a) = some v) ∧
    (isInfinity (pt enc a) = some true ↔ a = 0) ∧ (isInfinity (pt enc a) = some false ↔ a ≠ 0) ∧
    isInCurveGroup L (pt enc a) = some true ∧
    (getAffine (pt enc a) = getAffine (pt enc b) ↔ a = b) ∧ (∃ x : Nat, getAffine (pt enc a) = some ((x : Int), 0) ∧ x < 2 ^ 256) := by
  have hinj : enc a = enc b ↔ a = b := ⟨h.enc_inj _ _, fun e => by rw [e]⟩
  refine ⟨?_, ?_, fun e => by rw [e], ⟨_, rfl⟩, ?_, ?_, ?_, ?_, ⟨leNat (enc a), rfl, ?_⟩⟩
  · simp [pointEqual, pt, cast, hinj]
  · simp [pointEqual, pt, cast, hinj]
  · classical rw [isInfinity_pt h]; simp
  · classical rw [isInfinity_pt h]; simp
  · unfold pt; rw [isInCurveGroup_iff h _ (h.enc_len a), (h.valid _).mpr ⟨a, rfl⟩]
  · simp only [getAffine, pt, cast, Option.map_some, Option.some.injEq, Prod.mk.injEq, and_true]
    rw [← hinj]
    constructor
    · intro e; exact leNat_inj _ _ (by rw [h.enc_len, h.enc_len]) (by exact_mod_cast e)
    · intro e; rw [e]
  · have := leNat_lt (enc a)
    rw [h.enc_len] at this
    calc _ < 256 ^ 32 := this
      _ = 2 ^ 256 := by decide +kernel

/-- C133. Serialization: a point gives 32 bytes, and they parse back to it; a buffer of the caller must have 32 bytes and keeps the rest; no two 32-byte strings
parse to the same point; 32 bytes parse exactly when they are the encoding of an element. Shorter input throws. -/
theorem C133_bytes (h : ROk L enc gen map) :
    (∀ a, ∃ b, serialize (pt enc a) = some b ∧ b.length = 32 ∧ deserialize L b = some (pt enc a)) ∧
    (∀ a (buf : Bytes), 32 ≤ buf.length → ∃ b, serialize (pt enc a) = some b ∧ serializeInto (pt enc a) buf = some (b ++ buf.drop 32)) ∧
    (∀ a (buf : Bytes), buf.length < 32 → serializeInto (pt enc a) buf = none) ∧
    (∀ b : Bytes, b.length < 32 → deserialize L b = none) ∧
    (∀ b : Bytes, b.length = 32 → (deserialize L b ≠ none ↔ ∃ a, enc a = b)) ∧
    (∀ b c p, b.length = 32 → c.length = 32 → deserialize L b = some p → deserialize L c = some p → b = c) := by
  have ht : ∀ b : Bytes, b.length = 32 → b.take 32 = b := fun b hb => List.take_of_length_le hb.le
  refine ⟨fun a => ⟨enc a, rfl, h.enc_len a, ?_⟩, fun a buf hb => ⟨enc a, rfl, ?_⟩, fun a buf hb => ?_, fun b hb => ?_, fun b hb => ?_, fun b c p hb hc h1 h2 => ?_⟩
  · rw [deserialize_iff h]; exact ⟨(h.enc_len a).ge, a, (ht _ (h.enc_len a)).symm, rfl⟩
  · unfold serializeInto; rw [if_pos hb]; rfl
  · unfold serializeInto; rw [if_neg (by omega)]
  · unfold deserialize; rw [if_neg (by omega)]
  · constructor
    · intro hne
      obtain ⟨p, hp⟩ := Option.ne_none_iff_exists'.mp hne
      obtain ⟨_, a, ha, _⟩ := (deserialize_iff h b p).mp hp
      exact ⟨a, by rw [ha, ht b hb]⟩
    · rintro ⟨a, rfl⟩
      rw [(deserialize_iff h (enc a) (pt enc a)).mpr ⟨hb.ge, a, (ht _ hb).symm, rfl⟩]
      simp
  · obtain ⟨_, a, ha, rfl⟩ := (deserialize_iff h b p).mp h1
    obtain ⟨_, a', ha', e⟩ := (deserialize_iff h c _).mp h2
    have : a = a' := h.enc_inj _ _ (EcPoint.array32.inj e)
    rw [ht b hb] at ha; rw [ht c hc] at ha'
    rw [← ha, ← ha', this]

/-- C133. Bytes that encode no element are reported outside the group, and sums, differences, doubles and negatives of them throw, in either position and in place
too; so do all calls on a point object of another library. -/
theorem C133_invalid (h : ROk L enc gen map) (x : Bytes) (hl : x.length = 32) (hx : ∀ a, enc a ≠ x) (q : EcPoint) (k : Int) :
    isInCurveGroup L (.array32 x) = some false ∧
    add L (.array32 x) q = none ∧ add L q (.array32 x) = none ∧ addInplace L (.array32 x) q = none ∧ addInplace L q (.array32 x) = none ∧
    sub L (.array32 x) q = none ∧ sub L q (.array32 x) = none ∧ subInplace L (.array32 x) q = none ∧ subInplace L q (.array32 x) = none ∧
    double L (.array32 x) = none ∧ doubleInplace L (.array32 x) = none ∧ negate L (.array32 x) = none ∧ negateInplace L (.array32 x) = none ∧
    deserialize L x = none ∧
    add L .other q = none ∧ sub L .other q = none ∧ mul L .other k = none ∧ negate L .other = none ∧ isInfinity .other = none ∧ copyPoint .other = none ∧
    serialize .other = none ∧ pointEqual .other q = none := by
  have h0 : x ≠ List.replicate 32 0 := fun e => hx 0 (by rw [h.enc_zero, e])
  have hi : isInfinity (.array32 x) = some false := by
    unfold isInfinity cast; rw [Option.map_some, all_zero x 32 hl, decide_eq_false h0]
  have hb := fun y => h.add_bad x y (Or.inl hx)
  have hb' := fun y => h.add_bad y x (Or.inr hx)
  have hs := fun y => h.sub_bad x y (Or.inl hx)
  have hs' := fun y => h.sub_bad y x (Or.inr hx)
  refine ⟨?_, ?_, ?_, ?_, ?_, ?_, ?_, ?_, ?_, ?_, ?_, ?_, ?_, ?_, rfl, rfl, rfl, rfl, rfl, rfl, rfl, rfl⟩
  · rw [isInCurveGroup_iff h x hl]
    congr 1
    rw [Bool.eq_false_iff]
    intro e
    obtain ⟨a, ha⟩ := (h.valid x).mp e
    exact hx a ha
  · cases q <;> simp [add, cast, hb]
  · cases q <;> simp [add, cast, hb']
  · cases q <;> simp [addInplace, cast, hb]
  · cases q <;> simp [addInplace, cast, hb']
  · cases q <;> simp [sub, cast, hs]
  · cases q <;> simp [sub, cast, hs']
  · cases q <;> simp [subInplace, cast, hs]
  · cases q <;> simp [subInplace, cast, hs']
  · simp [double, add, cast, hb]
  · simp [doubleInplace, cast, hb]
  · simp [negate, hi, sub, cast, hs']
  · simp [negateInplace, hi, cast, hs']
  · cases e : deserialize L x with
    | none => rfl
    | some p =>
      obtain ⟨_, a, ha, _⟩ := (deserialize_iff h x p).mp e
      exact absurd (by rw [ha, List.take_of_length_le hl.le]) (hx a)

/-- C133. Hashing: with the `NU` strategy the point is `hash_to_ristretto255` of RFC 9380 (the one-way map of 64 expanded bytes) for the tag in use; with the scalar
strategy the scalar is the little-endian value of the 64 expanded bytes modulo the order; otherwise both come from SHA-512 of tag and message. Scalars are below the order. -/
theorem C133_hash (h : ROk L enc gen map) (str dst : Bytes) :
    (let t := tag dst (ascii "QUUX-V01-CS02-with-ristretto255_XMD:SHA-512_R255MAP_NU_")
     hashToCurve L .r255Nu str dst = if TagOk t then some (pt enc (map (xmd L str t 64))) else none) ∧
    (let t := tag dst (ascii "QUUX-V01-CS02-with-ristretto255_XMD:SHA-512_R255MAP_")
     hashToScalar L .r255Scalar str dst = if TagOk t then some ((leNat (xmd L str t 64) % order : Nat) : Int) else none) ∧
    hashToCurve L .autonomous str dst = some (pt enc (map (L.sha512.fn (dst ++ str)))) ∧
    hashToScalar L .autonomous str dst = some ((leNat (L.sha512.fn (dst ++ str)) % order : Nat) : Int) ∧
    (∀ s k, hashToScalar L s str dst = some k → 0 ≤ k ∧ k < order) := by
  have hred : ∀ u : Bytes, u.length = 64 → leNat (L.scalarReduce u) = leNat u % order := by
    intro u hu
    rw [h.scalarReduce u hu, leBytes_leNat, Nat.mod_eq_of_lt]
    exact lt_trans (Nat.mod_lt _ order_pos) order_lt
  have hsc : hashToScalar L .r255Scalar str dst = if TagOk (tag dst dstScalar) then some ((leNat (xmd L str (tag dst dstScalar) 64) % order : Nat) : Int) else none := by
    show hashToScalarR L str (if dst.isEmpty = true then dstScalar else dst) = _
    rw [tag_eq]
    unfold hashToScalarR
    by_cases ht : TagOk (tag dst dstScalar)
    · obtain ⟨e1, e2⟩ := expand_eq h str _ 64 (by omega) ht
      rw [if_pos ((dstOk_iff _).mpr ht), if_pos ht, e1, Option.map_some, hred _ e2]
    · rw [if_neg (fun e => ht ((dstOk_iff _).mp e)), if_neg ht]
  have hau : ∀ s, s ≠ .r255Scalar → hashToScalar L s str dst = some ((leNat (L.sha512.fn (dst ++ str)) % order : Nat) : Int) := by
    intro s hs
    rw [← hred _ (by rw [L.sha512.fn_len, h.sha_len])]
    cases s <;> first | rfl | exact absurd rfl hs
  refine ⟨?_, hsc, ?_, hau _ (by simp), ?_⟩
  · show encodeToCurve L str (if dst.isEmpty = true then dstNu else dst) = _
    rw [tag_eq, encodeToCurve_eq h]; rfl
  · rw [hashToCurve_eq h]; rfl
  · intro s k hk
    have hb : ∀ v : Nat, (0 : Int) ≤ ((v % order : Nat) : Int) ∧ ((v % order : Nat) : Int) < order := by
      intro v
      have := Nat.mod_lt v order_pos
      omega
    by_cases hs : s = .r255Scalar
    · subst hs
      rw [hsc] at hk
      by_cases ht : TagOk (tag dst dstScalar)
      · rw [if_pos ht] at hk; rw [← Option.some.inj hk]; exact hb _
      · rw [if_neg ht] at hk; exact absurd hk (by simp)
    · rw [hau s hs] at hk; rw [← Option.some.inj hk]; exact hb _

/-- C133, negative: bytes that encode no element can be multiplied — `Mul` swallows the library's error and answers the neutral element for every scalar — although
`Add` on the same point throws. -/
theorem C133_mul_invalid_violated (h : ROk L enc gen map) (x : Bytes) (hl : x.length = 32) (hx : ∀ a, enc a ≠ x) (k : Int) :
    copyPoint (.array32 x) = some (.array32 x) ∧ mul L (.array32 x) k = some (pt enc 0) ∧ mulInplace L (.array32 x) k = some (pt enc 0) ∧
    add L (.array32 x) (pt enc 0) = none := by
  have h0 : x ≠ List.replicate 32 0 := fun e => hx 0 (by rw [h.enc_zero, e])
  have hi : isInfinity (.array32 x) = some false := by
    unfold isInfinity cast; rw [Option.map_some, all_zero x 32 hl, decide_eq_false h0]
  refine ⟨rfl, ?_, ?_, (C133_invalid h x hl hx _ k).2.1⟩
  · simp [mul, hi, cast, h.mul_bad _ x hx, ← inf_pt h]
  · simp [mulInplace, hi, cast, h.mul_bad _ x hx, ← inf_pt h]

/-- C133, negative: parsing ignores bytes after the first 32, so encodings are not unique once longer input is allowed. -/
theorem C133_trailing_violated (h : ROk L enc gen map) (a : G) (extra : Bytes) : deserialize L (enc a ++ extra) = some (pt enc a) := by
  rw [deserialize_iff h]
  have := h.enc_len a
  refine ⟨by rw [List.length_append]; omega, a, ?_, rfl⟩
  rw [List.take_left' this]

/-- C133, negative: without a named strategy the tag does not separate domains — tag and message are joined without a length — and strategies of other curves are
accepted and treated the same way. -/
theorem C133_domain_violated (L : RLib) :
    hashToCurve L .autonomous [98, 99] [97] = hashToCurve L .autonomous [99] [97, 98] ∧
    hashToScalar L .autonomous [98, 99] [97] = hashToScalar L .autonomous [99] [97, 98] ∧
    (∀ str dst, hashToCurve L .ell2Ro str dst = hashToCurve L .autonomous str dst ∧ hashToCurve L .unnamed str dst = hashToCurve L .autonomous str dst) :=
  ⟨rfl, rfl, fun _ _ => ⟨rfl, rfl⟩⟩

end

/-! ## C133, X25519 -/

theorem clamp_ne (v : Nat) : (clamp v : ZMod order) ≠ 0 := by
  intro e
  rw [ZMod.natCast_eq_zero_iff] at e
  have h8 : 8 ∣ clamp v := by
    unfold clamp
    exact Dvd.dvd.add (by decide +kernel) (Dvd.intro_left _ rfl)
  have hc : Nat.Coprime 8 order := by decide +kernel
  have hd := Nat.Coprime.mul_dvd_of_dvd_of_dvd hc h8 e
  have hlt : clamp v < 8 * order := by
    have h1 : clamp v < 2 ^ 255 := by
      unfold clamp
      have := Nat.mod_lt v (show 0 < 2 ^ 254 by decide +kernel)
      have h2 : v % 2 ^ 254 / 8 * 8 ≤ v % 2 ^ 254 := Nat.div_mul_le_self _ _
      have h3 : (2 : Nat) ^ 255 = 2 ^ 254 + 2 ^ 254 := by decide +kernel
      omega
    exact lt_trans h1 (by decide +kernel)
  have hp : 0 < clamp v := by unfold clamp; exact Nat.add_pos_left (by decide +kernel) _
  exact absurd (Nat.le_of_dvd hp hd) (by omega)

theorem mag_red (k : Int) : magBytes (k % order) = some (scalar k) := by
  have h0 := Int.emod_nonneg k (show (order : Int) ≠ 0 by have := order_pos; omega)
  unfold magBytes scalar
  have e : (k % order).natAbs = (k % order).toNat := by omega
  rw [e, if_pos (lt_trans (scalar_lt k) order_lt)]

/-- The private scalar of a key `k`: reduced, then clamped. -/
def priv (k : Int) : Nat := clamp (k % order).toNat

section
variable {L : XLib} {xb : ZMod order → Bytes}

theorem xMulBase_eq (h : XOk L xb) (k : Int) : xMulBase L k = some (.array32 (xb (priv k))) := by
  unfold xMulBase
  rw [mag_red, Option.bind_some, h.base _ (scalar_len k), scalar_val]; rfl

theorem xMul_eq (h : XOk L xb) (i : ZMod order) (hi : i ≠ 0) (k : Int) : xMul L (.array32 (xb i)) k = some (.array32 (xb (priv k * i))) := by
  unfold xMul
  rw [mag_red, Option.bind_some]
  show (L.mult (scalar k) (xb i)).map _ = _
  rw [h.mult _ _ (scalar_len k), scalar_val, if_neg (mul_ne_zero (clamp_ne _) hi)]; rfl

/-- C133. Diffie–Hellman with X25519: for any two integers as keys, the public points exist, and each party's product of the other's public point with its own key is
the same point and never an error; it is the base point times both clamped keys. -/
theorem C133_x_agree (h : XOk L xb) (a b : Int) :
    ∃ A B S, xMulBase L a = some A ∧ xMulBase L b = some B ∧ xMul L A b = some S ∧ xMul L B a = some S ∧
      S = .array32 (xb ((clamp (a % order).toNat : ZMod order) * clamp (b % order).toNat)) := by
  refine ⟨_, _, _, xMulBase_eq h a, xMulBase_eq h b, xMul_eq h _ (clamp_ne _) b, ?_, ?_⟩
  · rw [xMul_eq h _ (show (priv b : ZMod order) ≠ 0 from clamp_ne _) a, mul_comm]; rfl
  · rw [mul_comm]; rfl

/-- C133, partial: for keys from 0 to the order, the call in place gives what the other call gives. What is missing is every other key, for which the in-place call does
not reduce: `C133_x_inplace_violated`. -/
theorem C133_x_inplace_partial (L : XLib) (p : EcPoint) (k : Int) (h0 : 0 ≤ k) (h1 : k < order) : xMulInplace L p k = xMul L p k := by
  unfold xMulInplace xMul
  rw [Int.emod_eq_of_lt h0 h1]

/-- C133, negative: for the key `order`, `MulInplace` and `Mul` give different points on the base point; and a key of more than 256 bits is accepted by `Mul` and
throws in `MulInplace`. -/
theorem C133_x_inplace_violated (h : XOk L xb) :
    (∃ p q, xMul L (.array32 (xb 1)) order = some p ∧ xMulInplace L (.array32 (xb 1)) order = some q ∧ p ≠ q) ∧
    (∃ p, xMul L (.array32 (xb 1)) (2 ^ 256) = some p ∧ xMulInplace L (.array32 (xb 1)) (2 ^ 256) = none) := by
  have hmag : magBytes (order : Int) = some (leBytes 32 order) := by
    unfold magBytes
    rw [Int.natAbs_natCast, if_pos order_lt]
  refine ⟨⟨_, .array32 (xb (clamp order)), xMul_eq h 1 one_ne_zero _, ?_, ?_⟩, ⟨_, xMul_eq h 1 one_ne_zero _, ?_⟩⟩
  · unfold xMulInplace
    rw [hmag, Option.bind_some]
    show (L.mult _ (xb 1)).map _ = _
    rw [h.mult _ _ (leBytes_length _ _), leBytes_leNat, Nat.mod_eq_of_lt order_lt, if_neg (mul_ne_zero (clamp_ne _) one_ne_zero), mul_one]; rfl
  · intro e
    have e := (h.eq _ _).mp (EcPoint.array32.inj e)
    rw [mul_one] at e
    rcases e with e | e
    · rw [ZMod.natCast_eq_natCast_iff'] at e
      revert e
      decide +kernel
    · rw [eq_neg_iff_add_eq_zero, ← Nat.cast_add, ZMod.natCast_eq_zero_iff] at e
      revert e
      rw [Nat.dvd_iff_mod_eq_zero]
      decide +kernel
  · unfold xMulInplace magBytes
    rw [if_neg (by decide +kernel)]; rfl

/-- C133, negative: the multiplication of this group is not a multiplication by the scalar. Multiplying the base point by 2 and then by 3 does not give what
multiplying by 6 gives; multiplying by 0 gives no neutral element; and 0 and 7 give the same point. -/
theorem C133_x_mul_violated (h : XOk L xb) :
    (∃ p q r, xMul L (.array32 (xb 1)) 2 = some p ∧ xMul L p 3 = some q ∧ xMul L (.array32 (xb 1)) 6 = some r ∧ q ≠ r) ∧
    (∃ p, xMul L (.array32 (xb 1)) 0 = some p ∧ p ≠ .array32 (xb 0) ∧ xMul L (.array32 (xb 1)) 7 = some p) := by
  refine ⟨⟨_, _, _, xMul_eq h 1 one_ne_zero _, xMul_eq h _ (mul_ne_zero (clamp_ne _) one_ne_zero) _, xMul_eq h 1 one_ne_zero _, ?_⟩,
    ⟨_, xMul_eq h 1 one_ne_zero _, ?_, ?_⟩⟩
  · intro e
    have e := (h.eq _ _).mp (EcPoint.array32.inj e)
    rw [mul_one, mul_one, ← Nat.cast_mul] at e
    rcases e with e | e
    · rw [ZMod.natCast_eq_natCast_iff'] at e
      revert e
      decide +kernel
    · rw [eq_neg_iff_add_eq_zero, ← Nat.cast_add, ZMod.natCast_eq_zero_iff] at e
      revert e
      rw [Nat.dvd_iff_mod_eq_zero]
      decide +kernel
  · intro e
    have e := (h.eq _ _).mp (EcPoint.array32.inj e)
    rw [neg_zero, or_self, mul_one] at e
    exact clamp_ne _ e
  · rw [xMul_eq h 1 one_ne_zero]
    have : priv 7 = priv 0 := by decide +kernel
    rw [this]

end

/-- C133. X25519 points and bytes: in the supported formats every 32-byte string parses, unchanged, and serializes back; any other size, format or point object
throws. -/
theorem C133_x_bytes (b : Bytes) (p : EcPoint) :
    (∀ f, f ≠ .otherFormat → (xDeserialize b f ≠ none ↔ b.length = 32) ∧ (b.length = 32 → (xDeserialize b f).bind (xSerialize · f) = some b) ∧
      (∀ a buf, p = .array32 a → xSerializeInto p buf f = if buf.length < 32 then none else some (a ++ buf.drop 32)) ∧ xSerialize .other f = none) ∧
    xDeserialize b .otherFormat = none ∧ xSerialize p .otherFormat = none ∧ xSerializeInto p b .otherFormat = none := by
  refine ⟨fun f hf => ?_, rfl, rfl, rfl⟩
  have hd : xDeserialize b f = if b.length = 32 then some (.array32 b) else none := by cases f <;> first | rfl | exact absurd rfl hf
  have hs : ∀ q, xSerialize q f = cast q := by intro q; cases f <;> first | rfl | exact absurd rfl hf
  refine ⟨?_, ?_, ?_, by rw [hs]; rfl⟩
  · rw [hd]
    by_cases hl : b.length = 32
    · simp [hl]
    · simp [hl]
  · intro hl
    rw [hd, if_pos hl, Option.bind_some, hs]; rfl
  · rintro a buf rfl
    have : xSerializeInto (.array32 a) buf f = if 32 ≤ buf.length then some (a ++ buf.drop 32) else none := by cases f <;> first | rfl | exact absurd rfl hf
    rw [this]
    by_cases hl : 32 ≤ buf.length
    · rw [if_pos hl, if_neg (by omega)]
    · rw [if_neg hl, if_pos (by omega)]

/-- C133, negative: hashing to X25519 ignores the caller's tag in every strategy; two applications with different tags get the same points. -/
theorem C133_x_tag_violated (L : XLib) (s : Strategy) (input dst1 dst2 : Bytes) : xHashToCurve L s input dst1 = xHashToCurve L s input dst2 := rfl

/-- C133. What the strategies of X25519 do: two hash with the RFC's tag, two take the SHA-256 of the input as a coordinate, the others throw. -/
theorem C133_x_hash (L : XLib) (input dst : Bytes) :
    xHashToCurve L .ell2Ro input dst = L.hashRo input (ascii "QUUX-V01-CS02-with-curve25519_XMD:SHA-512_ELL2_RO_") ∧
    xHashToCurve L .ell2Nu input dst = L.hashNu input (ascii "QUUX-V01-CS02-with-curve25519_XMD:SHA-512_ELL2_NU_") ∧
    (∀ s, s = .autonomous ∨ s = .hashAsPointX_SHA2 → xHashToCurve L s input dst = some (.array32 (L.sha256 input))) ∧
    (∀ s, s = .r255Ro ∨ s = .r255Nu ∨ s = .r255Scalar ∨ s = .unnamed → xHashToCurve L s input dst = none) := by
  refine ⟨rfl, rfl, ?_, ?_⟩
  · rintro s (rfl | rfl) <;> rfl
  · rintro s (rfl | rfl | rfl | rfl) <;> rfl

/-! ## Libraries that meet the contracts -/

/-- The group of residues, encoded by their 32 little-endian bytes. -/
def toyEnc (a : ZMod order) : Bytes := leBytes 32 a.val
def toyDec (b : Bytes) : Option (ZMod order) := if b.length = 32 ∧ leNat b < order then some (leNat b : ZMod order) else none
/-- A hash with digest 1, 0, …, 0. -/
def toyHash : Hash := ⟨64, fun _ => leBytes 64 1, by omega, fun _ => leBytes_length _ _⟩
def toy : RLib where
  add x y := (toyDec x).bind fun a => (toyDec y).map fun b => toyEnc (a + b)
  sub x y := (toyDec x).bind fun a => (toyDec y).map fun b => toyEnc (a - b)
  mul s x := (toyDec x).bind fun a => if (leNat s : ZMod order) * a = 0 then none else some (toyEnc ((leNat s : ZMod order) * a))
  base s := toyEnc (leNat s)
  valid b := (toyDec b).isSome
  fromHash u := toyEnc (leNat u)
  scalarReduce u := leBytes 32 (leNat u % order)
  sha512 := toyHash

theorem toyDec_enc (a : ZMod order) : toyDec (toyEnc a) = some a := by
  unfold toyDec toyEnc
  have hlt := ZMod.val_lt a
  rw [leBytes_leNat, Nat.mod_eq_of_lt (lt_trans hlt order_lt), if_pos ⟨leBytes_length _ _, hlt⟩, ZMod.natCast_zmod_val]

theorem toyDec_some (b : Bytes) (a : ZMod order) (h : toyDec b = some a) : toyEnc a = b := by
  unfold toyDec at h
  by_cases hb : b.length = 32 ∧ leNat b < order
  · rw [if_pos hb] at h
    rw [← Option.some.inj h]
    unfold toyEnc
    rw [ZMod.val_natCast, Nat.mod_eq_of_lt hb.2]
    apply leNat_inj _ _ (by rw [leBytes_length, hb.1])
    rw [leBytes_leNat, Nat.mod_eq_of_lt (lt_trans hb.2 order_lt)]
  · rw [if_neg hb] at h; exact absurd h (by simp)

theorem toyDec_none (x : Bytes) (h : ∀ a, toyEnc a ≠ x) : toyDec x = none := by
  cases e : toyDec x with
  | none => rfl
  | some a => exact absurd (toyDec_some x a e) (h a)

def toyMap (u : Bytes) : ZMod order := leNat u

theorem toy_ok : ROk toy toyEnc (1 : ZMod order) toyMap := by
  constructor
  · intro a
    exact leBytes_length _ _
  · intro a b e
    have h1 := toyDec_enc a
    rw [e, toyDec_enc] at h1
    exact (Option.some.inj h1).symm
  · show leBytes 32 (0 : ZMod order).val = _
    rw [ZMod.val_zero]; decide +kernel
  · intro a
    rw [nsmul_eq_mul, ZMod.natCast_self, zero_mul]
  · intro a b
    simp [toy, toyDec_enc]
  · intro x y hxy
    rcases hxy with hx | hy
    · simp [toy, toyDec_none x hx]
    · simp [toy, toyDec_none y hy]
  · intro a b
    simp [toy, toyDec_enc]
  · intro x y hxy
    rcases hxy with hx | hy
    · simp [toy, toyDec_none x hx]
    · simp [toy, toyDec_none y hy]
  · intro s a _ _ hne
    rw [nsmul_eq_mul] at hne ⊢
    simp only [toy, toyDec_enc, Option.bind_some, if_neg hne]
  · intro s a _ hz
    rw [nsmul_eq_mul] at hz
    simp only [toy, toyDec_enc, Option.bind_some, if_pos hz]
  · intro s x hx
    simp [toy, toyDec_none x hx]
  · intro s _ _
    rw [nsmul_eq_mul, mul_one]
    simp only [toy]
  · intro b
    show (toyDec b).isSome = true ↔ _
    rw [Option.isSome_iff_exists]
    exact ⟨fun ⟨a, ha⟩ => ⟨a, toyDec_some b a ha⟩, fun ⟨a, ha⟩ => ⟨a, by rw [← ha, toyDec_enc]⟩⟩
  · intro u _
    simp only [toy, toyMap]
  · intro u _
    simp only [toy]
  · simp only [toy, toyHash]

/-- A coordinate shared by exactly the opposite residues. -/
def toyX (k : ZMod order) : Bytes := leBytes 32 (min k.val (-k).val)
def toyXLib : XLib where
  mult s u := if (clamp (leNat s) : ZMod order) * (leNat u : ZMod order) = 0 then none else some (toyX (clamp (leNat s) * (leNat u : ZMod order)))
  base s := some (toyX (clamp (leNat s)))
  sha256 _ := []
  hashRo _ _ := none
  hashNu _ _ := none

theorem toyX_val (k : ZMod order) : leNat (toyX k) = min k.val (-k).val := by
  unfold toyX
  rw [leBytes_leNat, Nat.mod_eq_of_lt (lt_of_le_of_lt (min_le_left _ _) (lt_trans (ZMod.val_lt k) order_lt))]

theorem toyX_neg (k : ZMod order) : toyX (-k) = toyX k := by unfold toyX; rw [neg_neg, min_comm]

theorem toyX_cast (k : ZMod order) : (leNat (toyX k) : ZMod order) = k ∨ (leNat (toyX k) : ZMod order) = -k := by
  rw [toyX_val]
  rcases min_choice k.val (-k).val with e | e
  · left; rw [e, ZMod.natCast_zmod_val]
  · right; rw [e, ZMod.natCast_zmod_val]

theorem toyX_ok : XOk toyXLib toyX where
  len k := leBytes_length _ _
  eq i j := by
    constructor
    · intro e
      have h1 := toyX_cast i
      have h2 := toyX_cast j
      rw [e] at h1
      rcases h1 with h1 | h1 <;> rcases h2 with h2 | h2 <;> rw [h1] at h2
      · exact Or.inl h2
      · exact Or.inr h2
      · exact Or.inr (by rw [← h2, neg_neg])
      · exact Or.inl (neg_injective h2)
    · rintro (rfl | rfl)
      · rfl
      · exact toyX_neg j
  base s _ := rfl
  mult s k _ := by
    show (if _ then _ else _) = _
    rcases toyX_cast k with e | e
    · rw [e]
    · rw [e, mul_neg]; simp only [neg_eq_zero, toyX_neg]

/-- C133, negative: the `RO` strategy is not `hash_to_ristretto255` of RFC 9380 (whose suite has that name, and which maps 64 expanded bytes): it adds the images of
two halves of 128 bytes. -/
theorem C133_ro_not_rfc_violated : ∃ (L : RLib) (enc : ZMod order → Bytes) (gen : ZMod order) (map : Bytes → ZMod order) (_ : ROk L enc gen map) (str dst : Bytes),
    TagOk dst ∧ hashToCurve L .r255Ro str dst ≠ some (pt enc (map (xmd L str dst 64))) := by
  refine ⟨toy, toyEnc, 1, _, toy_ok, [], List.replicate 16 65, by decide, ?_⟩
  have e : ∀ str dst, hashToCurve toy .r255Ro str dst = _ := hashToCurve_eq toy_ok .r255Ro
  rw [e]
  intro h
  have h2 : (hashElem toy toyMap .r255Ro [] (List.replicate 16 65)) = some (2 : ZMod order) := by
    show (if TagOk (List.replicate 16 65) then some _ else none) = _
    rw [if_pos (by decide)]
    congr 1
    show ((leNat ((xmd toy [] (List.replicate 16 65) 128).take 64) : ℕ) : ZMod order) + ((leNat ((xmd toy [] (List.replicate 16 65) 128).drop 64) : ℕ) : ZMod order) = 2
    have e1 : leNat ((xmd toy [] (List.replicate 16 65) 128).take 64) = 1 := by decide +kernel
    have e2 : leNat ((xmd toy [] (List.replicate 16 65) 128).drop 64) = 1 := by decide +kernel
    rw [e1, e2, Nat.cast_one, one_add_one_eq_two]
  rw [h2, Option.map_some] at h
  have h3 := toy_ok.enc_inj _ _ (EcPoint.array32.inj (Option.some.inj h))
  have e3 : leNat (xmd toy [] (List.replicate 16 65) 64) = 1 := by decide +kernel
  simp only [toyMap, e3, Nat.cast_one] at h3
  have : (1 : ZMod order) = 0 := by
    have := congrArg (· - 1) h3
    simp only [sub_self] at this
    rw [← this]; ring
  exact one_ne_zero this

/-! ## Concrete cases -/

example : ∃ x : Bytes, x.length = 32 ∧ ∀ a, toyEnc a ≠ x := by
  refine ⟨List.replicate 32 255, rfl, fun a h => ?_⟩
  have h1 := toyDec_enc a
  rw [h] at h1
  have : toyDec (List.replicate 32 255) = none := by
    unfold toyDec
    rw [if_neg (by decide +kernel)]
  rw [this] at h1
  exact absurd h1 (by simp)
/-- Doubling in place after an aliased sum: `p = g; p += p; q = 5·p - p`. -/
example (g : Nat → ZMod order) : (grun toy 1 toyMap g [.generator 0, .addIn 0 0, .mul 1 0 5, .subIn 1 0]).map (· 1) = some 8 := by
  simp only [grun, gstep, Option.bind_some, Option.map_some]
  simp
  norm_num
example : ∃ A B S, xMulBase toyXLib 5 = some A ∧ xMulBase toyXLib (-3) = some B ∧ xMul toyXLib A (-3) = some S ∧ xMul toyXLib B 5 = some S := by
  obtain ⟨A, B, S, h1, h2, h3, h4, _⟩ := C133_x_agree toyX_ok 5 (-3)
  exact ⟨A, B, S, h1, h2, h3, h4⟩
example : (0 : Int) ≤ 12 ∧ (12 : Int) < order := by decide +kernel
example : TagOk (ascii "QUUX-V01-CS02-with-ristretto255_XMD:SHA-512_R255MAP_RO_") := by decide +kernel

end Yacl.Ecc.Sodium
