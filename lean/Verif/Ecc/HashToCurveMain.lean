import Verif.Ecc.NistCurves

/-! C104 for the three NIST curves: hash to curve, encode to curve and hash to scalar. -/
namespace Yacl.Ecc.H2C
open BlockCipher (Byte Bytes beNat beBytes)
open Yacl.Ecc (AffinePoint Represents curve)

/-- What a user expects of hash to curve on a NIST curve: the point is the sum of the SSWU points of the two field elements that RFC 9380 derives from the message and tag. -/
def HashesToCurve (p : ℕ) [Fact p.Prime] (c : Ctx) (l : ℕ) (f : Bytes → Bytes → Option AffinePoint) : Prop :=
  ∀ msg dst : Bytes, 16 ≤ dst.length → dst.length ≤ 255 → ∃ Q0 Q1 R,
    IsSswu p c ((Rfc.field c.hash.fn c.hash.size c.sInBytes p l msg dst 2).getD 0 0) Q0 ∧
    IsSswu p c ((Rfc.field c.hash.fn c.hash.size c.sInBytes p l msg dst 2).getD 1 0) Q1 ∧
    f msg dst = some R ∧ Represents R (Q0 + Q1)

/-- What a user expects of encode to curve: the point is the SSWU point of the field element. -/
def EncodesToCurve (p : ℕ) [Fact p.Prime] (c : Ctx) (l : ℕ) (f : Bytes → Bytes → Option AffinePoint) : Prop :=
  ∀ msg dst : Bytes, 16 ≤ dst.length → dst.length ≤ 255 → ∃ Q R,
    IsSswu p c ((Rfc.field c.hash.fn c.hash.size c.sInBytes p l msg dst 1).getD 0 0) Q ∧ f msg dst = some R ∧ Represents R Q

/-- C104. P-256 with a 32-byte hash, P-384 with a 48-byte hash and P-521 with a 64-byte hash: for every message and every tag of 16 to 255 bytes `HashToCurve` and
`EncodeToCurve` return the point of RFC 9380, and never throw. -/
theorem C104_nist (h : Hash) :
    (h.size = 32 → HashesToCurve P256 (ctx256 h) 48 (hashToCurve (ctx256 h) 48) ∧ EncodesToCurve P256 (ctx256 h) 48 (encodeToCurve (ctx256 h) 48)) ∧
    (h.size = 48 → HashesToCurve P384 (ctx384 h) 72 (hashToCurve (ctx384 h) 72) ∧ EncodesToCurve P384 (ctx384 h) 72 (encodeToCurve (ctx384 h) 72)) ∧
    (h.size = 64 → HashesToCurve P521 (ctx521 h) 98 (hashToCurve (ctx521 h) 98) ∧ EncodesToCurve P521 (ctx521 h) 98 (encodeToCurve (ctx521 h) 98)) := by
  refine ⟨fun hs => ⟨fun msg dst h1 h2 => ?_, fun msg dst h1 h2 => ?_⟩, fun hs => ⟨fun msg dst h1 h2 => ?_, fun msg dst h1 h2 => ?_⟩,
    fun hs => ⟨fun msg dst h1 h2 => ?_, fun msg dst h1 h2 => ?_⟩⟩
  · exact (C104_hash_to_curve (nist_p256 h) 48 msg dst).1 ⟨by show (2 * 48 + h.size - 1) / h.size ≤ 255; rw [hs]; omega, by omega, h1, h2⟩
  · exact C104_encode_to_curve (nist_p256 h) 48 msg dst ⟨by show (1 * 48 + h.size - 1) / h.size ≤ 255; rw [hs]; omega, by omega, h1, h2⟩
  · exact (C104_hash_to_curve (nist_p384 h) 72 msg dst).1 ⟨by show (2 * 72 + h.size - 1) / h.size ≤ 255; rw [hs]; omega, by omega, h1, h2⟩
  · exact C104_encode_to_curve (nist_p384 h) 72 msg dst ⟨by show (1 * 72 + h.size - 1) / h.size ≤ 255; rw [hs]; omega, by omega, h1, h2⟩
  · exact (C104_hash_to_curve (nist_p521 h) 98 msg dst).1 ⟨by show (2 * 98 + h.size - 1) / h.size ≤ 255; rw [hs]; omega, by omega, h1, h2⟩
  · exact C104_encode_to_curve (nist_p521 h) 98 msg dst ⟨by show (1 * 98 + h.size - 1) / h.size ≤ 255; rw [hs]; omega, by omega, h1, h2⟩

/-- The order of P-256. -/
def N256 : ℕ := 115792089210356248762697446949407573529996955224135760342422259061068512044369

/-- C104. `HashToScalar` of P-256: the expanded message read as a big-endian number, modulo the group order. -/
theorem C104_scalar_p256 (h : Hash) (hs : h.size = 32) (msg dst : Bytes) :
    hashToScalarCurve (ctx256 h) 48 msg dst =
      if 16 ≤ dst.length ∧ dst.length ≤ 255 then some ((beNat (Rfc.expand h.fn 32 64 msg dst 48) % N256 : ℕ) : ℤ) else none := by
  unfold hashToScalarCurve hashToScalar
  by_cases hd : 16 ≤ dst.length ∧ dst.length ≤ 255
  · have hacc : Accepts (ctx256 h) dst 48 := ⟨by show (48 + h.size - 1) / h.size ≤ 255; rw [hs]; omega, by omega, hd.1, hd.2⟩
    obtain ⟨e, hl⟩ := C104_expand (ctx256 h) msg dst 48
    rw [if_pos hd, if_pos hd, e, if_pos hacc, Option.bind_some, List.take_of_length_le (le_of_eq hl)]
    have e1 : (ctx256 h).hash.size = 32 := hs
    have e2 : (ctx256 h).sInBytes = 64 := rfl
    rw [e1, e2]
    have e3 : (ctx256 h).at? "n" = some (N256 : ℤ) := rfl
    rw [e3, Option.map_some, Int.natCast_emod]
    rfl
  · rw [if_neg hd, if_neg hd]

/-- C104, violated: `HashToScalar` of P-384 and of P-521 throws for every message and tag, because the order is missing from their tables of constants. -/
theorem C104_scalar_violated (h : Hash) (l : ℕ) (msg dst : Bytes) :
    hashToScalarCurve (ctx384 h) l msg dst = none ∧ hashToScalarCurve (ctx521 h) l msg dst = none := by
  have e1 : (ctx384 h).at? "n" = none := rfl
  have e2 : (ctx521 h).at? "n" = none := rfl
  unfold hashToScalarCurve hashToScalar
  constructor
  · split
    · rw [e1]; cases expandMessageXmd (ctx384 h) msg dst l <;> rfl
    · rfl
  · split
    · rw [e2]; cases expandMessageXmd (ctx521 h) msg dst l <;> rfl
    · rfl

/-- A hash of 32 bytes for examples. -/
def toy32 : Hash := ⟨32, fun x => List.replicate 32 (x.foldl (· + ·) 1), by decide, fun _ => rfl⟩

/-- The hypotheses hold for a hash of 32 bytes, a message and a tag. -/
example : toy32.size = 32 ∧ ∃ R, hashToCurve (ctx256 toy32) 48 [1, 2, 3] (List.replicate 20 7) = some R := by
  obtain ⟨-, -, R, -, -, e, -⟩ := ((C104_nist toy32).1 rfl).1 [1, 2, 3] (List.replicate 20 7) (by decide) (by decide)
  exact ⟨rfl, R, e⟩

end Yacl.Ecc.H2C
