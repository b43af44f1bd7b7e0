import Verif.Oprf.Verifiable
import Verif.Oprf.Context

/-! Concrete runs: the hypotheses of C93, C94 and C95 are met. -/
namespace Yacl.Oprf
open Vss (invertMod)

/-- A toy context over the group of order 7. -/
def toy (hash : Bytes → Bytes) : Ctx (ZMod 7) where
  order := 7
  gen := 1
  hashToGroup b := ((b.map BitVec.toNat).sum : ℕ)
  hashToScalar b := ((b.map BitVec.toNat).sum % 7 : ℕ)
  hashToScalarDerive b := ((b.map BitVec.toNat).sum % 7 : ℕ)
  ser P := [BitVec.ofNat 8 P.val]
  hash := hash
  ctxStr := lit "ctx"

theorem toy_order (P : ZMod 7) : ((7 : ℕ) : Int) • P = 0 := by revert P; decide

theorem toy_ser (h : Bytes → Bytes) : Function.Injective (toy h).ser := by
  have key : ∀ a b : ZMod 7, [BitVec.ofNat 8 a.val] = [BitVec.ofNat 8 b.val] → a = b := by decide
  exact fun a b hab => key a b hab

theorem toy_small : Small (toy fun b => b.take 8) :=
  ⟨fun _ => by simp [toy], fun b => by simp [toy], by decide⟩

instance : Fact (Nat.Prime 7) := ⟨by decide⟩

/-- C93: a history with a clear between finalise and refresh, ending with blind 3: the client returns the function. -/
example : evaluate (toy id) 5
      (run (toy id) ⟨2, 0⟩ [.blind [1#8], .finalize 4 [1#8], .clear, .refresh 3]) [1#8] = prf (toy id) 5 [1#8] ∧
    prf (toy id) 5 [1#8] = some (lit "\x00\x01\x01\x00\x01\x05Finalize") := by
  refine ⟨?_, by decide⟩
  have hops : ClearsBeforeRefresh (G := ZMod 7) [.blind [1#8], .finalize 4 [1#8], .clear, .refresh 3] := by
    intro pre mid post e i r h
    match pre, h with
    | [], h => simp at h
    | [_], h =>
      simp only [List.cons_append, List.nil_append, List.cons.injEq] at h
      obtain ⟨-, -, h⟩ := h
      match mid, h with
      | [], h => simp at h
      | o :: t, h =>
        simp only [List.cons_append, List.cons.injEq] at h
        rw [← h.1]; exact List.mem_cons_self
    | [_, _], h => simp at h
    | [_, _, _], h => simp at h
    | _ :: _ :: _ :: _ :: t, h => simp at h
  rw [C93_output_partial (q := 7) rfl toy_order 2 _ hops]
  rw [if_neg (by decide)]

/-- C93: the same history without the clear: another value. -/
example : evaluate (toy id) 5 (run (toy id) ⟨2, 0⟩ [.finalize 4 [1#8], .refresh 3]) [1#8] ≠ prf (toy id) 5 [1#8] :=
  C93_refresh_violated (q := 7) (X := toy id) rfl toy_order (toy_ser id) Function.injective_id (by decide) (by decide)
    (by decide) (by decide) _ _ (by decide)

/-- C93: hiding, for two inputs with different hashes. -/
example : ∃! b' : Int, 0 < b' ∧ b' < 7 ∧ blind (toy id) ⟨b', 0⟩ [2#8] = blind (toy id) ⟨4, 0⟩ [3#8] := by
  have := C93_hiding (q := 7) (X := toy id) toy_order (fun P => ⟨(P.val : Int), by revert P; decide⟩)
    (x := [3#8]) (x' := [2#8]) (by decide) (by decide) 4 (by decide)
  exact_mod_cast this

/-- C94: a batch of two is proved and accepted. -/
example : ∃ p, generateProof (toy fun b => b.take 8) 3 (3 • 1) [2, 5] [6, 1] 0 4 = some p ∧
    verifyProof (toy fun b => b.take 8) (3 • 1) [2, 5] [6, 1] p = some true :=
  C94_complete (q := 7) rfl toy_order toy_small 3 [2, 5] (by decide) 0 4

/-- C94: a wrong second evaluation is rejected with the same proof. -/
example : (generateProof (toy fun b => b.take 8) 3 (3 • 1) [2, 5] [6, 1] 0 4).bind
    (verifyProof (toy fun b => b.take 8) (3 • 1) [2, 5] [6, 2]) = some false := by decide +kernel

/-- A rewound oracle: another answer to the challenge query. -/
def toy' : Bytes → Int := fun b =>
  if b.getLast? = some 0x65#8 ∧ b.length = 24 then ((b.map BitVec.toNat).sum % 7 + 1 : ℕ) else ((b.map BitVec.toNat).sum % 7 : ℕ)

/-- C94: two accepting transcripts with the same announcements meet the hypotheses of `C94_sound`. -/
example : (6 : ZMod 7) = (3 : Int) • 2 :=
  (C94_sound (q := 7) (X := toy fun b => b.take 8) toy_order (by decide) toy_small toy' (k := 3) (p := ⟨5, 3⟩)
    (p' := ⟨6, 0⟩) (by decide +kernel) (by decide +kernel) (by decide +kernel) (by decide +kernel) (by decide +kernel)
    (by decide +kernel) (by decide)).1

/-- C95: a seed and info with a non-zero hash, and one whose hash is zero. -/
example : deriveKeyPair (toy id) [1#8, 2#8] [7#8] 0xff#8 = .ok (4, 4) ∧
    deriveKeyPair (toy id) [1#8, 5#8] [7#8] 0xff#8 = .ub := by
  refine ⟨?_, ?_⟩
  · rw [C95_derive_partial _ _ _ (by decide)]; decide
  · rw [C95_derive_partial _ _ _ (by decide)]; decide

end Yacl.Oprf
