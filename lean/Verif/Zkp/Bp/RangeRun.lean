/-
C92: concrete runs of the range proof.
-/
import Verif.Zkp.Bp.RangeVerify
import Verif.Zkp.Bp.IpaRun

namespace Yacl.Bp

/-- Toy generators. -/
def toyGens : Gens ℚ where
  gensCapacity := 8
  partyCapacity := 2
  G j i := (3 * i + 5 * j + 1 : Nat)
  H j i := (i * i + 7 * j + 2 : Nat)

/-- Toy randomness. -/
def toyRand (j : Nat) : PartyRand ℚ where
  aBlinding := j + 1
  sBlinding := 2 * j + 3
  sL i := i + 1
  sR i := j + 2 * i + 1
  t1Blinding := 4
  t2Blinding := j + 9

/-- The hypotheses of C92 about a made proof, and the verdict on it. -/
def toyFine (values : List Nat) (blindings : List ℚ) : Option (Bool × Option Bool) :=
  (proveMultiple toyEnv 5 7 toyGens values blindings toyRand 8 [1]).map fun r =>
    let pf := r.1.1
    (decide (pf.A ≠ 0 ∧ pf.S ≠ 0 ∧ pf.T1 ≠ 0 ∧ pf.T2 ≠ 0 ∧ (∀ L ∈ pf.ipp.L, L ≠ 0) ∧
      (∀ R ∈ pf.ipp.R, R ≠ 0) ∧ (rangeChallenges toyEnv pf r.1.2 8 [1]).1 ≠ 0 ∧
      (rangeChallenges toyEnv pf r.1.2 8 [1]).2 ≠ 0),
     verifyMultiple toyEnv 5 7 toyGens pf r.1.2 8 [1])

/-- Non-vacuity of C92: an accepted run with two values, and a rejected one with a value
    out of range. -/
example : toyFine [255, 77] [3, 4] = some (true, some true) := by decide +kernel
example : toyFine [256] [3] = some (true, some false) := by decide +kernel

/-- Independent generators for one bit. -/
def unitGens : Gens (Fin 4 → ℚ) where
  gensCapacity := 1
  partyCapacity := 1
  G _ _ := ![1, 0, 0, 0]
  H _ _ := ![0, 1, 0, 0]

/-- An honest prover for the bit 1. -/
def unitProver : RangeProver ℚ (Fin 4 → ℚ) where
  A := ![1, 0, 0, 5]
  S := ![2, 3, 0, 0]
  T1 _ z := ![0, 0, 3 * (1 - z) + 2 * (z + z ^ 2), 0]
  T2 _ _ := ![0, 0, 6, 0]
  txBlinding _ z _ := 7 * z ^ 2
  eBlinding _ _ _ := 5
  ipa _ z x _ := { L := fun _ => 0, R := fun _ => 0, a := fun _ => 1 - z + 2 * x, b := fun _ => z + z ^ 2 + 3 * x }

/-- Non-vacuity of `C92_sound`. -/
example : GensIndependent ℚ 1 1 unitGens ![0, 0, 1, 0] ![0, 0, 0, 1] ∧
    (∀ y z x w : ℚ, recursiveCheck ((unitProver.ipa y z x w).run [] [])
        (rangePoint ![0, 0, 1, 0] ![0, 0, 0, 1] unitGens 1 1 unitProver.A unitProver.S (unitProver.T1 y z)
          (unitProver.T2 y z) (fun _ => ![0, 0, 1, 7]) (unitProver.txBlinding y z x) (unitProver.eBlinding y z x) y z x w)
        (getAll unitGens.G 1 1) (scaled (expIter y⁻¹ (1 * 1)) (getAll unitGens.H 1 1)) (w • ![0, 0, 1, 0])
        ((unitProver.ipa y z x w).a []) ((unitProver.ipa y z x w).b [])) := by
  constructor
  · intro g h b c he
    have h0 := congrFun he 0
    have h1 := congrFun he 1
    have h2 := congrFun he 2
    have h3 := congrFun he 3
    simp [unitGens] at h0 h1 h2 h3
    refine ⟨fun k hk => ?_, h2, h3⟩
    obtain rfl : k = 0 := by omega
    exact ⟨h0, h1⟩
  · intro y z x w
    simp only [recursiveCheck, Prover.run, getAll, share, unitGens, List.range_one, List.flatMap_cons, List.flatMap_nil,
      List.map_cons, List.map_nil, List.append_nil, expIter, expLoop, scaled, List.zipWith_cons_cons,
      List.zipWith_nil_left, one_smul, commitment, dot_cons, dot_nil_left, add_zero, unitProver, rangePoint]
    ext i
    fin_cases i <;> simp <;> ring

end Yacl.Bp
