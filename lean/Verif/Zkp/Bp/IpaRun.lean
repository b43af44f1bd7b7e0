/-
C91: concrete runs of the inner product argument.
-/
import Verif.Zkp.Bp.Sound
import Mathlib.Data.Rat.Defs
import Mathlib.Algebra.Field.Rat
import Mathlib.Algebra.Module.Pi
import Mathlib.Tactic.FinCases
import Mathlib.Tactic.NormNum
import Mathlib.LinearAlgebra.Matrix.Notation

namespace Yacl.Bp

/-- Toy environment over the rationals; the challenge depends on the transcript. -/
def toyEnv : Env ℚ ℚ where
  sha l := [l.foldl (fun s b => (s * 31 + b) % 251) 7]
  shake l _ := l
  serPoint p := [p.num.natAbs % 251, p.den % 251]
  serScalar p := [p.num.natAbs % 251, p.den % 251]
  reduce l := (l.foldl (fun s b => s + b) 0 : Nat) + 1

/-- A run with two rounds, factors and all. -/
def toyProof : Option (Ipp ℚ ℚ × List Nat) :=
  create toyEnv 5 [1, 2, 3, 4] [1, 1/2, 1/4, 1/8] [1, 2, 3, 4] [7, 11, 13, 17] [1, 2, 3, 4] [5, 6, 7, 8] [1]

/-- Non-vacuity of `C91_complete_partial` (and with it of `C91_verify_iff`). -/
example : ∃ pf st', toyProof = some (pf, st') ∧ pf.L.length = 2 ∧ (∀ L ∈ pf.L, L ≠ 0) ∧ (∀ R ∈ pf.R, R ≠ 0) := by
  have h : (toyProof.map fun r => decide (r.1.L.length = 2 ∧ (∀ L ∈ r.1.L, L ≠ 0) ∧ (∀ R ∈ r.1.R, R ≠ 0)))
      = some true := by decide +kernel
  cases hp : toyProof with
  | none => rw [hp] at h; cases h
  | some r =>
    rw [hp] at h
    simp only [Option.map_some, Option.some.injEq, decide_eq_true_eq] at h
    exact ⟨r.1, r.2, rfl, h⟩

/-- C91 (e), the excluded case of completeness: the proof `Create` makes for zero vectors
    makes `Verify` throw. -/
theorem C91_zero_violated :
    ∃ pf st', create toyEnv 5 [1, 1] [1, 1] [1, 2] [7, 11] [0, 0] [0, 0] [1] = some (pf, st') ∧
      verify toyEnv pf [1, 1] [1, 1] (commitment (F := ℚ) [1, 2] [7, 11] 5 [0, 0] [0, 0]) 5 [1, 2] [7, 11] [1] = none := by
  have h : ((create toyEnv 5 [1, 1] [1, 1] [1, 2] [7, 11] [0, 0] [0, 0] [1]).map fun r =>
      decide (verify toyEnv r.1 [1, 1] [1, 1] (commitment (F := ℚ) [1, 2] [7, 11] 5 [0, 0] [0, 0]) 5 [1, 2] [7, 11] [1] = none))
      = some true := by decide +kernel
  cases hp : create toyEnv 5 [1, 1] [1, 1] [1, 2] [7, 11] [0, 0] [0, 0] [1] with
  | none => rw [hp] at h; cases h
  | some r =>
    rw [hp] at h
    simp only [Option.map_some, Option.some.injEq, decide_eq_true_eq] at h
    exact ⟨r.1, r.2, rfl, h⟩

/-- An honest prover of one round for `a = (1, 2)`, `b = (3, 4)`. -/
def toyProver : Prover ℚ (Fin 5 → ℚ) where
  L _ := ![0, 1, 4, 0, 4]
  R _ := ![2, 0, 0, 3, 6]
  a us := match us with | u :: _ => u + 2 * u⁻¹ | [] => 0
  b us := match us with | u :: _ => 3 * u⁻¹ + 4 * u | [] => 0

/-- Non-vacuity of `C91_sound`. -/
example : (∀ past : List ℚ, Four ((fun _ => [(1 : ℚ), 2, 3, 4]) past)) ∧
    Independent (F := ℚ) (M := Fin 5 → ℚ) [![1, 0, 0, 0, 0], ![0, 1, 0, 0, 0]]
      [![0, 0, 1, 0, 0], ![0, 0, 0, 1, 0]] ![0, 0, 0, 0, 1] ∧
    ∀ us : List ℚ, us.length = 1 → Allowed (fun _ => [1, 2, 3, 4]) [] us →
      recursiveCheck (toyProver.run [] us) ![1, 2, 3, 4, 11] [![1, 0, 0, 0, 0], ![0, 1, 0, 0, 0]]
        [![0, 0, 1, 0, 0], ![0, 0, 0, 1, 0]] ![0, 0, 0, 0, 1] (toyProver.a us) (toyProver.b us) := by
  refine ⟨fun _ => (show Four [(1 : ℚ), 2, 3, 4] from ⟨rfl, by decide +kernel, by decide +kernel⟩), ?_, ?_⟩
  · intro x y z hx hy he
    match x, y, hx, hy with
    | [x0, x1], [y0, y1], _, _ =>
      have h0 := congrFun he 0
      have h1 := congrFun he 1
      have h2 := congrFun he 2
      have h3 := congrFun he 3
      have h4 := congrFun he 4
      simp [dot] at h0 h1 h2 h3 h4
      simp [h0, h1, h2, h3, h4]
  · intro us hus hall
    match us, hus with
    | [u], _ =>
      have hu : u ∈ [(1 : ℚ), 2, 3, 4] := hall.1
      simp only [toyProver, Prover.run, recursiveCheck, commitment, halve, dot]
      fin_cases hu <;> decide +kernel

end Yacl.Bp
