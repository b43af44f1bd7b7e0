/-
C115: concrete runs of the rank-1 constraint system.
-/
import Verif.Zkp.Bp.R1cs
import Verif.Zkp.Bp.RangeRun

namespace Yacl.Bp.R1cs

/-- Two commitments, a product, a pair of allocations, a free multiplier and a randomised
    constraint on the second phase; `c` is the claimed product. -/
def toyProg (c : ℚ) : Prog ℚ :=
  .commit 2 11 fun x => .commit 5 13 fun y =>
  .multiply (ofVar x) (lcAdd (ofVar y) (ofScalar 1)) fun _ _ o =>
  .constrain (lcSub (ofVar o) (ofScalar c)) <|
  .allocate (some 7) fun l => .allocate (some 3) fun r =>
  .constrain (lcSub (lcSub (ofVar l) (lcMul (ofVar x) 2)) (ofVar r)) <|
  .allocMul (some (4, 6)) fun _ _ p =>
  .constrain (lcSub (ofVar p) (lcMul (ofVar o) 2)) <|
  .append "note" [1, 2, 3] <|
  .defer (.challenge "c" fun g =>
    .multiply (lcSub (ofVar x) (ofScalar g)) (lcSub (ofVar y) (ofScalar g)) fun _ _ o2 =>
    .multiply (lcSub (ofVar y) (ofScalar g)) (lcSub (ofVar x) (ofScalar g)) fun _ _ o3 =>
    .constrain (lcSub (ofVar o2) (ofVar o3)) .ret) .ret

/-- Toy randomness. -/
def toyRand1 : Rand ℚ where
  i1 := 2
  o1 := 3
  s1 := 5
  i2 := 7
  o2 := 11
  s2 := 13
  sL1 i := i + 1
  sR1 i := 2 * i + 3
  sL2 i := i + 4
  sR2 i := 3 * i + 1
  t1 := 17
  t3 := 19
  t4 := 23
  t5 := 29
  t6 := 31

/-- The hypotheses of C115, the number of multipliers in both phases, and the verdict. -/
def toyRun (prog : Prog ℚ) : Option (Bool × Nat × Nat × Option Bool) := do
  let s ← runP toyEnv 5 7 prog (newP toyEnv [1])
  let r ← prove toyEnv 5 7 toyGens toyRand1 s
  let vs ← runV toyEnv prog (newV toyEnv [1] r.2.Vs)
  let ph ← secondPhase toyEnv r.1 vs
  let ch := checkChallenges toyEnv r.1 (nextPowerOfTwo ph.2.num) ph.2.st
  some (decide ((∀ L ∈ r.1.ipp.L, L ≠ 0) ∧ (∀ R ∈ r.1.ipp.R, R ≠ 0) ∧ nextPowerOfTwo r.2.aL.length < 2 ^ 32 ∧
    ch.2.1 ≠ 0 ∧ ch.2.2 ≠ 0), ph.1, ph.2.num, verify toyEnv 5 7 toyGens r.1 vs)

/-- Non-vacuity of C115: two phases, padding from five to eight multipliers; accepted with the
    right product and rejected with a wrong one. -/
example : toyRun (toyProg 12) = some (true, 3, 5, some true) := by decide +kernel
example : toyRun (toyProg 13) = some (true, 3, 5, some false) := by decide +kernel

/-- One phase. -/
example : toyRun (.allocMul (some (3, 4)) fun _ _ o => .constrain (lcSub (ofVar o) (ofScalar 12)) .ret)
    = some (true, 1, 1, some true) := by decide +kernel

/-- Non-vacuity of `C115_stable`: the first of a pair of allocations is open. -/
example : ((runP toyEnv (5 : ℚ) 7 (.allocate (some 7) fun _ => .ret) (newP toyEnv [1])).map fun s =>
    (s.pending, s.aL, s.aR, s.aO)) = some (some 0, [7], [0], [0]) := by decide +kernel

end Yacl.Bp.R1cs
