/-
A concrete run of the safe prime search (C90), meeting the hypotheses of `C90_safe_prime`.
-/
import Verif.MpInt.Prime

namespace Yacl.MPInt.Arith

/-- A run of the search: 4 bits are asked for, the candidates 7 and 9 are skipped and 23
    is returned, one bit longer than asked for. -/
theorem C90_run : safePrimeRand (fun n => n == 11) 4 [[0]] 0 = some (11, 23) := by
  decide +kernel

end Yacl.MPInt.Arith
