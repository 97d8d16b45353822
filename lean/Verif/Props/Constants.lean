import Verif.Model.Multipolar
import Mathlib.Analysis.Real.Pi.Bounds

/-!
# C82: the constants of the program
-/

namespace Tulip.Props
open Tulip Tulip.Multipolar

/-- **C82, constants.** The SI constants are positive and belong to the speed of light, 299792458 m/s, within one part in
10^11: the slowness `mu0 eps0` in `C82_modes` is that of light in vacuum. -/
theorem C82_constants : 0 < EPSILON0_SI ∧ 0 < MU0_SI ∧ |MU0_SI * EPSILON0_SI * 299792458 ^ 2 - 1| < 1e-11 ∧
    |EPSILON0_SI - 8.8541878e-12| < 1e-19 := by
  have h1 := Real.pi_gt_d20
  have h2 := Real.pi_lt_d20
  unfold EPSILON0_SI MU0_SI
  refine ⟨by norm_num, by positivity, ?_, ?_⟩
  · rw [abs_lt]
    constructor <;> norm_num <;> nlinarith
  · rw [abs_lt]
    constructor <;> norm_num

end Tulip.Props
