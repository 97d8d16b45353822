import Verif.Model.Outcome
import Mathlib.Analysis.SpecialFunctions.Trigonometric.Arctan
import Mathlib.Analysis.SpecialFunctions.Log.Basic

/-!
# Analytic functions (src/multipolarExpansion.h, src/constants.h, `firstOrderABC`)

`double` is modelled by the real numbers: rounding is not modelled, and a division by zero or the logarithm
of zero is the outcome `nonfinite`.
-/

noncomputable section

namespace Tulip.Multipolar

/-- `EPSILON0_NATURAL` (constants.h:11) -/
def EPSILON0_NATURAL : ℝ := 1

/-- `EPSILON0_SI` (constants.h:14) -/
def EPSILON0_SI : ℝ := 8.8541878176e-12

/-- `MU0_SI` (constants.h:20) -/
def MU0_SI : ℝ := 4.0e-7 * Real.pi

/-- `mfem::Vector::Norml2` of a plane vector. -/
def norml2 (v : ℝ × ℝ) : ℝ := Real.sqrt (v.1 * v.1 + v.2 * v.2)

/-- `std::atan2(y, x)`, by cases as in the C standard; signed zeros are not modelled (both functions below
use it only through sines and cosines of integer multiples, and the choice at `-0.0` changes it by a
multiple of 2 pi at most). -/
def atan2 (y x : ℝ) : ℝ :=
  if 0 < x then Real.arctan (y / x)
  else if x < 0 then
    if 0 ≤ y then Real.arctan (y / x) + Real.pi else Real.arctan (y / x) - Real.pi
  else if 0 < y then Real.pi / 2
  else if y < 0 then -(Real.pi / 2)
  else 0

/-- `v -= w` -/
def sub2 (v w : ℝ × ℝ) : ℝ × ℝ := (v.1 - w.1, v.2 - w.2)

/-- Loop of `multipolarExpansion` (multipolarExpansion.h:27-37), from index `n` on. At distance zero the
logarithm (`n = 0`) and the quotient (`n > 0`) are not finite. -/
def expansionLoop (r phi : ℝ) : Nat → List (ℝ × ℝ) → ℝ → Outcome ℝ
  | _, [], res => .ok res
  | n, (an, bn) :: ab, res =>
    if r = 0 then .nonfinite
    else if n = 0 then expansionLoop r phi (n + 1) ab (res - an * Real.log r)
    else expansionLoop r phi (n + 1) ab
      (res + (an * Real.cos (n * phi) + bn * Real.sin (n * phi)) / r ^ n)

/-- `multipolarExpansion` (multipolarExpansion.h:11-40). -/
def multipolarExpansion (position : ℝ × ℝ) (ab : List (ℝ × ℝ)) (expansionCenter : ℝ × ℝ) : Outcome ℝ := do
  let rVec := sub2 position expansionCenter
  let r := norml2 rVec
  let phi := atan2 rVec.2 rVec.1
  let res ← expansionLoop r phi 0 ab 0
  .ok (res / (2 * Real.pi))

/-- `momentComponent` (multipolarExpansion.h:42-63); the assertions are compiled out in release builds. -/
def momentComponent (position : ℝ × ℝ) (n component : Nat) (translation : ℝ × ℝ) : ℝ :=
  if n = 0 then 1
  else
    let pos := sub2 position translation
    let r := norml2 pos
    let phi := atan2 pos.2 pos.1
    if component = 0 then r ^ n * Real.cos (n * phi) / n
    else r ^ n * Real.sin (n * phi) / n

/-- `firstOrderABC` (ElectrostaticSolver.cpp:51-56); not finite at distances 0 and 1. -/
def firstOrderABC (rVec : ℝ × ℝ) : ℝ :=
  -EPSILON0_NATURAL / (norml2 rVec * Real.log (norml2 rVec))

end Tulip.Multipolar
