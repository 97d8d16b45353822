import Verif.Spec.Rounding
import Verif.Model.RoundedExpansion

/-!
# What is assumed of the functions of the mathematical library
-/

noncomputable section

namespace Tulip.Spec
open Tulip.RoundedExpansion

/-- The computed functions have relative error at most `u`. -/
structure AccurateLibrary (lib : Library) (u : ℝ) : Prop where
  norml2 : ∀ v : ℝ × ℝ, |lib.norml2 v - Real.sqrt (v.1 * v.1 + v.2 * v.2)| ≤ u * Real.sqrt (v.1 * v.1 + v.2 * v.2)
  atan2 : ∀ y x, |lib.atan2 y x - Multipolar.atan2 y x| ≤ u * |Multipolar.atan2 y x|
  log : ∀ x, 0 < x → |lib.log x - Real.log x| ≤ u * |Real.log x|
  cos : ∀ x, |lib.cos x - Real.cos x| ≤ u * |Real.cos x|
  sin : ∀ x, |lib.sin x - Real.sin x| ≤ u * |Real.sin x|
  pow : ∀ x n, 0 ≤ x → |lib.pow x n - x ^ n| ≤ u * x ^ n
  pi : |lib.pi - Real.pi| ≤ u * Real.pi

/-- The sum of the sizes of the terms of an expansion at distance `r` from its centre:
`(|a 0| (|log r| + 1) + Σ (|a n| + |b n|) / rⁿ) / 2π`. -/
def expansionSize (ab : List (ℝ × ℝ)) (r : ℝ) : ℝ :=
  (|(ab.getD 0 (0, 0)).1| * (|Real.log r| + 1) +
    ∑ n ∈ Finset.range (ab.length - 1), (|(ab.getD (n + 1) (0, 0)).1| + |(ab.getD (n + 1) (0, 0)).2|) / r ^ (n + 1)) /
    (2 * Real.pi)

end Tulip.Spec
