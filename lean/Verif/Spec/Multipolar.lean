import Mathlib.Analysis.SpecialFunctions.Complex.LogBounds
import Mathlib.Analysis.SpecialFunctions.Log.Basic

/-!
# Specification vocabulary for the multipolar expansion: potentials of line charges in the plane
-/

noncomputable section

namespace Tulip.Spec

/-- A point of the plane as a complex number. -/
def toC (p : ℝ × ℝ) : ℂ := ⟨p.1, p.2⟩

/-- Potential (natural units) of line charges `(q, position)` at a point: `-(1/2π) Σ q log |p - position|`. -/
def linePotential (charges : List (ℝ × (ℝ × ℝ))) (p : ℝ × ℝ) : ℝ :=
  -(1 / (2 * Real.pi)) * (charges.map (fun q => q.1 * Real.log ‖toC p - toC q.2‖)).sum

/-- Truncated Laurent series with coefficients `a n + i b n`, and a logarithm for `n = 0`. -/
def laurent (a b : ℕ → ℝ) (order : ℕ) (z : ℂ) : ℝ :=
  1 / (2 * Real.pi) * (-(a 0) * Real.log ‖z‖ +
    (∑ n ∈ Finset.range order, ((a (n + 1) : ℂ) + (b (n + 1) : ℂ) * Complex.I) / z ^ (n + 1)).re)

/-- Moments of line charges about a centre: total charge, and `Σ q (w^n) / n` with `w = position - center`. -/
def lineMoment (charges : List (ℝ × (ℝ × ℝ))) (center : ℝ × ℝ) (n : ℕ) : ℂ :=
  (charges.map (fun q => (q.1 : ℂ) * (if n = 0 then 1 else (toC q.2 - toC center) ^ n / n))).sum

end Tulip.Spec
