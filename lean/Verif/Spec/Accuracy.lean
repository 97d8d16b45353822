import Verif.Model.Results
import Mathlib.MeasureTheory.Integral.Bochner.Set
import Mathlib.MeasureTheory.Measure.Lebesgue.Basic
import Mathlib.Analysis.Complex.Norm
import Mathlib.Analysis.Real.Pi.Bounds

/-!
# Specification vocabulary for the accuracy of box averages: the exact mean, and the size of second derivatives
-/

noncomputable section

namespace Tulip.Spec
open MeasureTheory

/-- The points of the box outside the inner region. -/
def outsideRegion (box inner : Box ℝ) : Set (ℝ × ℝ) :=
  (Set.Icc box.min.1 box.max.1 ×ˢ Set.Icc box.min.2 box.max.2) \
    (Set.Icc inner.min.1 inner.max.1 ×ˢ Set.Icc inner.min.2 inner.max.2)

/-- The mean over the box of a potential with the given mean over the inner region, and equal to `v` outside it: the
integral is that of Lebesgue, in the plane. -/
def exactMean (innerMean : ℝ) (inner box : Box ℝ) (v : ℝ × ℝ → ℝ) : ℝ :=
  (innerMean * ((inner.max.1 - inner.min.1) * (inner.max.2 - inner.min.2)) + ∫ p in outsideRegion box inner, v p) /
    ((box.max.1 - box.min.1) * (box.max.2 - box.min.2))

/-- The second differences of `v` along all segments within the set `S` are at most `M` times the square of half the
length of the segment. -/
def SecondDifferences (v : ℝ × ℝ → ℝ) (S : Set (ℝ × ℝ)) (M : ℝ) : Prop :=
  ∀ m u : ℝ × ℝ, (∀ t ∈ Set.Icc (-1 : ℝ) 1, (m.1 + t * u.1, m.2 + t * u.2) ∈ S) →
    |v (m.1 + u.1, m.2 + u.2) + v (m.1 - u.1, m.2 - u.2) - 2 * v m| ≤ M * (u.1 ^ 2 + u.2 ^ 2)

/-- Along all segments within the set `S`, `v` changes by at most `L` times the sum of the changes of the coordinates. -/
def FirstDifferences (v : ℝ × ℝ → ℝ) (S : Set (ℝ × ℝ)) (L : ℝ) : Prop :=
  ∀ p u : ℝ × ℝ, (∀ t ∈ Set.Icc (0 : ℝ) 1, (p.1 + t * u.1, p.2 + t * u.2) ∈ S) →
    |v (p.1 + u.1, p.2 + u.2) - v p| ≤ L * (|u.1| + |u.2|)

/-- Bound of the gradient of the potential of charge `a 0` and multipoles `a n + i b n`, `n` up to `order`, at distance at
least `ρ` from the centre: `(|a 0| / ρ + Σ n |a n + i b n| / ρ^(n + 1)) / 2π`. -/
def laurentSlope (a b : ℕ → ℝ) (order : ℕ) (ρ : ℝ) : ℝ :=
  1 / (2 * Real.pi) * (|a 0| / ρ +
    ∑ n ∈ Finset.range order, (n + 1) * ‖(a (n + 1) : ℂ) + (b (n + 1) : ℂ) * Complex.I‖ / ρ ^ (n + 2))

/-- Bound of the second derivatives of the potential of charge `a 0` and multipoles `a n + i b n`, `n` up to `order`, at
distance at least `ρ` from the centre: `(|a 0| / ρ² + Σ n (n + 1) |a n + i b n| / ρ^(n + 2)) / 2π`. -/
def laurentCurvature (a b : ℕ → ℝ) (order : ℕ) (ρ : ℝ) : ℝ :=
  1 / (2 * Real.pi) * (|a 0| / ρ ^ 2 +
    ∑ n ∈ Finset.range order, (n + 1) * (n + 2) * ‖(a (n + 1) : ℂ) + (b (n + 1) : ℂ) * Complex.I‖ / ρ ^ (n + 3))

end Tulip.Spec
