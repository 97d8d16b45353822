import Mathlib.Algebra.Order.Field.Basic
import Mathlib.Algebra.Order.Group.Abs
import Mathlib.Tactic.Linarith

/-!
# Rounding

What the properties need to know about the arithmetic of the computer: a number is representable if rounding does not
change it.
-/

namespace Tulip.Spec
variable {𝕜 : Type _} [Field 𝕜] [LinearOrder 𝕜]

/-- `rnd` rounds to numbers with a fixed number of binary digits, with relative error at most `u` (`2⁻⁵³` for a `double`
rounded to nearest): it is monotone, leaves representable numbers alone and commutes with doubling. -/
structure Rounding (rnd : 𝕜 → 𝕜) (u : 𝕜) : Prop where
  mono : ∀ x y, x ≤ y → rnd x ≤ rnd y
  idem : ∀ x, rnd (rnd x) = rnd x
  two : ∀ x, rnd (2 * x) = 2 * rnd x
  err : ∀ x, |rnd x - x| ≤ u * |x|
  pos : 0 ≤ u
  small : 1000 * u ≤ 1

/-- Planes of an integration grid in one direction, as computed, for sides of size at most `M`: strictly increasing
from side to side, through the inner sides, representable, and between consecutive distinct sides `a` and `b` the same
as the points `a + k (b - a) / n` up to `8 u M`. -/
def RoundedPlanes (rnd : 𝕜 → 𝕜) (u M : 𝕜) (n : Nat) (boxMin boxMax innerMin innerMax : 𝕜) (l : List 𝕜) : Prop :=
  l.Pairwise (· < ·) ∧ l.head? = some boxMin ∧ l.getLast? = some boxMax ∧ innerMin ∈ l ∧ innerMax ∈ l ∧
  (∀ x ∈ l, rnd x = x) ∧
  ∀ a ∈ [boxMin, boxMax, innerMin, innerMax], ∀ b ∈ [boxMin, boxMax, innerMin, innerMax], a < b →
    (∀ c ∈ [boxMin, boxMax, innerMin, innerMax], c ≤ a ∨ b ≤ c) →
    (∀ x ∈ l, a ≤ x → x ≤ b → ∃ k : Nat, k ≤ n ∧ |x - (a + k * ((b - a) / n))| ≤ 8 * (u * M)) ∧
    (∀ k : Nat, k ≤ n → ∃ x ∈ l, a ≤ x ∧ x ≤ b ∧ |x - (a + k * ((b - a) / n))| ≤ 8 * (u * M))

end Tulip.Spec
