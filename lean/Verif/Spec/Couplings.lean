import Verif.Spec.Passive

/-!
# Specification vocabulary: signs of the discrete equations
-/

namespace Tulip.Spec
variable {𝕜 : Type} [Field 𝕜] [LinearOrder 𝕜]

/-- No two degrees of freedom are coupled with the wrong sign: a positive potential at one of them draws no charge of the
same sign at another. (On triangles without obtuse angles in closed models this holds, see `C83_bounds_partial`.) -/
def NoPositiveCoupling (A : Analytic 𝕜) (F : FEM 𝕜) (mats : Materials 𝕜) (ignoreDielectrics : Bool) : Prop :=
  ∀ i j : Fin F.n, i ≠ j → weakForm A F (declaredEps mats ignoreDielectrics) (mats.openBoundaries.map OpenBoundary.tag)
    (fun k => if k = j then 1 else 0) i ≤ 0

/-- Basis functions are not negative at the points of the open boundaries. -/
def PositiveOnOpen (F : FEM 𝕜) (mats : Materials 𝕜) : Prop :=
  ∀ q ∈ F.bdr, (∃ o ∈ mats.openBoundaries, o.tag = q.attr) → ∀ k, 0 ≤ q.N k

end Tulip.Spec
