import Verif.Spec.Elements

/-!
# Specification of complete finite element spaces
-/

namespace Tulip.Spec
open MvPolynomial
variable {𝕜 : Type} [Field 𝕜] {T : Triangulation 𝕜}

/-- A continuous function that is a polynomial of degree at most `p` in each triangle. -/
structure PiecewisePolynomial (T : Triangulation 𝕜) (p : Nat) (P : Tri T.nv → MvPolynomial (Fin 2) 𝕜) : Prop where
  degree : ∀ t ∈ T.tris, (P t).totalDegree ≤ p
  continuous : ∀ t ∈ T.tris, ∀ t' ∈ T.tris, ∀ v w, IsVertex t v → IsVertex t w → IsVertex t' v → IsVertex t' w →
    ∀ x y : 𝕜, x + y = 1 →
      eval (Triangulation.onSide t v w x y) (P t) = eval (Triangulation.onSide t' v w x y) (P t')

/-- A Raviart-Thomas field: in each triangle the sum of polynomials of degree below `p` and the position times another
one; normal components are continuous across common sides. -/
structure RaviartThomas (T : Triangulation 𝕜) (p : Nat) (F : Tri T.nv → MvPolynomial (Fin 2) 𝕜 × MvPolynomial (Fin 2) 𝕜) :
    Prop where
  shape : ∀ t ∈ T.tris, ∃ a b c : MvPolynomial (Fin 2) 𝕜, a.totalDegree < p ∧ b.totalDegree < p ∧ c.totalDegree < p ∧
    F t = (a + c * linearOn t (fun v => (T.coord v).1), b + c * linearOn t (fun v => (T.coord v).2))
  normal : ∀ t ∈ T.tris, ∀ t' ∈ T.tris, ∀ v w, IsVertex t v → IsVertex t w → IsVertex t' v → IsVertex t' w →
    ∀ x y : 𝕜, x + y = 1 →
      eval (Triangulation.onSide t v w x y) (F t).1 * ((T.coord w).2 - (T.coord v).2) -
        eval (Triangulation.onSide t v w x y) (F t).2 * ((T.coord w).1 - (T.coord v).1) =
      eval (Triangulation.onSide t' v w x y) (F t').1 * ((T.coord w).2 - (T.coord v).2) -
        eval (Triangulation.onSide t' v w x y) (F t').2 * ((T.coord w).1 - (T.coord v).1)

/-- The nodal functions span all continuous piecewise polynomials of order `p`, the flux functions are Raviart-Thomas
fields and span all of them: what H1 and Raviart-Thomas spaces of this order are, whatever their basis. -/
structure Complete (S : Shapes T) (p : Nat) : Prop where
  nodal : ∀ P, PiecewisePolynomial T p P → ∃ u : Fin S.n → 𝕜, ∀ t ∈ T.tris, ∑ i, C (u i) * S.N t i = P t
  flux : ∀ k, RaviartThomas T p (fun t => S.R t k)
  fluxes : ∀ F, RaviartThomas T p F → ∃ d : Fin S.nd → 𝕜, ∀ t ∈ T.tris,
    ∑ k, C (d k) * (S.R t k).1 = (F t).1 ∧ ∑ k, C (d k) * (S.R t k).2 = (F t).2

end Tulip.Spec
