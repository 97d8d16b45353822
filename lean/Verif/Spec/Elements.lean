import Verif.Model.Elements
import Verif.Spec.Regions
import Mathlib.Algebra.MvPolynomial.Degrees

/-!
# Specification of elements of order `p` on triangles
-/

namespace Tulip.Spec
open MvPolynomial
variable {𝕜 : Type} [Field 𝕜] {T : Triangulation 𝕜}

/-- Value of the nodal function `i` of the triangle `t` on the way from its vertex `v` (`x = 1`) to `w` (`y = 1`). -/
noncomputable def sideValue (S : Shapes T) (t : Tri T.nv) (v w : Fin T.nv) (x y : 𝕜) (i : Fin S.n) : 𝕜 :=
  eval (Triangulation.onSide t v w x y) (S.N t i)

/-- The linear function in a triangle with these values at its vertices. -/
noncomputable def linearOn (t : Tri T.nv) (f : Fin T.nv → 𝕜) : MvPolynomial (Fin 2) 𝕜 :=
  C (f t.a) * (1 - X 0 - X 1) + C (f t.b) * X 0 + C (f t.c) * X 1

/-- What finite element spaces of order `p` provide. -/
structure Elements (S : Shapes T) (p : Nat) : Prop where
  /-- shape functions are polynomials of degree at most `p` -/
  degreeN : ∀ t ∈ T.tris, ∀ i, (S.N t i).totalDegree ≤ p
  degreeW : ∀ t ∈ T.tris, ∀ k, (S.W t k).1.totalDegree ≤ p ∧ (S.W t k).2.totalDegree ≤ p
  degreeR : ∀ t ∈ T.tris, ∀ k, (S.R t k).1.totalDegree ≤ p ∧ (S.R t k).2.totalDegree ≤ p
  /-- nodal functions are continuous across common sides and vertices -/
  continuous : ∀ t ∈ T.tris, ∀ t' ∈ T.tris, ∀ v w, IsVertex t v → IsVertex t w → IsVertex t' v → IsVertex t' w →
    ∀ x y : 𝕜, x + y = 1 → ∀ i, sideValue S t v w x y i = sideValue S t' v w x y i
  /-- they add up to 1 -/
  unity : ∀ t ∈ T.tris, ∑ i, S.N t i = 1
  /-- shape functions determine their coefficients -/
  basisN : ∀ u : Fin S.n → 𝕜, (∀ t ∈ T.tris, ∑ i, C (u i) * S.N t i = 0) → ∀ i, u i = 0
  basisW : ∀ u : Fin S.ne → 𝕜, (∀ t ∈ T.tris, ∑ k, C (u k) * (S.W t k).1 = 0 ∧ ∑ k, C (u k) * (S.W t k).2 = 0) → ∀ k, u k = 0
  basisR : ∀ u : Fin S.nd → 𝕜, (∀ t ∈ T.tris, ∑ k, C (u k) * (S.R t k).1 = 0 ∧ ∑ k, C (u k) * (S.R t k).2 = 0) → ∀ k, u k = 0
  /-- also those of a boundary segment on that segment; all others vanish there -/
  basisSeg : ∀ s ∈ T.segs, ∀ t ∈ T.tris, (s.a, s.b) ∈ t.sides → ∀ u : Fin S.n → 𝕜,
    (∀ x y : 𝕜, x + y = 1 → ∑ i, u i * sideValue S t s.a s.b x y i = 0) → ∀ i ∈ S.onSeg s, u i = 0
  offSeg : ∀ s ∈ T.segs, ∀ t ∈ T.tris, (s.a, s.b) ∈ t.sides → ∀ i, i ∉ S.onSeg s →
    ∀ x y : 𝕜, x + y = 1 → sideValue S t s.a s.b x y i = 0
  /-- a degree of freedom of two boundary segments lies on a common vertex -/
  meet : ∀ s ∈ T.segs, ∀ s' ∈ T.segs, ∀ i, i ∈ S.onSeg s → i ∈ S.onSeg s' →
    ∃ v, (v = s.a ∨ v = s.b) ∧ (v = s'.a ∨ v = s'.b)
  /-- shape functions overlap only with triangles that have a common vertex -/
  localN : ∀ t ∈ T.tris, ∀ t' ∈ T.tris, ∀ i, S.N t i ≠ 0 → S.N t' i ≠ 0 → ∃ v, IsVertex t v ∧ IsVertex t' v
  localW : ∀ t ∈ T.tris, ∀ t' ∈ T.tris, ∀ k, S.W t k ≠ 0 → S.W t' k ≠ 0 → ∃ v, IsVertex t v ∧ IsVertex t' v
  localR : ∀ t ∈ T.tris, ∀ t' ∈ T.tris, ∀ k, S.R t k ≠ 0 → S.R t' k ≠ 0 → ∃ v, IsVertex t v ∧ IsVertex t' v
  /-- continuous piecewise linear functions and uniform fluxes can be represented -/
  linear : ∀ f : Fin T.nv → 𝕜, ∃ u : Fin S.n → 𝕜, ∀ t ∈ T.tris, ∑ i, C (u i) * S.N t i = linearOn t f
  uniform : ∀ g : 𝕜 × 𝕜, ∃ d : Fin S.nd → 𝕜, ∀ t ∈ T.tris,
    ∑ k, C (d k) * (S.R t k).1 = C g.1 ∧ ∑ k, C (d k) * (S.R t k).2 = C g.2
  /-- the discrete gradient is the gradient -/
  gradient : ∀ t ∈ T.tris, ∀ i, (∑ k, C (S.grad k i) * (S.W t k).1, ∑ k, C (S.grad k i) * (S.W t k).2) =
    T.gradient t (S.N t i)

/-- What is required of a quadrature rule for order `p`: positive weights, points of a segment on this segment, and
polynomials of degree at most `p` are determined by their values at the points. -/
structure Adequate [LinearOrder 𝕜] (Q : Rule 𝕜) (p : Nat) : Prop where
  tri : ∀ r ∈ Q.tri, 0 < r.1
  seg : ∀ r ∈ Q.seg, 0 ≤ r.1 ∧ 0 ≤ r.2 ∧ r.2 ≤ 1
  determines : ∀ P : MvPolynomial (Fin 2) 𝕜, P.totalDegree ≤ p → (∀ r ∈ Q.tri, eval ![r.2.1, r.2.2] P = 0) → P = 0

/-- The rule integrates polynomials of degree at most `m` exactly. (The integral of `y^j z^k` over the triangle is
`2 j! k! / (j + k + 2)!` times the area, that of `y^j` over the segment `1 / (j + 1)` times the length.) -/
structure ExactRule (Q : Rule 𝕜) (m : Nat) : Prop where
  tri : ∀ j k, j + k ≤ m →
    (Q.tri.map (fun r => r.1 * (r.2.1 ^ j * r.2.2 ^ k))).sum = 2 * (j.factorial * k.factorial) / (j + k + 2).factorial
  seg : ∀ j, j ≤ m → (Q.seg.map (fun r => r.1 * r.2 ^ j)).sum = 1 / (j + 1)

/-- A model on a mesh of triangles, analysed at order `p` with such elements and such a rule: triangles have positive
area, materials are sensible, every vertex is joined with a conductor, different conductors have no vertex in common, and
open boundaries absorb. -/
structure ElementCase [DecidableEq 𝕜] [LinearOrder 𝕜] (E : Engine 𝕜) (S : Shapes T) (Q : Rule 𝕜) (p : Nat) (model : Model 𝕜)
    (opts : DriverOptions) (ps : List (PEC 𝕜)) : Prop where
  mesh : model.mesh = T.toMesh
  order : opts.solverOptions.order = p
  disc : E.disc T.toMesh p = T.femWith S Q
  elements : Elements S p
  rule : Adequate Q p
  solver : ExactSolver E.pcg
  numbering : Numbering model.materials ps
  proper : Proper T
  sensible : Sensible T model.materials
  joined : JoinedToConductors T model.materials
  apart : ConductorsApart T model.materials
  absorb : OpenAbsorb E.analytic T model.materials

end Tulip.Spec
