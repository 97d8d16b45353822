import Verif.Model.Triangles
import Mathlib.Algebra.MvPolynomial.PDeriv

/-!
# Elements of any order on triangles

What `ElectrostaticSolver` asks MFEM for on a mesh of straight triangles at `order` p (3 unless the input says
otherwise, SolverOptions.h:8): `H1_FECollection(p)`, `ND_FECollection(p)`, `RT_FECollection(p-1)` (ElectrostaticSolver.cpp:82-89,
FES.cpp:5-51). The sources of MFEM are not in the sandbox. Shape functions are left open: polynomials in the
coordinates of the reference triangle, one for each triangle and degree of freedom; what is required of them is in
`Spec/Elements.lean`, and `Proofs/Bernstein.lean` shows that it can be met at every order. Simplification: one
quadrature rule on triangles and one on segments serve all integrators (MFEM uses one for each, all of them exact for
the products of shape functions they integrate, so that the sums are the same).
-/

namespace Tulip
open MvPolynomial

/-- A quadrature rule on the reference triangle (weight as a fraction of the area, coordinates of the second and third
vertex) and one on the reference segment (weight as a fraction of the length, coordinate of the second vertex). MFEM's
`IntRules` for the integrators of ElectrostaticSolver.cpp:106-127, 298, 388-428. -/
structure Rule (𝕜 : Type _) where
  tri : List (𝕜 × 𝕜 × 𝕜)
  seg : List (𝕜 × 𝕜)

/-- Shape functions and degrees of freedom of the finite element spaces (ElectrostaticSolver.cpp:82-89, FES.cpp:5-51):
nodal, Nedelec and Raviart-Thomas functions, in each triangle as a function of the barycentric coordinates of its
second and third vertex; degrees of freedom of the boundary segments; nodes; discrete gradient (FES.cpp:58-63). -/
structure Shapes {𝕜 : Type _} [Field 𝕜] (T : Triangulation 𝕜) where
  n : Nat
  ne : Nat
  nd : Nat
  N : Tri T.nv → Fin n → MvPolynomial (Fin 2) 𝕜
  W : Tri T.nv → Fin ne → MvPolynomial (Fin 2) 𝕜 × MvPolynomial (Fin 2) 𝕜
  R : Tri T.nv → Fin nd → MvPolynomial (Fin 2) 𝕜 × MvPolynomial (Fin 2) 𝕜
  onSeg : Seg 𝕜 T.nv → List (Fin n)
  node : Fin n → 𝕜 × 𝕜
  grad : Matrix (Fin ne) (Fin n) 𝕜

namespace Triangulation
variable {𝕜 : Type _} [Field 𝕜] (T : Triangulation 𝕜)

/-- Gradient of a function on a triangle (`DiffusionIntegrator`, ElectrostaticSolver.cpp:106-107): derivatives on the
reference triangle times the gradients of the barycentric coordinates. -/
noncomputable def gradient (t : Tri T.nv) (P : MvPolynomial (Fin 2) 𝕜) : MvPolynomial (Fin 2) 𝕜 × MvPolynomial (Fin 2) 𝕜 :=
  (pderiv 0 P * C (T.gradHat t t.b).1 + pderiv 1 P * C (T.gradHat t t.c).1,
   pderiv 0 P * C (T.gradHat t t.b).2 + pderiv 1 P * C (T.gradHat t t.c).2)

/-- Reference coordinates of the point with weight `x` at the vertex `v` and `y` at `w`, on a side of `t`
(`ElementTransformation` of boundary elements, ElectrostaticSolver.cpp:111-124, 298). -/
def onSide {nv : Nat} (t : Tri nv) (v w : Fin nv) (x y : 𝕜) : Fin 2 → 𝕜 :=
  ![(if v = t.b then x else 0) + (if w = t.b then y else 0), (if v = t.c then x else 0) + (if w = t.c then y else 0)]

/-- The triangle behind a boundary segment (`Mesh::GetBdrElementAdjacentElement`), on its left. -/
def behind (s : Seg 𝕜 T.nv) : Option (Tri T.nv) := T.tris.find? (fun t => (s.a, s.b) ∈ t.sides)

/-- What the domain integrators (ElectrostaticSolver.cpp:106-107, 120-127) see at a quadrature point of a triangle. -/
noncomputable def domPoint (S : Shapes T) (t : Tri T.nv) (r : 𝕜 × 𝕜 × 𝕜) : DomPt 𝕜 S.n S.ne S.nd where
  attr := t.attr
  w := T.det t / 2 * r.1
  N := fun i => eval ![r.2.1, r.2.2] (S.N t i)
  gradN := fun i => (eval ![r.2.1, r.2.2] (T.gradient t (S.N t i)).1, eval ![r.2.1, r.2.2] (T.gradient t (S.N t i)).2)
  W := fun k => (eval ![r.2.1, r.2.2] (S.W t k).1, eval ![r.2.1, r.2.2] (S.W t k).2)
  R := fun k => (eval ![r.2.1, r.2.2] (S.R t k).1, eval ![r.2.1, r.2.2] (S.R t k).2)

/-- What boundary integrators and fluxes (ElectrostaticSolver.cpp:111-124, 295-301, 388-428, 463-475) see at a quadrature
point of a boundary segment of the triangle `t`. The normal points to the right of the segment, out of the domain. -/
noncomputable def bdrPoint (S : Shapes T) (s : Seg 𝕜 T.nv) (t : Tri T.nv) (r : 𝕜 × 𝕜) : BdrPt 𝕜 S.n S.nd where
  attr := s.attr
  w := s.len * r.1
  pos := ((1 - r.2) * (T.coord s.a).1 + r.2 * (T.coord s.b).1, (1 - r.2) * (T.coord s.a).2 + r.2 * (T.coord s.b).2)
  N := fun i => eval (onSide t s.a s.b (1 - r.2) r.2) (S.N t i)
  fl := fun k => r.1 * (eval (onSide t s.a s.b (1 - r.2) r.2) (S.R t k).1 * ((T.coord s.b).2 - (T.coord s.a).2) -
    eval (onSide t s.a s.b (1 - r.2) r.2) (S.R t k).2 * ((T.coord s.b).1 - (T.coord s.a).1))

/-- The discretisation with these shape functions and this rule (ElectrostaticSolver.cpp:82-89, 104-132). -/
noncomputable def femWith (S : Shapes T) (Q : Rule 𝕜) : FEM 𝕜 where
  n := S.n
  ne := S.ne
  nd := S.nd
  bdrAttrs := (T.segs.map Seg.attr).dedup
  domAttrs := (T.tris.map Tri.attr).dedup
  bdrElems := T.segs.map (fun s => (s.attr, S.onSeg s))
  node := S.node
  dom := T.tris.flatMap (fun t => Q.tri.map (T.domPoint S t))
  bdr := T.segs.flatMap (fun s => (T.behind s).toList.flatMap (fun t => Q.seg.map (T.bdrPoint S s t)))
  grad := S.grad

end Triangulation
end Tulip
