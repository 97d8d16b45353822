import Verif.Spec.Galerkin
import Verif.Spec.Fields
import Mathlib.MeasureTheory.Integral.Bochner.Set
import Mathlib.MeasureTheory.Measure.Lebesgue.Basic
import Mathlib.Analysis.Calculus.FDeriv.Basic
import Mathlib.Analysis.Convex.Hull

/-!
# Specification of cross-sections, their meshes and the energies of potentials on them

Nothing here is about finite elements: potentials are functions in the plane, energies are Lebesgue integrals.
-/

namespace Tulip.Spec
open MeasureTheory

variable (T T' : Triangulation ℝ)

/-- The points of a triangle, with its sides. -/
def triangle (t : Tri T.nv) : Set (ℝ × ℝ) := convexHull ℝ {T.coord t.a, T.coord t.b, T.coord t.c}

/-- The points of the cross-section a mesh covers. -/
def covered : Set (ℝ × ℝ) := {x | ∃ t ∈ T.tris, x ∈ triangle T t}

/-- The points of the boundaries with this tag. -/
def boundaryPart (tag : Int) : Set (ℝ × ℝ) := {x | ∃ s ∈ T.segs, s.attr = tag ∧ x ∈ segment ℝ (T.coord s.a) (T.coord s.b)}

/-- A mesh in the plane: triangles do not overlap, and what two of them have in common are vertices and sides of both. -/
structure Embedded : Prop where
  apart : T.tris.Pairwise (fun t t' => Disjoint (interior (triangle T t)) (interior (triangle T t')))
  meet : ∀ t ∈ T.tris, ∀ t' ∈ T.tris, ∀ x ∈ triangle T t, x ∈ triangle T t' →
    x ∈ convexHull ℝ (T.coord '' {v | IsVertex t v ∧ IsVertex t' v})

/-- Two meshes of the same cross-section: they cover the same points, with the same materials, and have the same boundaries. -/
structure SameCrossSection : Prop where
  region : covered T = covered T'
  material : ∀ t ∈ T.tris, ∀ t' ∈ T'.tris, (interior (triangle T t) ∩ interior (triangle T' t')).Nonempty → t.attr = t'.attr
  boundary : ∀ tag, boundaryPart T tag = boundaryPart T' tag

/-- A potential with the conductors at the potentials `V`: a function on the cross-section whose slopes along straight lines in
the cross-section are bounded, with the values `V` on the conductors. -/
structure Potential (mats : Materials ℝ) (V : Int → ℝ) (v : ℝ × ℝ → ℝ) : Prop where
  slopes : ∃ L, ∀ x y, segment ℝ x y ⊆ covered T → |v x - v y| ≤ L * dist x y
  conductors : ∀ c ∈ mats.pecs, ∀ x ∈ boundaryPart T c.tag, v x = V c.tag

/-- Energy of a potential: half the integral of the permittivity times the square of the gradient. -/
noncomputable def potentialEnergy (eps : Int → ℝ) (v : ℝ × ℝ → ℝ) : ℝ :=
  (T.tris.map (fun t => eps t.attr / 2 * ∫ x in triangle T t, ((fderiv ℝ v x (1, 0)) ^ 2 + (fderiv ℝ v x (0, 1)) ^ 2))).sum

/-- No side of a triangle extends more than `size` in the direction of a coordinate, and no triangle is flatter than `flatness`
allows: the square of this extent is at most `flatness` times twice the area. -/
def Fine (flatness size : ℝ) : Prop := ∀ t ∈ T.tris, ∀ v w, IsVertex t v → IsVertex t w →
  dist (T.coord v) (T.coord w) ≤ size ∧ dist (T.coord v) (T.coord w) ^ 2 ≤ flatness * T.det t

/-- The energies of all potentials on the cross-section with the conductors at the potentials `V`. -/
def potentialEnergies (mats : Materials ℝ) (ignoreDielectrics : Bool) (V : Int → ℝ) : Set ℝ :=
  {W | ∃ v, Potential T mats V v ∧ W = potentialEnergy T (declaredEps mats ignoreDielectrics) v}

/-- A solver for the closed model with these materials on the mesh `T`, with elements of order `p`, after any history of calls
without surface charges: the mesh lies in the plane, elements and quadrature are what their order promises, materials are
sensible, every vertex is joined with a conductor, conductors do not touch. -/
structure ClosedRun (A : Analytic ℝ) (P : LinSolver ℝ) (mats : Materials ℝ) (ignoreDielectrics : Bool) (S : Shapes T) (Q : Rule ℝ) (p : Nat)
    (s : Solver (T.femWith S Q)) : Prop where
  order : 1 ≤ p
  elements : Elements S p
  complete : Complete S p
  rule : Adequate Q p
  exact : ExactRule Q (2 * p)
  proper : Proper T
  embedded : Embedded T
  sensible : Sensible T mats
  joined : JoinedToConductors T mats
  apart : ConductorsApart T mats
  reached : ∃ (model : Model ℝ) (inp : SolverInputs ℝ) (hist : List (SolverOp (T.femWith S Q))), model.materials = mats ∧
    buildSolverInputsFromModel model ignoreDielectrics = .ok inp ∧ Reaches A P inp hist s ∧
    ∀ i, imposed (T.femWith S Q) (surfaceCharges inp hist) i = 0

/-- Solving with the conductors at the potentials `V` succeeds, and the energy reported afterwards is `W`. -/
def Reports {T : Triangulation ℝ} {S : Shapes T} {Q : Rule ℝ} (P : LinSolver ℝ) (mats : Materials ℝ) (s : Solver (T.femWith S Q)) (V : Int → ℝ) (W : ℝ) : Prop :=
  ∃ s1 : Solver (T.femWith S Q), (s.setDirichletConditions (prescribe (mats.pecs.map PEC.tag) V)).solve P = .ok s1 ∧ s1.getTotalEnergy = .ok W

/-- Solving with the conductors at the potentials `V` succeeds, and the potential found (the combination of the shape functions
with the coefficients of the solution) is the function `u` on the cross-section. -/
def Finds {T : Triangulation ℝ} {S : Shapes T} {Q : Rule ℝ} (P : LinSolver ℝ) (mats : Materials ℝ) (s : Solver (T.femWith S Q)) (V : Int → ℝ)
    (u : ℝ × ℝ → ℝ) : Prop :=
  ∃ s1 : Solver (T.femWith S Q), (s.setDirichletConditions (prescribe (mats.pecs.map PEC.tag) V)).solve P = .ok s1 ∧
    ∀ t ∈ T.tris, ∀ y z : ℝ, 0 ≤ y → 0 ≤ z → y + z ≤ 1 → u ((1 - y - z) • T.coord t.a + y • T.coord t.b + z • T.coord t.c) =
      ∑ i : Fin S.n, s1.getSolution.phi i * MvPolynomial.eval ![y, z] (S.N t i)

end Tulip.Spec
