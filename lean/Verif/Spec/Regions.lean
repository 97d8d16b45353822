import Verif.Spec.Triangles

/-!
# Specification vocabulary for regions with no connection

A closed shield, or any conductor that fills a cross-section, cuts the mesh into regions without common degrees of
freedom.
-/

namespace Tulip.Spec
variable {𝕜 : Type} [Field 𝕜]

/-- A part of the degrees of freedom of a discretisation: nodal, Nedelec and Raviart-Thomas ones. -/
structure Part (F : FEM 𝕜) where
  nodes : Fin F.n → Prop
  edges : Fin F.ne → Prop
  fluxes : Fin F.nd → Prop

/-- At this quadrature point only functions of the part differ from 0. -/
structure Part.Inside {F : FEM 𝕜} (P : Part F) (q : DomPt 𝕜 F.n F.ne F.nd) : Prop where
  nodes : ∀ k, ¬ P.nodes k → q.gradN k = (0, 0)
  edges : ∀ k, ¬ P.edges k → q.W k = (0, 0)
  fluxes : ∀ k, ¬ P.fluxes k → q.R k = (0, 0)

/-- At this quadrature point all functions of the part are 0. -/
structure Part.Outside {F : FEM 𝕜} (P : Part F) (q : DomPt 𝕜 F.n F.ne F.nd) : Prop where
  nodes : ∀ k, P.nodes k → q.gradN k = (0, 0)
  edges : ∀ k, P.edges k → q.W k = (0, 0)
  fluxes : ∀ k, P.fluxes k → q.R k = (0, 0)

/-- The part has no connection with the rest: no function of the part overlaps with one of the rest. -/
structure Part.Isolated {F : FEM 𝕜} (P : Part F) : Prop where
  dom : ∀ q ∈ F.dom, P.Inside q ∨ P.Outside q
  bdr : ∀ q ∈ F.bdr, (∀ k, ¬ P.nodes k → q.N k = 0) ∨ ∀ k, P.nodes k → q.N k = 0
  grad : ∀ k i, F.grad k i ≠ 0 → (P.edges k ↔ P.nodes i)

/-- Two vertices of one connected region of the mesh. -/
def SameRegion (T : Triangulation 𝕜) (v w : Fin T.nv) : Prop := Relation.ReflTransGen (Adjacent T) v w

/-- The two boundaries touch a common region. -/
def ShareRegion (T : Triangulation 𝕜) (tag tag' : Int) : Prop :=
  ∃ v w, OnTag T tag v ∧ OnTag T tag' w ∧ SameRegion T v w

/-- The triangle is in a region that the boundary touches. -/
def Sees (T : Triangulation 𝕜) (tag : Int) (t : Tri T.nv) : Prop :=
  ∃ v w, OnTag T tag v ∧ IsVertex t w ∧ SameRegion T v w

/-- A model meshed with triangles for which C79 makes all fields unique: order 1, exact linear solver, numbered
conductors, a proper mesh, sensible materials, every vertex joined with a conductor, conductors apart, open boundaries (if
any) that absorb. -/
structure TriangleCase [DecidableEq 𝕜] [LinearOrder 𝕜] (E : Engine 𝕜) (T : Triangulation 𝕜) (model : Model 𝕜) (opts : DriverOptions)
    (ps : List (PEC 𝕜)) : Prop where
  mesh : model.mesh = T.toMesh
  order : opts.solverOptions.order = 1
  disc : E.disc T.toMesh 1 = T.fem
  solver : ExactSolver E.pcg
  numbering : Numbering model.materials ps
  proper : Proper T
  sensible : Sensible T model.materials
  joined : JoinedToConductors T model.materials
  apart : ConductorsApart T model.materials
  absorb : OpenAbsorb E.analytic T model.materials

end Tulip.Spec
