import Verif.Spec.Driver

/-!
# Specification vocabulary: energy and charge of discrete fields
-/

namespace Tulip.Spec
variable {𝕜 : Type} [Field 𝕜]

open Classical in
/-- The charge that keeps the boundary with this tag at its potential: what is left of the discrete equations at its
degrees of freedom. -/
noncomputable def reaction (A : Analytic 𝕜) (F : FEM 𝕜) (mats : Materials 𝕜) (ignoreDielectrics : Bool)
    (t : SolverSolution F) (tag : Int) : 𝕜 :=
  ∑ k, if OnBoundary F tag k then
    weakForm A F (declaredEps mats ignoreDielectrics) (mats.openBoundaries.map OpenBoundary.tag) t.phi k else 0

/-- The fluxes of D agree with the discrete equations: the charge of every conductor (minus the outward flux of D) is
its reaction. -/
def Conservative (A : Analytic 𝕜) (F : FEM 𝕜) (mats : Materials 𝕜) : Prop :=
  ∀ (b : Bool) (V : Int → 𝕜) (t : SolverSolution F), PrescribedField A F mats b V t →
    ∀ p ∈ mats.pecs, chargeOn t p.tag = reaction A F mats b t p.tag

/-- Twice the energy of a field: the integral of permittivity times |grad phi|^2, and what the open boundaries absorb. -/
def doubleEnergy (A : Analytic 𝕜) (F : FEM 𝕜) (mats : Materials 𝕜) (ignoreDielectrics : Bool) (t : SolverSolution F) : 𝕜 :=
  (F.dom.map (fun q => q.w * declaredEps mats ignoreDielectrics q.attr *
    inner2 (vectorAt q.gradN t.phi) (vectorAt q.gradN t.phi))).sum +
  ((F.bdr.filter (fun q => q.attr ∈ mats.openBoundaries.map OpenBoundary.tag)).map
    (fun q => q.w * A.abc q.pos * (scalarAt q.N t.phi * scalarAt q.N t.phi))).sum

/-- The mesh is in one piece (a potential without gradient is constant) and every conductor has a degree of freedom. -/
structure OnePiece (F : FEM 𝕜) (mats : Materials 𝕜) : Prop where
  constant : ∀ u : Fin F.n → 𝕜, (∀ q ∈ F.dom, vectorAt q.gradN u = (0, 0)) → ∀ k l, u k = u l
  nodes : ∀ p ∈ mats.pecs, ∃ k, OnBoundary F p.tag k

/-- Some point of an open boundary absorbs: a constant potential is seen there and the coefficient is positive. -/
def Absorbing [LinearOrder 𝕜] (A : Analytic 𝕜) (F : FEM 𝕜) (mats : Materials 𝕜) : Prop :=
  ∃ q ∈ F.bdr, (∃ o ∈ mats.openBoundaries, o.tag = q.attr) ∧ 0 < q.w * A.abc q.pos ∧ scalarAt q.N (fun _ => 1) ≠ 0

end Tulip.Spec
