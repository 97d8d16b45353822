import Verif.Spec.InnerRegion
import Verif.Spec.Passive

/-!
# Specification vocabulary: open problems with an inner region
-/

namespace Tulip.Spec
variable {𝕜 : Type} [Field 𝕜]

/-- Gauss' law: as there are no charges inside, no flux of D leaves the whole boundary, whatever the potentials. -/
def Balanced (A : Analytic 𝕜) (F : FEM 𝕜) (mats : Materials 𝕜) : Prop :=
  ∀ (b : Bool) (V : Int → 𝕜) (t : SolverSolution F), PrescribedField A F mats b V t →
    (F.bdr.map (fun q => scalarAt q.fl t.d)).sum = 0

/-- An open problem as the in-cell computation expects it: the boundary consists of the conductors and one open boundary,
the region `Vacuum_0` is meshed, and the inner region has a mean (no part has measure zero). -/
structure InCellSetting (model : Model 𝕜) (F : FEM 𝕜) : Prop where
  outer : ∃ o, model.materials.openBoundaries = [o] ∧ (∀ p ∈ model.materials.pecs, p.tag ≠ o.tag) ∧
    ∀ q ∈ F.bdr, (∃ p ∈ model.materials.pecs, p.tag = q.attr) ∨ q.attr = o.tag
  vacuum : ∃ d ∈ model.materials.dielectrics, d.name = "Vacuum_0" ∧
    ∃ e ∈ model.mesh.elems, e.attr = d.tag ∧ e.verts ≠ []
  mean : HasInnerMean model F true

/-- What the in-cell results hold for conductor `i`: potentials with 1 V on conductor `i` that leave no charge on the
others, and of the field they give the mean over the inner region, the centre of the charges, and the charge and the
multipole moments about this centre, up to the given order. Charges are those on the conductors, one at each point of
the quadrature. -/
def InCellEntry (A : Analytic 𝕜) (F : FEM 𝕜) (model : Model 𝕜) (ignoreDielectrics : Bool) (order : Nat)
    (ps : List (PEC 𝕜)) (i : Fin ps.length) (r : FieldReconstruction 𝕜) : Prop :=
  ∃ (V : Int → 𝕜) (t : SolverSolution F), PrescribedField A F model.materials ignoreDielectrics V t ∧
    V ps[i].tag = 1 ∧ (∀ j : Fin ps.length, j ≠ i → chargeOn t ps[j].tag = 0) ∧
    r.conductorPotentials = (List.finRange ps.length).map (fun j => ((j.1 : Int), V ps[j].tag)) ∧
    r.innerRegionAveragePotential = innerMean model F t.phi true ∧
    chargeOn t ps[i].tag ≠ 0 ∧
    r.expansionCenter.1 * chargeOn t ps[i].tag =
      ((pointCharges F t.d (ps.map PEC.tag)).map (fun q => q.1 * q.2.1)).sum ∧
    r.expansionCenter.2 * chargeOn t ps[i].tag =
      ((pointCharges F t.d (ps.map PEC.tag)).map (fun q => q.1 * q.2.2)).sum ∧
    r.ab = (chargeOn t ps[i].tag, 0) :: (List.range order).map (fun n =>
      (((pointCharges F t.d (ps.map PEC.tag)).map (fun q => q.1 * A.moment q.2 (n + 1) 0 r.expansionCenter)).sum,
       ((pointCharges F t.d (ps.map PEC.tag)).map (fun q => q.1 * A.moment q.2 (n + 1) 1 r.expansionCenter)).sum))

end Tulip.Spec
