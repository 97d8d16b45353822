import Verif.Model.Driver
import Verif.Spec.Fields

/-!
# Specification vocabulary for the inner region
-/

namespace Tulip.Spec
variable {𝕜 : Type}

/-- A part of the inner region: a region filled with a dielectric, or a conductor. -/
inductive InnerPart (𝕜 : Type) where
  | region (d : Dielectric 𝕜)
  | conductor (p : PEC 𝕜)

/-- The parts of the inner region: `Vacuum_0`, every dielectric whose name does not contain `Vacuum_`, and, if
included, every conductor. -/
def innerParts (mats : Materials 𝕜) (includeConductors : Bool) : List (InnerPart 𝕜) :=
  (mats.dielectrics.filter (fun d => d.name = "Vacuum_0" ∨ ¬ "Vacuum_".toList <:+: d.name.toList)).map .region ++
    (if includeConductors then mats.pecs.map .conductor else [])

/-- Area of a part: of the elements of the mesh with its tag; the declared one for a conductor. -/
def InnerPart.area [Field 𝕜] (mesh : Mesh 𝕜) : InnerPart 𝕜 → 𝕜
  | .region d => ((mesh.elems.filter (fun e => e.attr = d.tag)).map Elem.vol).sum
  | .conductor p => p.area

/-- Integral of a potential over a part, over the boundary of a conductor. -/
def InnerPart.integral [Field 𝕜] (F : FEM 𝕜) (phi : Fin F.n → 𝕜) : InnerPart 𝕜 → 𝕜
  | .region d => domainIntegral F phi d.tag
  | .conductor p => boundaryIntegral F phi p.tag

/-- Mean of a potential over a part. -/
def InnerPart.mean [Field 𝕜] (F : FEM 𝕜) (phi : Fin F.n → 𝕜) (x : InnerPart 𝕜) : 𝕜 :=
  x.integral F phi / x.integral F (fun _ => 1)

/-- Area of the inner region. -/
def innerArea [Field 𝕜] (model : Model 𝕜) (includeConductors : Bool) : 𝕜 :=
  ((innerParts model.materials includeConductors).map (InnerPart.area model.mesh)).sum

/-- The mean potential of the inner region is defined: no part has measure zero in the discretisation and the total
area is not zero. -/
def HasInnerMean [Field 𝕜] (model : Model 𝕜) (F : FEM 𝕜) (includeConductors : Bool) : Prop :=
  (∀ x ∈ innerParts model.materials includeConductors, x.integral F (fun _ => 1) ≠ 0) ∧
    innerArea model includeConductors ≠ 0

/-- Mean potential of the inner region: means of the parts weighted by their areas. -/
def innerMean [Field 𝕜] (model : Model 𝕜) (F : FEM 𝕜) (phi : Fin F.n → 𝕜) (includeConductors : Bool) : 𝕜 :=
  ((innerParts model.materials includeConductors).map (fun x => x.area model.mesh * x.mean F phi)).sum /
    innerArea model includeConductors

end Tulip.Spec
