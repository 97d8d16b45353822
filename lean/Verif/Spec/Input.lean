import Verif.Spec.Parser
import Verif.Spec.Materials

/-!
# Specification vocabulary: what an input file says
-/

namespace Tulip.Spec
variable {𝕜 : Type _} [Field 𝕜] [LinearOrder 𝕜]

/-- An input document of the documented shape: keys are not repeated, `materials` and `analysis` are objects, tags and
order are within the range of `int`. Nothing is said about missing members or members of a wrong type. -/
structure RegularInput (doc : List (String × Json 𝕜)) : Prop where
  keys : UniqueKeys doc
  model : ∀ ms, ("model", .obj ms) ∈ doc → UniqueKeys ms
  materials : ∀ ms v, ("model", .obj ms) ∈ doc → ("materials", v) ∈ ms → ∃ es, v = .obj es ∧ UniqueKeys es ∧
    ∀ kv ∈ es, ∀ fs, kv.2 = .obj fs → UniqueKeys fs ∧ ∀ t, ("tag", t) ∈ fs → ¬ TooLarge t
  analysis : ∀ v, ("analysis", v) ∈ doc → ∃ a, v = .obj a ∧ UniqueKeys a ∧ ∀ t, ("order", t) ∈ a → ¬ TooLarge t

/-- The model an input file in `folder` with content `doc` describes: the mesh is that in the file given as `gmshFile`,
relative to the folder; the materials are the declared ones whose tag occurs in the mesh. -/
def DescribesModel (meshAt : List (List Char) → Outcome (Mesh 𝕜)) (folder : List (List Char))
    (doc : List (String × Json 𝕜)) (m : Model 𝕜) : Prop :=
  ∃ ms g es ds, ("model", .obj ms) ∈ doc ∧ ("gmshFile", .str g) ∈ ms ∧ ("materials", .obj es) ∈ ms ∧
    List.Forall₂ (fun kv d => Denotes kv.1 kv.2 d) es ds ∧
    meshAt (folder ++ components g.toList) = .ok m.mesh ∧
    m.materials.pecs = (collect ds).pecs.filter (fun x => decide (TagInMesh m.mesh x.tag)) ∧
    m.materials.openBoundaries = (collect ds).openBoundaries.filter (fun x => decide (TagInMesh m.mesh x.tag)) ∧
    m.materials.dielectrics = (collect ds).dielectrics.filter (fun x => decide (TagInMesh m.mesh x.tag)) ∧
    m.groundConductorId = 0

/-- The options an input document describes (with the key `exportParaviewSolution`, see C14). -/
def DescribesOptions (doc : List (String × Json 𝕜)) (o : DriverOptions) : Prop :=
  ∃ a, ("analysis", .obj a) ∈ doc ∧
    Honoured a "order" IntValue 3 o.solverOptions.order ∧
    Honoured a "printIterations" BoolValue false o.solverOptions.printIterations ∧
    Honoured a "exportVisItSolution" BoolValue false o.exportVisItSolution ∧
    Honoured a "exportFolder" StringValue "./" o.exportFolder ∧
    o.multipolarExpansionOrder = 5 ∧
    Honoured a "exportParaviewSolution" BoolValue true o.exportParaViewSolution

end Tulip.Spec
