import Verif.Model.Materials
import Verif.Model.Graph
import Mathlib.Algebra.Field.Defs
import Mathlib.Order.WithBot
import Mathlib.Algebra.BigOperators.Group.List.Basic

/-!
# Mesh and `Model` (src/Model.h, src/Model.cpp)

An `mfem::Mesh` is seen through the accessors the code uses: the lists of domain and boundary elements
(attribute, vertex indices, volume) and the vertex coordinates.
-/

namespace Tulip

/-- An `mfem::Element` with its `GetElementVolume` (the quadrature that computes the volume is not
modelled: it is an input). -/
structure Elem (𝕜 : Type _) where
  attr : Int
  verts : List Int
  vol : 𝕜
  deriving DecidableEq, Repr

/-- An `mfem::Mesh`: `GetElement(0..NE-1)`, `GetBdrElement(0..NBE-1)`, `GetVertex(v)`. -/
structure Mesh (𝕜 : Type _) where
  elems : List (Elem 𝕜)
  bdr : List (Elem 𝕜)
  coord : Int → 𝕜 × 𝕜

/-- `Box` (Model.h:8-27) with `double` sides that may be infinite. -/
structure EBox (𝕜 : Type _) where
  minX : WithBot (WithTop 𝕜)
  minY : WithBot (WithTop 𝕜)
  maxX : WithBot (WithTop 𝕜)
  maxY : WithBot (WithTop 𝕜)

/-- `class Model` (Model.h:29-61). -/
structure Model (𝕜 : Type _) where
  materials : Materials 𝕜
  mesh : Mesh 𝕜
  groundConductorId : Int := 0

/-- `enum class Openness` (Model.h:31-35). -/
inductive Openness where
  | open_ | semiopen | closed
  deriving DecidableEq, Repr

/-- `getElementsWithAttribute` (Model.cpp:12-22): *boundary* elements with the attribute. -/
def getElementsWithAttribute {𝕜 : Type _} (mesh : Mesh 𝕜) (attr : Int) : List (Elem 𝕜) :=
  mesh.bdr.filter (fun e => e.attr = attr)

/-- First loop of `determineClosedLoops` (Model.cpp:26-34): the graph and `vToE`. The exception of
`addEdge` on a degenerate segment propagates. A segment has two vertices (`assert` at line 29; fewer
vertices would be an out-of-range read). -/
def closedLoopsBuild {𝕜 : Type _} : List (Elem 𝕜) → DGraph → SMap Int (Elem 𝕜) →
    Outcome (DGraph × SMap Int (Elem 𝕜))
  | [], g, m => .ok (g, m)
  | e :: es, g, m =>
    match e.verts with
    | v0 :: v1 :: _ =>
      match g.addEdge v0 v1 with
      | (_, some err) => .throw err
      | (g', none) => closedLoopsBuild es g' (m.set v0 e)
    | _ => .ub

/-- Second loop (Model.cpp:36-43): one multimap entry per vertex of each cycle. -/
def closedLoopsCollect {𝕜 : Type _} (vToE : SMap Int (Elem 𝕜)) :
    List Int → Outcome (List (Elem 𝕜))
  | [] => .ok []
  | v :: vs => do
    let e ← .ofOption .outOfRange (vToE.find? v)
    let rest ← closedLoopsCollect vToE vs
    .ok (e :: rest)

/-- `determineClosedLoops` (Model.cpp:24-46): the entries of the multimap in order (the cycle number is
dropped; only `size()` is used). Non-termination of `findCycles` (excluded by property C07) is `ub`. -/
def determineClosedLoops {𝕜 : Type _} (elems : List (Elem 𝕜)) : Outcome (List (Elem 𝕜)) := do
  let (g, m) ← closedLoopsBuild elems DGraph.empty []
  match g.findCycles with
  | none => .ub
  | some cycles => closedLoopsCollect m cycles.flatten

/-- `elementsFormOpenLoops` (Model.cpp:85-88). -/
def elementsFormOpenLoops {𝕜 : Type _} (elems : List (Elem 𝕜)) : Outcome Bool := do
  let ls ← determineClosedLoops elems
  .ok (decide (ls.length ≠ elems.length))

/-- One of the two loops of `filterOutMaterialsNotPresentInMesh` (Model.cpp:54-61, 62-69). -/
def presentLoop {𝕜 : Type _} (elems : List (Elem 𝕜)) (allMats : NameToAttrMap)
    (res : NameToAttrMap) : NameToAttrMap :=
  allMats.foldl (fun r kv =>
    if elems.any (fun e => e.attr = kv.2) then r.emplace kv.1 kv.2 else r) res

/-- `filterOutMaterialsNotPresentInMesh` (Model.cpp:48-74). -/
def filterOutMaterialsNotPresentInMesh {𝕜 : Type _} (materials : Materials 𝕜) (mesh : Mesh 𝕜) :
    Materials 𝕜 :=
  let allMats := materials.buildNameToAttrMap
  let matInMesh := presentLoop mesh.elems allMats (presentLoop mesh.bdr allMats [])
  materials.removeMaterialsNotInList matInMesh

namespace Model
variable {𝕜 : Type _}

/-- Constructor `Model(Mesh&&, const Materials&)` (Model.cpp:76-83). -/
def make (mesh : Mesh 𝕜) (materials : Materials 𝕜) : Model 𝕜 :=
  { mesh := mesh, materials := filterOutMaterialsNotPresentInMesh materials mesh }

/-- `Model::numberOfConductors` (Model.cpp:90-93). -/
def numberOfConductors (m : Model 𝕜) : Nat := m.materials.buildNameToAttrMapForPEC.length

/-- Loop of `determineOpenness` (Model.cpp:103-107). -/
def opennessLoop (mesh : Mesh 𝕜) : List OpenBoundary → Outcome Openness
  | [] => .ok .semiopen
  | o :: os => do
    let b ← elementsFormOpenLoops (getElementsWithAttribute mesh o.tag)
    if !b then .ok .open_ else opennessLoop mesh os

/-- `Model::determineOpenness` (Model.cpp:95-109); the `assert` is a no-op in release builds. -/
def determineOpenness (m : Model 𝕜) : Outcome Openness :=
  if m.materials.openBoundaries.length = 0 then .ok .closed
  else opennessLoop m.mesh m.materials.openBoundaries

/-- `Model::getAreaOfMaterial` (Model.cpp:111-133). -/
def getAreaOfMaterial [Field 𝕜] (m : Model 𝕜) (name : String) : Outcome 𝕜 :=
  let mats := m.materials.buildNameToAttrMap
  match mats.find? name with
  | none => .throw (.runtimeError "Unable to determine inner region.")
  | some tag =>
    if m.materials.isDomainMaterial name then
      .ok (m.mesh.elems.foldl (fun area e => if tag = e.attr then area + e.vol else area) 0)
    else do
      let p ← m.materials.getPEC name
      .ok p.area

/-- Inner loops of `getBoundingBoxOfMaterial` (Model.cpp:149-156) for one vertex. -/
def boxStep [LinearOrder 𝕜] (b : EBox 𝕜) (p : 𝕜 × 𝕜) : EBox 𝕜 where
  minX := min b.minX (p.1 : WithTop 𝕜)
  maxX := max b.maxX (p.1 : WithTop 𝕜)
  minY := min b.minY (p.2 : WithTop 𝕜)
  maxY := max b.maxY (p.2 : WithTop 𝕜)

/-- `Model::getBoundingBoxOfMaterial` (Model.cpp:135-160). -/
def getBoundingBoxOfMaterial [LinearOrder 𝕜] (m : Model 𝕜) (name : String) : Outcome (EBox 𝕜) :=
  match m.materials.buildNameToAttrMap.find? name with
  | none => .throw .outOfRange
  | some tag =>
    .ok (m.mesh.elems.foldl (fun b e =>
      if e.attr ≠ tag then b else e.verts.foldl (fun b v => boxStep b (m.mesh.coord v)) b)
      { minX := ((⊤ : WithTop 𝕜) : WithBot (WithTop 𝕜)), minY := ((⊤ : WithTop 𝕜) : WithBot (WithTop 𝕜)),
        maxX := ⊥, maxY := ⊥ })

end Model
end Tulip
