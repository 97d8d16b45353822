import Verif.Model.Json
import Verif.Model.Mesh

/-!
# Parser (src/Parser.cpp, src/SolverOptions.h)
-/

namespace Tulip

/-- `struct SolverOptions` (SolverOptions.h:7-10). -/
structure SolverOptions where
  order : Int := 3
  printIterations : Bool := false
  deriving DecidableEq, Repr

/-- `struct DriverOptions` (SolverOptions.h:12-23). -/
structure DriverOptions where
  solverOptions : SolverOptions := {}
  multipolarExpansionOrder : Int := 5
  exportParaViewSolution : Bool := true
  exportVisItSolution : Bool := false
  exportFolder : String := "./"
  deriving DecidableEq, Repr

/-- `enum class MaterialType` (Parser.cpp:11-16). -/
inductive MaterialType where
  | PEC | Dielectric | OpenBoundary | Vacuum
  deriving DecidableEq, Repr

/-- `LABEL_TO_MATERIAL_TYPE.at(label)` (Parser.cpp:18-23, 47). -/
def materialTypeOfLabel (label : String) : Outcome MaterialType :=
  if label = "PEC" then .ok .PEC
  else if label = "Dielectric" then .ok .Dielectric
  else if label = "OpenBoundary" then .ok .OpenBoundary
  else if label = "Vacuum" then .ok .Vacuum
  else .throw .outOfRange

section
variable {𝕜 : Type _} [Field 𝕜] [LinearOrder 𝕜] [FloorRing 𝕜]

/-- Body of the loop of `readMaterials` for one entry (Parser.cpp:44-73). -/
def readMaterial (res : Materials 𝕜) (name : String) (mat : Json 𝕜) : Outcome (Materials 𝕜) := do
  let tj ← mat.at_ "type"
  let label ← tj.getString
  let type ← materialTypeOfLabel label
  let aj ← mat.at_ "tag"
  let tag ← aj.getInt
  match type with
  | .PEC => do
    let a ← mat.valueDouble "area" 0
    .ok { res with pecs := res.pecs ++ [{ name := name, tag := tag, area := a * (10 ^ 6)⁻¹ }] }
  | .OpenBoundary =>
    .ok { res with openBoundaries := res.openBoundaries ++ [{ name := name, tag := tag }] }
  | .Vacuum =>
    .ok { res with dielectrics := res.dielectrics ++
            [{ name := name, tag := tag, relativePermittivity := 1 }] }
  | .Dielectric => do
    let ej ← mat.at_ "eps_r"
    let eps ← ej.getDouble
    .ok { res with dielectrics := res.dielectrics ++
            [{ name := name, tag := tag, relativePermittivity := eps }] }

/-- The loop of `readMaterials` (Parser.cpp:43-74). -/
def readMaterialsLoop : List (String × Json 𝕜) → Materials 𝕜 → Outcome (Materials 𝕜)
  | [], res => .ok res
  | (name, mat) :: t, res => do
    let res ← readMaterial res name mat
    readMaterialsLoop t res

/-- `readMaterials` (Parser.cpp:40-76). -/
def readMaterials (j : Json 𝕜) : Outcome (Materials 𝕜) := readMaterialsLoop j.items {}

/-- `setIfExists<int>` (Parser.cpp:96-103). -/
def setIfExistsInt (j : Json 𝕜) (entry : Int) (label : String) : Outcome Int :=
  match j.find label with
  | some v => v.getInt
  | none => .ok entry

/-- `setIfExists<bool>` (Parser.cpp:96-103). -/
def setIfExistsBool (j : Json 𝕜) (entry : Bool) (label : String) : Outcome Bool :=
  match j.find label with
  | some v => v.getBool
  | none => .ok entry

/-- `setIfExists<std::string>` (Parser.cpp:96-103). -/
def setIfExistsString (j : Json 𝕜) (entry : String) (label : String) : Outcome String :=
  match j.find label with
  | some v => v.getString
  | none => .ok entry

/-- `Parser::readDriverOptions` (Parser.cpp:105-118); the argument is the whole document. Note the
spelling of the key at line 113. -/
def readDriverOptions (doc : Json 𝕜) : Outcome DriverOptions := do
  let j ← doc.at_ "analysis"
  let res : DriverOptions := {}
  let order ← setIfExistsInt j res.solverOptions.order "order"
  let printIterations ← setIfExistsBool j res.solverOptions.printIterations "printIterations"
  let pv ← setIfExistsBool j res.exportParaViewSolution "exportParaviewSolution"
  let vi ← setIfExistsBool j res.exportVisItSolution "exportVisItSolution"
  let folder ← setIfExistsString j res.exportFolder "exportFolder"
  .ok { res with
    solverOptions := { order := order, printIterations := printIterations }
    exportParaViewSolution := pv, exportVisItSolution := vi, exportFolder := folder }

end

/-- `std::filesystem::path::parent_path` on POSIX: the path up to the last separator, without trailing
separators, but keeping a root directory. (Several leading slashes are collapsed to one.) -/
def parentPath (s : List Char) : List Char :=
  let dir := ((s.reverse.dropWhile (fun c => c ≠ '/')).dropWhile (fun c => c = '/')).reverse
  if dir = [] ∧ s.head? = some '/' then ['/'] else dir

/-- `"./" + path{filename}.parent_path().string() + "/"` (Parser.cpp:82-83, pulmtln.cpp:39-41). -/
def directoryOf (filename : List Char) : List Char := "./".toList ++ parentPath filename ++ ['/']

/-- Mesh file name built by `Parser::readModel` (Parser.cpp:82-87). -/
def meshFilename (filename gmshFile : List Char) : List Char := directoryOf filename ++ gmshFile

/-- `readJSON` and the constructor `Parser(filename)` (Parser.cpp:25-38). `fs` is the file system:
`none` if the file cannot be opened, `some none` if its text is not JSON. A file that cannot be opened
does *not* throw at line 29 (the exception object is discarded): `json::parse` of the failed stream
throws. -/
def readJSON {𝕜 : Type _} (fs : List Char → Option (Option (Json 𝕜))) (filename : List Char) :
    Outcome (Json 𝕜) :=
  match fs filename with
  | none => .throw .json
  | some none => .throw .json
  | some (some j) => .ok j

/-- `Parser::readModel` (Parser.cpp:78-93); `load` is `mfem::Mesh::LoadFromFile`. -/
def readModel {𝕜 : Type _} [Field 𝕜] [LinearOrder 𝕜] [FloorRing 𝕜]
    (load : List Char → Outcome (Mesh 𝕜)) (filename : List Char) (doc : Json 𝕜) :
    Outcome (Model 𝕜) := do
  let j ← doc.at_ "model"
  let gj ← j.at_ "gmshFile"
  let g ← gj.getString
  let mesh ← load (meshFilename filename g.toList)
  let mj ← j.at_ "materials"
  let mats ← readMaterials mj
  .ok (Model.make mesh mats)

end Tulip
