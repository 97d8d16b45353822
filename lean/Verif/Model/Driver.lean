import Verif.Model.Results
import Verif.Model.Solver
import Verif.Model.Domain
import Mathlib.Data.List.Sort

/-!
# `Driver` (src/Driver.h, src/Driver.cpp) and the program (src/pulmtln.cpp)

What reaches the disk is a list of events, kept when an exception is thrown. Progress messages on the
standard output are not modelled. MFEM is represented by an `Engine`.
-/

namespace Tulip


/-- What the driver takes from outside: MFEM's discretisation of a mesh for a given order, its linear
solver, the analytic functions of the solver, the constants `EPSILON0_SI` and `MU0_SI`, and the content of
the uninitialised storage of the fields of the two solvers. -/
structure Engine (𝕜 : Type) where
  disc : Mesh 𝕜 → Int → FEM 𝕜
  pcg : LinSolver 𝕜
  analytic : Analytic 𝕜
  eps0SI : 𝕜
  mu0SI : 𝕜
  raw : Bool → (F : FEM 𝕜) → SolverSolution F

/-- Visualisation file formats. -/
inductive Viewer where
  | paraView | visIt
  deriving DecidableEq, Repr

/-- Something written: a collection with the fields Phi, E and D (ElectrostaticSolver.cpp:534-555), a JSON
file, or the usage message. -/
inductive Event (𝕜 : Type) where
  | field (viewer : Viewer) (path : String) (F : FEM 𝕜) (sol : SolverSolution F)
  | json (path : String) (content : Json 𝕜)
  | usage

/-- A computation that writes; what was written before an exception stays written. -/
def Logged (𝕜 : Type) (α : Type) := Outcome α × List (Event 𝕜)

namespace Logged
variable {𝕜 : Type} {α β : Type}

/-- Sequencing. -/
def bind (x : Logged 𝕜 α) (f : α → Logged 𝕜 β) : Logged 𝕜 β :=
  match x.1 with
  | .ok a => ((f a).1, x.2 ++ (f a).2)
  | .throw e => (.throw e, x.2)
  | .ub => (.ub, x.2)
  | .nonfinite => (.nonfinite, x.2)

instance : Monad (Logged 𝕜) where
  pure a := (.ok a, [])
  bind := bind

/-- A computation that writes nothing. -/
def lift (x : Outcome α) : Logged 𝕜 α := (x, [])

/-- Write. -/
def emit (evs : List (Event 𝕜)) : Logged 𝕜 Unit := (.ok ⟨⟩, evs)

end Logged

/-! ## Helpers -/

/-- `INNER_REGION_DEFAULT_NAME` (Driver.cpp:11) -/
def INNER_REGION_DEFAULT_NAME : String := "Vacuum_0"

/-- `buildAttrToValueMap` (Driver.cpp:13-21). -/
def buildAttrToValueMap {𝕜 : Type} (m : NameToAttrMap) (value : 𝕜) : AttrToValueMap 𝕜 :=
  m.foldl (fun bcs kv => SMap.set bcs kv.2 value) []

/-- `getAttributesInMap` (Driver.cpp:23-30). -/
def getAttributesInMap (m : NameToAttrMap) : List Int := m.map Prod.snd

/-- `exportFieldSolutions` (Driver.cpp:32-55). -/
def exportFieldSolutions {𝕜 : Type} {F : FEM 𝕜} (opts : DriverOptions) (sol : SolverSolution F)
    (name : String) (ignoreDielectrics : Bool) : List (Event 𝕜) :=
  (if opts.exportParaViewSolution then
    let outputName := opts.exportFolder ++ "/" ++ "ParaView/" ++ name
    let outputName := if ignoreDielectrics then outputName ++ "_no_dielectrics" else outputName
    [Event.field .paraView outputName F sol]
  else []) ++
  (if opts.exportVisItSolution then
    let outputName := opts.exportFolder ++ "/" ++ "VisIt/" ++ name
    let outputName := if ignoreDielectrics then outputName ++ "_no_dielectrics" else outputName
    [Event.field .visIt outputName F sol]
  else [])

/-- `v[i]` on a `std::vector` with an `int` index. -/
def vecGet {α : Type} (v : List α) (i : Int) : Outcome α :=
  if 0 ≤ i then
    match v[i.toNat]? with
    | some x => .ok x
    | none => .ub
  else .ub

/-- `v[i] = x` on a `std::vector` with an `int` index. -/
def vecSet {α : Type} (v : List α) (i : Int) (x : α) : Outcome (List α) :=
  if 0 ≤ i ∧ i.toNat < v.length then .ok (v.set i.toNat x) else .ub

/-- `C(i, j)` with `int` indices. -/
def DMat.getI {𝕜 : Type} (M : DMat 𝕜) (i j : Int) : Outcome 𝕜 :=
  if 0 ≤ i ∧ 0 ≤ j then M.get i.toNat j.toNat else .ub

/-- `C(i, j) = v` with `int` indices. -/
def DMat.setI {𝕜 : Type} (M : DMat 𝕜) (i j : Int) (v : 𝕜) : Outcome (DMat 𝕜) :=
  if 0 ≤ i ∧ 0 ≤ j then M.set i.toNat j.toNat v else .ub

/-! ## Solver inputs -/

section
variable {𝕜 : Type} [Field 𝕜]

/-- Loop of Driver.cpp:186-190. -/
def epsrLoop : List (Dielectric 𝕜) → AttrToValueMap 𝕜 → Outcome (AttrToValueMap 𝕜)
  | [], m => .ok m
  | d :: ds, m =>
    if SMap.contains m d.tag then epsrLoop ds (SMap.set m d.tag d.relativePermittivity)
    else .throw .outOfRange

/-- `Driver::buildSolverInputsFromModel` (Driver.cpp:175-196). -/
def buildSolverInputsFromModel (model : Model 𝕜) (ignoreDielectrics : Bool) : Outcome (SolverInputs 𝕜) := do
  let mats := model.materials
  let domainToEpsr := buildAttrToValueMap mats.buildNameToAttrMapForDielectric (1 : 𝕜)
  let domainToEpsr ← if !ignoreDielectrics then epsrLoop mats.dielectrics domainToEpsr else .ok domainToEpsr
  .ok {
    domainPermittivities := domainToEpsr
    openBoundaries := getAttributesInMap mats.buildNameToAttrMapForOpenBoundary
    dirichletBoundaries := buildAttrToValueMap mats.buildNameToAttrMapForPEC (0 : 𝕜) }

/-! ## Solved problems and constructor -/

/-- `struct SolvedProblem` (Driver.h:12-15); a default-constructed `SolverSolution` holds null pointers. -/
structure SolvedProblem (F : FEM 𝕜) where
  solver : Solver F
  solutions : List (Option (SolverSolution F))

/-- `class Driver` (Driver.h:17-56). -/
structure Driver (F : FEM 𝕜) where
  model : Model 𝕜
  opts : DriverOptions
  electric : SolvedProblem F
  magnetic : SolvedProblem F

/-- Loop of `solveForAllConductors` (Driver.cpp:157-170). -/
def solveLoop {F : FEM 𝕜} (pcg : LinSolver 𝕜) (mats : Materials 𝕜) (opts : DriverOptions)
    (ignoreDielectrics : Bool) (base : AttrToValueMap 𝕜) :
    List (Int × Int) → SolvedProblem F → Logged 𝕜 (SolvedProblem F)
  | [], sp => pure sp
  | (condI, bdrAttI) :: rest, sp => do
    let dbcs := SMap.set base bdrAttI 1
    let s ← Logged.lift ((sp.solver.setDirichletConditions dbcs).solve pcg)
    let pec ← Logged.lift (mats.getPECById condI)
    Logged.emit (exportFieldSolutions opts s.sol pec.name ignoreDielectrics)
    let sols ← Logged.lift (vecSet sp.solutions condI (some s.getSolution))
    solveLoop pcg mats opts ignoreDielectrics base rest { solver := s, solutions := sols }

/-- `Driver::solveForAllConductors` (Driver.cpp:147-173). -/
def solveForAllConductors (E : Engine 𝕜) (F : FEM 𝕜) (model : Model 𝕜) (opts : DriverOptions)
    (ignoreDielectrics : Bool) : Logged 𝕜 (SolvedProblem F) := do
  let base ← Logged.lift (buildSolverInputsFromModel model ignoreDielectrics)
  let s ← Logged.lift (Solver.make E.analytic F base (E.raw ignoreDielectrics F))
  let conductors ← Logged.lift model.materials.buildIdToAttrMapForPEC
  solveLoop E.pcg model.materials opts ignoreDielectrics base.dirichletBoundaries conductors
    { solver := s, solutions := List.replicate conductors.length none }

/-- Loop of Driver.cpp:74-76. -/
def conductorIdsLoop : List (String × Int) → Outcome (List Int)
  | [] => .ok []
  | (name, _) :: t => do
    let i ← getMaterialIdFromName name
    let r ← conductorIdsLoop t
    .ok (i :: r)

/-- Loop of Driver.cpp:89-94. -/
def consecutiveFrom : Int → List Int → Bool
  | _, [] => true
  | a, b :: t => if b ≠ a + 1 then false else consecutiveFrom b t

/-- Preconditions of the constructor (Driver.cpp:71-94). -/
def checkConductors (mats : Materials 𝕜) : Outcome Unit := do
  let ids ← conductorIdsLoop mats.buildNameToAttrMapForPEC
  match ids.insertionSort (· ≤ ·) with
  | [] => .throw (.runtimeError "Model must have at least one conductor.")
  | a :: t =>
    if a ≠ 0 then .throw (.runtimeError "Conductor with id 0 must be present in the model. ")
    else if consecutiveFrom a t then .ok ⟨⟩
    else .throw (.runtimeError "Conductor ids must be consecutive.")

/-- The discretisation both solvers of a driver use. -/
def Engine.fem (E : Engine 𝕜) (model : Model 𝕜) (opts : DriverOptions) : FEM 𝕜 :=
  E.disc model.mesh opts.solverOptions.order

/-- Constructor `Driver(Model&&, const DriverOptions&)` (Driver.cpp:67-102). -/
def Driver.construct (E : Engine 𝕜) (model : Model 𝕜) (opts : DriverOptions) :
    Logged 𝕜 (Driver (E.fem model opts)) := do
  let _ ← Logged.lift (checkConductors model.materials)
  let electric ← solveForAllConductors E (E.fem model opts) model opts false
  let magnetic ← solveForAllConductors E (E.fem model opts) model opts true
  pure { model := model, opts := opts, electric := electric, magnetic := magnetic }

/-! ## Calls on a driver -/

/-- A call on a driver: it may change it, write, and fail; changes made before a failure stay. -/
def Act (F : FEM 𝕜) (α : Type) := Driver F → Outcome α × Driver F × List (Event 𝕜)

namespace Act
variable {F : FEM 𝕜} {α β : Type}

/-- Sequencing. -/
def bind (x : Act F α) (f : α → Act F β) : Act F β := fun d =>
  match x d with
  | (.ok a, d', w) => ((f a d').1, (f a d').2.1, w ++ (f a d').2.2)
  | (.throw e, d', w) => (.throw e, d', w)
  | (.ub, d', w) => (.ub, d', w)
  | (.nonfinite, d', w) => (.nonfinite, d', w)

instance : Monad (Act F) where
  pure a := fun d => (.ok a, d, [])
  bind := bind

/-- A computation that does not touch the driver. -/
def lift (x : Outcome α) : Act F α := fun d => (x, d, [])

/-- Read the driver. -/
def read (f : Driver F → α) : Act F α := fun d => (.ok (f d), d, [])

/-- Write. -/
def emit (evs : List (Event 𝕜)) : Act F Unit := fun d => (.ok ⟨⟩, d, evs)

/-- Write what another computation writes. -/
def ofLogged (x : Logged 𝕜 α) : Act F α := fun d => (x.1, d, x.2)

end Act

namespace Driver
variable {F : FEM 𝕜}

/-- `sP` (Driver.cpp:216-222, 454-460). -/
def problem (ignoreDielectrics : Bool) (d : Driver F) : SolvedProblem F :=
  if ignoreDielectrics then d.magnetic else d.electric

/-- Change of the solver `sP->solver`. -/
def updateSolver (ignoreDielectrics : Bool) (g : Solver F → Solver F) : Act F Unit := fun d =>
  (.ok ⟨⟩, (if ignoreDielectrics then { d with magnetic := { d.magnetic with solver := g d.magnetic.solver } }
    else { d with electric := { d.electric with solver := g d.electric.solver } }), [])

/-- `sP->solutions[i]`; dereferencing null pointers is undefined. -/
def solutionAt (sP : SolvedProblem F) (i : Int) : Outcome (SolverSolution F) := do
  let o ← vecGet sP.solutions i
  match o with
  | some s => .ok s
  | none => .ub

/-- `setExportFolder` (Driver.h:26). -/
def setExportFolder (d : Driver F) (folder : String) : Driver F :=
  { d with opts := { d.opts with exportFolder := folder } }

/-- Inner loop of `getGeneralizedCMatrix` (Driver.cpp:228-231). -/
def chargesLoop (s : Solver F) (conductors : SMap Int Int) (condI : Int) :
    List (Int × Int) → DMat 𝕜 → Outcome (DMat 𝕜)
  | [], C => .ok C
  | (condJ, _) :: t, C => do
    let attr ← Outcome.ofOption .outOfRange (conductors.find? condJ)
    let C ← C.setI condI condJ (s.getChargeInBoundary attr)
    chargesLoop s conductors condI t C

/-- Outer loop of `getGeneralizedCMatrix` (Driver.cpp:224-235). -/
def generalizedLoop (ignoreDielectrics : Bool) (conductors : SMap Int Int) :
    List (Int × Int) → DMat 𝕜 → Act F (DMat 𝕜)
  | [], C => pure C
  | (condI, _) :: t, C => do
    let sP ← Act.read (problem ignoreDielectrics)
    let sol ← Act.lift (solutionAt sP condI)
    updateSolver ignoreDielectrics (fun s => s.setSolution sol)
    let sP ← Act.read (problem ignoreDielectrics)
    let C ← Act.lift (chargesLoop sP.solver conductors condI conductors C)
    let mats ← Act.read (fun d => d.model.materials)
    let pec ← Act.lift (mats.getPECById condI)
    let opts ← Act.read Driver.opts
    Act.emit (exportFieldSolutions opts sP.solver.sol pec.name ignoreDielectrics)
    generalizedLoop ignoreDielectrics conductors t C

/-- `Driver::getGeneralizedCMatrix` (Driver.cpp:198-239). -/
def getGeneralizedCMatrix (ignoreDielectrics : Bool) : Act F (DMat 𝕜) := do
  let model ← Act.read Driver.model
  let conductors ← Act.lift model.materials.buildIdToAttrMapForPEC
  let openness ← Act.lift model.determineOpenness
  if conductors.length = 1 ∧ openness = .closed then
    Act.lift (.throw (.runtimeError "The number of conductors must be at least 2 for closed problems."))
  else do
    let C ← generalizedLoop ignoreDielectrics conductors conductors
      (DMat.zero conductors.length conductors.length)
    Act.lift C.symmetrize

variable [DecidableEq 𝕜]

/-- `Driver::getCMatrix` (Driver.cpp:241-250). -/
def getCMatrix : Act F (DMat 𝕜) := do
  let gC ← getGeneralizedCMatrix false
  let model ← Act.read Driver.model
  let openness ← Act.lift model.determineOpenness
  Act.lift (getCFromGeneralizedC gC openness)

/-- `Driver::getLMatrix` (Driver.cpp:252-264). -/
noncomputable def getLMatrix : Act F (DMat 𝕜) := do
  let gC ← getGeneralizedCMatrix true
  let model ← Act.read Driver.model
  let openness ← Act.lift model.determineOpenness
  let res ← Act.lift (getCFromGeneralizedC gC openness)
  Act.lift res.invert

/-- `Driver::buildPULParametersForModel` (Driver.cpp:266-277). -/
noncomputable def buildPULParametersForModel (E : Engine 𝕜) : Act F (PULParameters 𝕜) := do
  let C ← getCMatrix
  let L ← getLMatrix
  pure { C := C.smul E.eps0SI, L := L.smul E.mu0SI }

/-- `Driver::getPULMTL` (Driver.cpp:299-302). -/
noncomputable def getPULMTL (E : Engine 𝕜) : Act F (PULParameters 𝕜) := buildPULParametersForModel E

/-- `Driver::getFloatingPotentialsMatrix` (Driver.cpp:322-389). -/
noncomputable def getFloatingPotentialsMatrix (ignoreDielectrics : Bool) : Act F (DMat 𝕜) := do
  let model ← Act.read Driver.model
  if model.materials.buildNameToAttrMapForPEC.length = 1 then
    pure (DMat.ofMatrix (n := 1) (m := 1) (fun _ _ => 1))
  else do
    let openness ← Act.lift model.determineOpenness
    match openness with
    | .closed => do
      let gC ← getGeneralizedCMatrix ignoreDielectrics
      let C ← Act.lift (getCFromGeneralizedC gC openness)
      Act.lift (floatingFromC C)
    | .open_ => do
      let C ← getGeneralizedCMatrix ignoreDielectrics
      Act.lift (floatingFromC C)
    | .semiopen =>
      Act.lift (.throw (.runtimeError "Floating potentials not implemented for this kind of openness."))

/-- `Driver::getFloatingPotentials` (Driver.cpp:391-399). -/
noncomputable def getFloatingPotentials : Act F (FloatingPotentials 𝕜) := do
  let e ← getFloatingPotentialsMatrix false
  let m ← getFloatingPotentialsMatrix true
  pure { electric := e, magnetic := m }

/-! ### In-cell potentials -/

/-- `s.find(p) != npos` -/
def hasInfix (p : List Char) : List Char → Bool
  | [] => p.isEmpty
  | c :: s => p.isPrefixOf (c :: s) || hasInfix p s

omit [DecidableEq 𝕜] in
/-- `listMaterialsInInnerRegion` (Driver.cpp:401-419). -/
def listMaterialsInInnerRegion (m : Model 𝕜) (includeConductors : Bool) : List String :=
  INNER_REGION_DEFAULT_NAME ::
    ((m.materials.buildNameToAttrMapForDielectric.filter
        (fun kv => !hasInfix "Vacuum_".toList kv.1.toList)).map Prod.fst ++
      (if includeConductors then m.materials.buildNameToAttrMapForPEC.map Prod.fst else []))

/-- Loop of `getInnerRegionAveragePotential` (Driver.cpp:433-442): total potential and area. -/
def innerLoop (model : Model 𝕜) (s : Solver F) (materials : NameToAttrMap) :
    List String → 𝕜 → 𝕜 → Outcome (𝕜 × 𝕜)
  | [], totalPotential, totalArea => .ok (totalPotential, totalArea)
  | name :: t, totalPotential, totalArea => do
    let tag ← Outcome.ofOption .outOfRange (SMap.find? materials name)
    let area ← model.getAreaOfMaterial name
    let av ← if model.materials.isDomainMaterial name then s.getAveragePotentialInDomain tag
      else s.getAveragePotentialInBoundary tag
    innerLoop model s materials t (totalPotential + av * area) (totalArea + area)

/-- `Driver::getInnerRegionAveragePotential` (Driver.cpp:422-445). -/
def getInnerRegionAveragePotential (model : Model 𝕜) (s : Solver F) (includeConductors : Bool) : Outcome 𝕜 := do
  let t ← innerLoop model s model.materials.buildNameToAttrMap
    (listMaterialsInInnerRegion model includeConductors) 0 0
  divide t.1 t.2

omit [DecidableEq 𝕜] in
/-- `getPhi() *= 0.0` and the same for E and D (Driver.cpp:467-469). -/
def scaleZero (s : Solver F) : Solver F :=
  { s with sol := { phi := fun i => s.sol.phi i * 0, e := fun i => s.sol.e i * 0, d := fun i => s.sol.d i * 0 } }

omit [DecidableEq 𝕜] in
/-- `getPhi().Add(c, ...)` and the same for E and D (Driver.cpp:471-473). -/
def addScaled (c : 𝕜) (t : SolverSolution F) (s : Solver F) : Solver F :=
  { s with sol := { phi := fun i => s.sol.phi i + c * t.phi i, e := fun i => s.sol.e i + c * t.e i,
                    d := fun i => s.sol.d i + c * t.d i } }

/-- Loop of Driver.cpp:470-474. -/
def superposeLoop (ignoreDielectrics : Bool) (fp : DMat 𝕜) (condI : Int) : List (Int × Int) → Act F Unit
  | [] => pure ⟨⟩
  | (condJ, _) :: t => do
    let c ← Act.lift (fp.getI condI condJ)
    let sP ← Act.read (problem ignoreDielectrics)
    let sol ← Act.lift (solutionAt sP condJ)
    updateSolver ignoreDielectrics (addScaled c sol)
    superposeLoop ignoreDielectrics fp condI t

omit [DecidableEq 𝕜] in
/-- Loop of Driver.cpp:487-489. -/
def potentialsLoop (fp : DMat 𝕜) (condI : Int) : List (Int × Int) → SMap Int 𝕜 → Outcome (SMap Int 𝕜)
  | [], m => .ok m
  | (condJ, _) :: t, m => do
    let v ← fp.getI condI condJ
    potentialsLoop fp condI t (SMap.set m condJ v)

/-- Loop of `getFieldParameters` (Driver.cpp:465-490). -/
def fieldLoop (E : Engine 𝕜) (ignoreDielectrics : Bool) (fp : DMat 𝕜) (conductors : SMap Int Int) :
    List (Int × Int) → SMap Int (FieldReconstruction 𝕜) → Act F (SMap Int (FieldReconstruction 𝕜))
  | [], res => pure res
  | (condI, _) :: t, res => do
    updateSolver ignoreDielectrics scaleZero
    superposeLoop ignoreDielectrics fp condI conductors
    let model ← Act.read Driver.model
    let opts ← Act.read Driver.opts
    let sP ← Act.read (problem ignoreDielectrics)
    let pec ← Act.lift (model.materials.getPECById condI)
    Act.emit (exportFieldSolutions opts sP.solver.sol (pec.name ++ "_prescribed_and_others_floating")
      ignoreDielectrics)
    let av ← Act.lift (getInnerRegionAveragePotential model sP.solver true)
    let c ← Act.lift (sP.solver.getCenterOfCharge E.analytic)
    let ab ← Act.lift (sP.solver.getMultipolarCoefficients E.analytic opts.multipolarExpansionOrder)
    let ps ← Act.lift (potentialsLoop fp condI conductors [])
    fieldLoop E ignoreDielectrics fp conductors t (SMap.set res condI
      { innerRegionAveragePotential := av, expansionCenter := c, ab := ab, conductorPotentials := ps })

/-- `Driver::getFieldParameters` (Driver.cpp:447-493). -/
noncomputable def getFieldParameters (E : Engine 𝕜) (ignoreDielectrics : Bool) :
    Act F (SMap Int (FieldReconstruction 𝕜)) := do
  let fp ← getFloatingPotentialsMatrix ignoreDielectrics
  let model ← Act.read Driver.model
  let conductors ← Act.lift model.materials.buildIdToAttrMapForPEC
  fieldLoop E ignoreDielectrics fp conductors conductors []

omit [DecidableEq 𝕜] [Field 𝕜] in
/-- A box with finite sides; the results computed with infinite sides are not modelled (`nonfinite`). -/
def finiteBox (b : EBox 𝕜) : Outcome (Box 𝕜) :=
  match b.minX, b.minY, b.maxX, b.maxY with
  | some (some x0), some (some y0), some (some x1), some (some y1) => .ok ⟨(x0, y0), (x1, y1)⟩
  | _, _, _, _ => .nonfinite

/-- `Driver::getInCellPotentials` (Driver.cpp:495-509). -/
noncomputable def getInCellPotentials [LinearOrder 𝕜] (E : Engine 𝕜) : Act F (InCellPotentials 𝕜) := do
  let model ← Act.read Driver.model
  let openness ← Act.lift model.determineOpenness
  if openness ≠ .open_ then
    Act.lift (.throw (.runtimeError "In cell parameters can only be computed for open problems."))
  else do
    let eb ← Act.lift (model.getBoundingBoxOfMaterial INNER_REGION_DEFAULT_NAME)
    let box ← Act.lift (finiteBox eb)
    let e ← getFieldParameters E false
    let m ← getFieldParameters E true
    pure { innerRegionBox := box, electric := e, magnetic := m }

/-- `Driver::run` (Driver.cpp:279-297) with `saveToJSONFile` (Results.cpp:100-104; failures to write are
ignored there). -/
noncomputable def run [LinearOrder 𝕜] (E : Engine 𝕜) : Act F Unit := do
  let model ← Act.read Driver.model
  let openness ← Act.lift model.determineOpenness
  match openness with
  | .closed => do
    let pul ← buildPULParametersForModel E
    let opts ← Act.read Driver.opts
    Act.emit [.json (opts.exportFolder ++ "pulmtln.out.json") pul.toJSON]
  | .open_ => do
    let inCell ← getInCellPotentials E
    let opts ← Act.read Driver.opts
    Act.emit [.json (opts.exportFolder ++ "inCellPotentials.out.json") inCell.toJSON]
  | .semiopen => Act.lift (.throw (.runtimeError "Openness of the model is not supported."))

/-! ### Parameters by domains -/

/-- `struct PULParametersByDomain` (Results.h:27-30). -/
structure PULParametersByDomain (𝕜 : Type) where
  domainTree : DGraph
  domainToPUL : SMap Int (PULParameters 𝕜)

/-- Body of the loop of `getPULMTLByDomains` (Driver.cpp:311-314): construction of the driver of a domain
and its parameters; the mesh given to `buildModelForDomain` is a copy. -/
noncomputable def domainPUL (E : Engine 𝕜) (model : Model 𝕜) (opts : DriverOptions) (domain : Domain) :
    Logged 𝕜 (PULParameters 𝕜) := do
  let domainModel ← Logged.lift (buildModelForDomain model.mesh model.materials domain)
  let sub ← Driver.construct E domainModel.1 opts
  let r := getPULMTL E sub
  (r.1, r.2.2)

/-- Loop of `getPULMTLByDomains` (Driver.cpp:310-315). -/
noncomputable def domainsPULLoop (E : Engine 𝕜) (model : Model 𝕜) (opts : DriverOptions) :
    List (Int × Domain) → SMap Int (PULParameters 𝕜) → Logged 𝕜 (SMap Int (PULParameters 𝕜))
  | [], res => pure res
  | (id, domain) :: t, res => do
    let pul ← domainPUL E model opts domain
    domainsPULLoop E model opts t (SMap.set res id pul)

/-- `Driver::getPULMTLByDomains` (Driver.cpp:304-320). -/
noncomputable def getPULMTLByDomains (E : Engine 𝕜) : Act F (PULParametersByDomain 𝕜) := do
  let model ← Act.read Driver.model
  let opts ← Act.read Driver.opts
  let idToDomain ← Act.lift (buildDomains model)
  let m ← Act.ofLogged (domainsPULLoop E model opts idToDomain [])
  let tree ← Act.lift (Tulip.domainTree idToDomain)
  pure { domainTree := tree, domainToPUL := m }

end Driver

/-! ## Loading and the program -/

section program
variable [LinearOrder 𝕜] [FloorRing 𝕜]

/-- `Driver::loadFromFile` (Driver.cpp:58-65): the model and options; construction follows. -/
def loadInputs (fs : List Char → Option (Option (Json 𝕜))) (load : List Char → Outcome (Mesh 𝕜))
    (filename : List Char) : Outcome (Model 𝕜 × DriverOptions) := do
  let doc ← readJSON fs filename
  let model ← readModel load filename doc
  let opts ← readDriverOptions doc
  .ok (model, opts)

/-- What `boost::program_options` makes of the command line. -/
structure CommandLine where
  help : Bool
  input : Option (List Char)

/-- `main` (pulmtln.cpp:8-50); the arguments are given as boost parses them. -/
noncomputable def mainProgram [DecidableEq 𝕜] (E : Engine 𝕜) (fs : List Char → Option (Option (Json 𝕜)))
    (load : List Char → Outcome (Mesh 𝕜)) (cmd : CommandLine) : Logged 𝕜 Unit :=
  if cmd.help ∨ cmd.input = none then Logged.emit [.usage]
  else do
    Logged.emit [.usage]
    let inputFilename := cmd.input.getD []
    let folder := directoryOf inputFilename
    let inputs ← Logged.lift (loadInputs fs load inputFilename)
    let driver ← Driver.construct E inputs.1 inputs.2
    let r := Driver.run E (driver.setExportFolder (String.ofList folder))
    (r.1, r.2.2)

end program
end
end Tulip
