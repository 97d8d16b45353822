import Verif.Model.DMat
import Verif.Model.Json

/-!
# Results (src/Results.h, src/Results.cpp)

Numbers are elements of a field; `double` constants and the multipolar expansion are parameters here
(their real-valued models are in `Model/Multipolar.lean`). Printing and parsing of JSON text is not
modelled.
-/

namespace Tulip
variable {𝕜 : Type _}

/-! ## `nlohmann::json` operations used only here -/

namespace Json

/-- `j.contains(key)` -/
def hasKey (j : Json 𝕜) (key : String) : Bool :=
  match j with
  | .obj fs => SMap.contains fs key
  | _ => false

/-- Range-based `for` over a `json`: elements of an array, values of an object, nothing for `null`, the
value itself for other primitives. -/
def values (j : Json 𝕜) : List (Json 𝕜) :=
  match j with
  | .arr xs => xs
  | .obj fs => fs.map Prod.snd
  | .null => []
  | j => [j]

/-- `j[i]` for a constant `json`: `type_error` unless an array, undefined out of range. -/
def idx (j : Json 𝕜) (i : Nat) : Outcome (Json 𝕜) :=
  match j with
  | .arr xs => match xs[i]? with
    | some x => .ok x
    | none => .ub
  | _ => .throw .json

/-- `j.at(i)` -/
def atIdx (j : Json 𝕜) (i : Nat) : Outcome (Json 𝕜) :=
  match j with
  | .arr xs => .ofOption .json xs[i]?
  | _ => .throw .json

/-- Conversion of each element of a list, in order; the first failure propagates. -/
def convertAll {α β : Type _} (g : α → Outcome β) : List α → Outcome (List β)
  | [] => .ok []
  | x :: xs => do
    let y ← g x
    let ys ← convertAll g xs
    .ok (y :: ys)

/-- `j.get<std::vector<T>>()` -/
def getVector {α : Type _} (g : Json 𝕜 → Outcome α) (j : Json 𝕜) : Outcome (List α) :=
  match j with
  | .arr xs => convertAll g xs
  | _ => .throw .json

/-- `j.get<std::array<double,2>>()`: further elements are ignored. -/
def getArray2 [Field 𝕜] (j : Json 𝕜) : Outcome (𝕜 × 𝕜) := do
  let a ← j.atIdx 0
  let x ← a.getDouble
  let b ← j.atIdx 1
  let y ← b.getDouble
  .ok (x, y)

end Json

/-! ## Matrices -/

/-- `toVecVec` (Results.cpp:19-30). -/
def toVecVec (M : DMat 𝕜) : List (List 𝕜) := List.ofFn fun i => List.ofFn fun j => M.f i j

/-- `v[i][j]` -/
def vecVecGet (v : List (List 𝕜)) (i j : Nat) : Outcome 𝕜 :=
  match v[i]? with
  | none => .ub
  | some r => match r[j]? with
    | none => .ub
    | some x => .ok x

/-- `toMFEMDenseMatrix` (Results.cpp:41-62). -/
def toMFEMDenseMatrix [Zero 𝕜] (v : List (List 𝕜)) : Outcome (DMat 𝕜) :=
  match v with
  | [] => .ok (DMat.zero 0 0)
  | r0 :: rs =>
    if r0.length = 0 then .ok (DMat.zero 0 0)
    else if (r0 :: rs).any (fun row => decide (row.length ≠ r0.length)) then
      .throw (.runtimeError "vec-vec matrix is not square.")
    else
      forRange (fun i r => forRange (fun j r => do
        let x ← vecVecGet (r0 :: rs) i j
        r.set i j x) 0 r0.length r) 0 (r0 :: rs).length (DMat.zero (r0 :: rs).length r0.length)

/-- `struct PULParameters` (Results.h:14-25). -/
structure PULParameters (𝕜 : Type _) where
  L : DMat 𝕜
  C : DMat 𝕜

namespace PULParameters

/-- `json(std::vector<std::vector<double>>)` -/
def vecVecToJson (v : List (List 𝕜)) : Json 𝕜 := .arr (v.map (fun r => .arr (r.map .num)))

/-- `PULParameters::toJSON` (Results.cpp:92-98). -/
def toJSON (p : PULParameters 𝕜) : Json 𝕜 :=
  .obj [("C", vecVecToJson (toVecVec p.C)), ("L", vecVecToJson (toVecVec p.L))]

/-- Constructor from JSON (Results.cpp:64-71). -/
def ofJSON [Field 𝕜] (j : Json 𝕜) : Outcome (PULParameters 𝕜) :=
  if !j.hasKey "C" || !j.hasKey "L" then .throw (.runtimeError "JSON does not contain C and/or L.")
  else do
    let jc ← j.at_ "C"
    let vc ← jc.getVector (Json.getVector Json.getDouble)
    let C ← toMFEMDenseMatrix vc
    let jl ← j.at_ "L"
    let vl ← jl.getVector (Json.getVector Json.getDouble)
    let L ← toMFEMDenseMatrix vl
    .ok { L := L, C := C }

/-- `PULParameters::operator==` (Results.cpp:73-78). -/
def eq [DecidableEq 𝕜] (p q : PULParameters 𝕜) : Bool :=
  decide (toVecVec p.C = toVecVec q.C) && decide (toVecVec p.L = toVecVec q.L)

/-- `getCapacitiveCouplingCoefficients` (Results.cpp:80-90). -/
def getCapacitiveCouplingCoefficients [Field 𝕜] [DecidableEq 𝕜] (p : PULParameters 𝕜) : Outcome (DMat 𝕜) :=
  forRange (fun i r => do
    let selfC ← p.C.get i i
    forRange (fun j r => do
      let x ← p.C.get i j
      let q ← divide x selfC
      r.set i j q) 0 p.C.w r) 0 p.C.h (DMat.zero p.C.h p.C.w)

end PULParameters

/-- `struct FloatingPotentials` (Results.h:32-34). -/
structure FloatingPotentials (𝕜 : Type _) where
  electric : DMat 𝕜
  magnetic : DMat 𝕜

/-! ## In-cell potentials -/

/-- `struct Box` (Model.h:8-27) with finite sides. -/
structure Box (𝕜 : Type _) where
  min : 𝕜 × 𝕜
  max : 𝕜 × 𝕜
  deriving DecidableEq

/-- `Box::area` (Model.h:11-14). -/
def Box.area [Field 𝕜] (b : Box 𝕜) : 𝕜 := (b.max.1 - b.min.1) * (b.max.2 - b.min.2)

/-- `Box::isWithinBox` (Model.h:16-20). -/
def Box.isWithinBox [LinearOrder 𝕜] (b : Box 𝕜) (p : 𝕜 × 𝕜) : Bool :=
  (decide (p.1 ≥ b.min.1) && decide (p.1 ≤ b.max.1)) && (decide (p.2 ≥ b.min.2) && decide (p.2 ≤ b.max.2))

/-- `Box::operator==` (Model.h:22-25). -/
def Box.eq [DecidableEq 𝕜] (a b : Box 𝕜) : Bool := decide (a.min = b.min) && decide (a.max = b.max)

/-- `struct FieldReconstruction` (Results.h:36-44). -/
structure FieldReconstruction (𝕜 : Type _) where
  innerRegionAveragePotential : 𝕜
  expansionCenter : 𝕜 × 𝕜
  ab : List (𝕜 × 𝕜)
  conductorPotentials : SMap Int 𝕜
  deriving DecidableEq

namespace FieldReconstruction

/-- `FieldReconstruction::toJSON` (Results.cpp:302-318); members in the order of the library's map. -/
def toJSON (f : FieldReconstruction 𝕜) : Json 𝕜 :=
  .obj [("ab", .arr (f.ab.map (fun p => .arr [.num p.1, .num p.2]))),
    ("conductorPotentials", .arr (f.conductorPotentials.map (fun kv => .num kv.2))),
    ("expansionCenter", .arr [.num f.expansionCenter.1, .num f.expansionCenter.2]),
    ("innerRegionAveragePotential", .num f.innerRegionAveragePotential)]

/-- Loop over `conductorPotentials` in `operator==` (Results.cpp:334-339). -/
def eqLoop [DecidableEq 𝕜] (rhs : SMap Int 𝕜) : SMap Int 𝕜 → Bool → Bool
  | [], res => res
  | (k, v) :: t, res =>
    match rhs.find? k with
    | none => false
    | some w => eqLoop rhs t (res && decide (v = w))

/-- `FieldReconstruction::operator==` (Results.cpp:320-341). -/
def eq [DecidableEq 𝕜] (a b : FieldReconstruction 𝕜) : Bool :=
  let res := decide (a.innerRegionAveragePotential = b.innerRegionAveragePotential)
  let res := res && decide (a.expansionCenter.1 = b.expansionCenter.1)
  let res := res && decide (a.expansionCenter.2 = b.expansionCenter.2)
  let res := res && decide (a.ab = b.ab)
  if a.conductorPotentials.length ≠ b.conductorPotentials.length then false
  else eqLoop b.conductorPotentials a.conductorPotentials res

/-- `multipolarCoefficientsFromJSON` (Results.cpp:106-113). -/
def abFromJSON [Field 𝕜] (j : Json 𝕜) : Outcome (List (𝕜 × 𝕜)) :=
  Json.convertAll (fun c => do
    let a ← c.idx 0
    let b ← c.idx 1
    let x ← a.getDouble
    let y ← b.getDouble
    .ok (x, y)) j.values

/-- Loop that numbers values from 0 (Results.cpp:127-130, and 118, 132). -/
def numbered {α : Type _} : List α → Int → SMap Int α → SMap Int α
  | [], _, m => m
  | x :: xs, id, m => numbered xs (id + 1) (m.set id x)

/-- Body of the loop of `potentialsFromJSON` (Results.cpp:119-132). -/
def ofJSON [Field 𝕜] (f : Json 𝕜) : Outcome (FieldReconstruction 𝕜) := do
  let ja ← f.at_ "innerRegionAveragePotential"
  let av ← ja.getDouble
  let jc ← f.at_ "expansionCenter"
  let c ← jc.getArray2
  let jab ← f.at_ "ab"
  let ab ← abFromJSON jab
  let jp ← f.at_ "conductorPotentials"
  let ps ← Json.convertAll Json.getDouble jp.values
  .ok { innerRegionAveragePotential := av, expansionCenter := c, ab := ab,
        conductorPotentials := numbered ps 0 [] }

end FieldReconstruction

/-- `potentialsFromJSON` (Results.cpp:115-136). -/
def potentialsFromJSON [Field 𝕜] (j : Json 𝕜) : Outcome (SMap Int (FieldReconstruction 𝕜)) := do
  let frs ← Json.convertAll FieldReconstruction.ofJSON j.values
  .ok (FieldReconstruction.numbered frs 0 [])

/-- `struct InCellPotentials` (Results.h:46-61). -/
structure InCellPotentials (𝕜 : Type _) where
  innerRegionBox : Box 𝕜
  electric : SMap Int (FieldReconstruction 𝕜)
  magnetic : SMap Int (FieldReconstruction 𝕜)

namespace InCellPotentials

/-- `InCellPotentials::toJSON` (Results.cpp:280-300). -/
def toJSON (p : InCellPotentials 𝕜) : Json 𝕜 :=
  .obj [("electric", .arr (p.electric.map (fun kv => kv.2.toJSON))),
    ("innerRegionBox", .obj [("max", .arr [.num p.innerRegionBox.max.1, .num p.innerRegionBox.max.2]),
      ("min", .arr [.num p.innerRegionBox.min.1, .num p.innerRegionBox.min.2])]),
    ("magnetic", .arr (p.magnetic.map (fun kv => kv.2.toJSON)))]

/-- Constructor from JSON (Results.cpp:138-145). -/
def ofJSON [Field 𝕜] (j : Json 𝕜) : Outcome (InCellPotentials 𝕜) := do
  let jb ← j.at_ "innerRegionBox"
  let jm ← jb.at_ "min"
  let mn ← jm.getArray2
  let jM ← jb.at_ "max"
  let mx ← jM.getArray2
  let je ← j.at_ "electric"
  let e ← potentialsFromJSON je
  let jm ← j.at_ "magnetic"
  let m ← potentialsFromJSON jm
  .ok { innerRegionBox := ⟨mn, mx⟩, electric := e, magnetic := m }

/-- `std::map::operator==` with the elements' `operator==`. -/
def mapEq [DecidableEq 𝕜] (a b : SMap Int (FieldReconstruction 𝕜)) : Bool :=
  decide (a.length = b.length) && (a.zip b).all (fun p => decide (p.1.1 = p.2.1) && p.1.2.eq p.2.2)

/-- `InCellPotentials::operator==` (Results.cpp:147-162). -/
def eq [DecidableEq 𝕜] (a b : InCellPotentials 𝕜) : Bool :=
  if !(a.innerRegionBox.eq b.innerRegionBox) then false
  else if !(mapEq a.electric b.electric) then false
  else if !(mapEq a.magnetic b.magnetic) then false
  else true

/-- `electric.at(j)` / `conductorPotentials.at(i)` -/
def mapAt {α : Type _} (m : SMap Int α) (k : Int) : Outcome α := .ofOption .outOfRange (m.find? k)

/-- `ab[0].first`: undefined for an empty vector. -/
def monopole (ab : List (𝕜 × 𝕜)) : Outcome 𝕜 :=
  match ab with
  | [] => .ub
  | p :: _ => .ok p.1

section arith
variable [Field 𝕜] [DecidableEq 𝕜]

/-- `getCapacitanceUsingInnerRegion` (Results.cpp:164-172). -/
def getCapacitanceUsingInnerRegion (eps0 : 𝕜) (p : InCellPotentials 𝕜) (i j : Int) : Outcome 𝕜 := do
  let f ← mapAt p.electric j
  let Qj ← monopole f.ab
  let ViWhenPrescribedVj ← mapAt f.conductorPotentials i
  let avVj := -f.innerRegionAveragePotential + ViWhenPrescribedVj
  let q ← divide Qj avVj
  .ok (q * eps0)

/-- `getInductanceUsingInnerRegion` (Results.cpp:174-182). -/
def getInductanceUsingInnerRegion (mu0 : 𝕜) (p : InCellPotentials 𝕜) (i j : Int) : Outcome 𝕜 := do
  let f ← mapAt p.magnetic j
  let Ij ← monopole f.ab
  let AiWhenPrescribedAj ← mapAt f.conductorPotentials i
  let avAj := -f.innerRegionAveragePotential + AiWhenPrescribedAj
  let q ← divide avAj Ij
  .ok (q * mu0)

variable [LinearOrder 𝕜]

/-- `GRID_INTEGRATION_SAMPLING_POINTS` (Results.cpp:188). -/
def samplingPoints : Nat := 100

/-- Inner loop of `buildIntegrationPlanesForBox` (Results.cpp:207-213): one gap. -/
def fillGap (planes : SSet 𝕜) (prev it : 𝕜) : SSet 𝕜 :=
  let step := (it - prev) / samplingPoints
  let planes := (List.range samplingPoints).foldl (fun s k => s.insert (prev + k * step)) planes
  planes.insert it

/-- Loop over consecutive control points (Results.cpp:206-214). -/
def fillGaps : List 𝕜 → SSet 𝕜 → SSet 𝕜
  | a :: b :: t, planes => fillGaps (b :: t) (fillGap planes a b)
  | _, planes => planes

/-- Planes in one direction (Results.cpp:199-214). -/
def planesInDirection (boxMin boxMax innerMin innerMax : 𝕜) : SSet 𝕜 :=
  fillGaps (SSet.ofList [boxMin, boxMax, innerMin, innerMax]) []

/-- The message of Results.cpp:193. -/
def boxErr : Err := .runtimeError "Integration box has to be larger than the  inner region."

/-- `buildIntegrationPlanesForBox` (Results.cpp:184-222). -/
def buildIntegrationPlanesForBox (box inner : Box 𝕜) : Outcome (List 𝕜 × List 𝕜) :=
  if box.min.1 > inner.min.1 ∨ box.max.1 < inner.max.1 then .throw boxErr
  else if box.min.2 > inner.min.2 ∨ box.max.2 < inner.max.2 then .throw boxErr
  else .ok (planesInDirection box.min.1 box.max.1 inner.min.1 inner.max.1,
    planesInDirection box.min.2 box.max.2 inner.min.2 inner.max.2)

/-- Consecutive planes. -/
def gaps (l : List 𝕜) : List (𝕜 × 𝕜) := l.zip l.tail

/-- Body of the double loop of `getAveragePotential` (Results.cpp:233-248). -/
def cellStep (expansion : 𝕜 × 𝕜 → List (𝕜 × 𝕜) → 𝕜 × 𝕜 → Outcome 𝕜) (f : FieldReconstruction 𝕜)
    (innerBox : Box 𝕜) (gx gy : 𝕜 × 𝕜) (outerV : 𝕜) : Outcome 𝕜 :=
  let midPoint := ((1 / 2) * (gx.1 + gx.2), (1 / 2) * (gy.1 + gy.2))
  let area := (gx.2 - gx.1) * (gy.2 - gy.1)
  if innerBox.isWithinBox midPoint then .ok outerV
  else do
    let v ← expansion midPoint f.ab f.expansionCenter
    .ok (outerV + area * v)

/-- Loop over a list with a state. -/
def forEach {α S : Type _} (body : α → S → Outcome S) : List α → S → Outcome S
  | [], s => .ok s
  | x :: xs, s => do
    let s ← body x s
    forEach body xs s

/-- `getAveragePotential` (Results.cpp:224-256). The multipolar expansion is a parameter. -/
def getAveragePotential (expansion : 𝕜 × 𝕜 → List (𝕜 × 𝕜) → 𝕜 × 𝕜 → Outcome 𝕜) (f : FieldReconstruction 𝕜)
    (innerBox outerBox : Box 𝕜) : Outcome 𝕜 := do
  let planes ← buildIntegrationPlanesForBox outerBox innerBox
  let outerV ← forEach (fun gx s => forEach (fun gy s => cellStep expansion f innerBox gx gy s)
    (gaps planes.2) s) (gaps planes.1) 0
  let innerV := f.innerRegionAveragePotential * innerBox.area
  divide (innerV + outerV) outerBox.area

/-- `getCapacitanceOnBox` (Results.cpp:258-267). -/
def getCapacitanceOnBox (expansion : 𝕜 × 𝕜 → List (𝕜 × 𝕜) → 𝕜 × 𝕜 → Outcome 𝕜) (eps0 : 𝕜)
    (p : InCellPotentials 𝕜) (i j : Int) (cellBox : Box 𝕜) : Outcome 𝕜 := do
  let f ← mapAt p.electric j
  let Qj ← monopole f.ab
  let av ← getAveragePotential expansion f p.innerRegionBox cellBox
  let ViWhenPrescribedVj ← mapAt f.conductorPotentials i
  let avVj := -av + ViWhenPrescribedVj
  let q ← divide Qj avVj
  .ok (q * eps0)

/-- `getInductanceOnBox` (Results.cpp:269-278); line 274 reads `electric`, as written in the code. -/
def getInductanceOnBox (expansion : 𝕜 × 𝕜 → List (𝕜 × 𝕜) → 𝕜 × 𝕜 → Outcome 𝕜) (mu0 : 𝕜)
    (p : InCellPotentials 𝕜) (i j : Int) (cellBox : Box 𝕜) : Outcome 𝕜 := do
  let f ← mapAt p.magnetic j
  let Ij ← monopole f.ab
  let av ← getAveragePotential expansion f p.innerRegionBox cellBox
  let fe ← mapAt p.electric j
  let AiWhenPrescribedAj ← mapAt fe.conductorPotentials i
  let avAj := -av + AiWhenPrescribedAj
  let q ← divide avAj Ij
  .ok (q * mu0)

end arith
end InCellPotentials
end Tulip
