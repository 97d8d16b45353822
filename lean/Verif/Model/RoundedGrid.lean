import Verif.Model.Results

/-!
# The integration grid, with the rounding of computer arithmetic

`Model/Results.lean` models `buildIntegrationPlanesForBox` and `getAveragePotential` with exact numbers. Here the same
lines are modelled again with every arithmetic operation followed by a rounding `rnd : 𝕜 → 𝕜`: `a + b` of the code is
`rnd (a + b)`. Comparisons are exact. Simplifications: the range of the exponent is unlimited (no overflow or underflow,
no infinities or NaNs), and no fused multiply-add is used. The expansion is a parameter and stands for the function as
computed.
-/

namespace Tulip.RoundedGrid
open Tulip InCellPotentials
variable {𝕜 : Type _} [Field 𝕜] [DecidableEq 𝕜] [LinearOrder 𝕜]

/-- `newPoint` (Results.cpp:208-210): `step` is computed by a subtraction and a division, the point by a product and a
sum. -/
def newPoint (rnd : 𝕜 → 𝕜) (prev it : 𝕜) (k : Nat) : 𝕜 :=
  let step := rnd (rnd (it - prev) / samplingPoints)
  rnd (prev + rnd (k * step))

/-- Inner loop of `buildIntegrationPlanesForBox` (Results.cpp:207-213): one gap. -/
def fillGap (rnd : 𝕜 → 𝕜) (planes : SSet 𝕜) (prev it : 𝕜) : SSet 𝕜 :=
  let planes := (List.range samplingPoints).foldl (fun s k => s.insert (newPoint rnd prev it k)) planes
  planes.insert it

/-- Loop over consecutive control points (Results.cpp:206-214). -/
def fillGaps (rnd : 𝕜 → 𝕜) : List 𝕜 → SSet 𝕜 → SSet 𝕜
  | a :: b :: t, planes => fillGaps rnd (b :: t) (fillGap rnd planes a b)
  | _, planes => planes

/-- Planes in one direction (Results.cpp:199-214). -/
def planesInDirection (rnd : 𝕜 → 𝕜) (boxMin boxMax innerMin innerMax : 𝕜) : SSet 𝕜 :=
  fillGaps rnd (SSet.ofList [boxMin, boxMax, innerMin, innerMax]) []

/-- `buildIntegrationPlanesForBox` (Results.cpp:184-222). -/
def buildIntegrationPlanesForBox (rnd : 𝕜 → 𝕜) (box inner : Box 𝕜) : Outcome (List 𝕜 × List 𝕜) :=
  if box.min.1 > inner.min.1 ∨ box.max.1 < inner.max.1 then .throw boxErr
  else if box.min.2 > inner.min.2 ∨ box.max.2 < inner.max.2 then .throw boxErr
  else .ok (planesInDirection rnd box.min.1 box.max.1 inner.min.1 inner.max.1,
    planesInDirection rnd box.min.2 box.max.2 inner.min.2 inner.max.2)

/-- One coordinate of `midPoint` (Results.cpp:239). -/
def mid (rnd : 𝕜 → 𝕜) (g : 𝕜 × 𝕜) : 𝕜 := rnd ((1 / 2) * rnd (g.1 + g.2))

/-- `area` (Results.cpp:240). -/
def cellArea (rnd : 𝕜 → 𝕜) (gx gy : 𝕜 × 𝕜) : 𝕜 := rnd (rnd (gx.2 - gx.1) * rnd (gy.2 - gy.1))

/-- `Box::area` (Model.h:11-14). -/
def boxArea (rnd : 𝕜 → 𝕜) (b : Box 𝕜) : 𝕜 := rnd (rnd (b.max.1 - b.min.1) * rnd (b.max.2 - b.min.2))

/-- Body of the double loop of `getAveragePotential` (Results.cpp:233-248). -/
def cellStep (rnd : 𝕜 → 𝕜) (expansion : 𝕜 × 𝕜 → List (𝕜 × 𝕜) → 𝕜 × 𝕜 → Outcome 𝕜) (f : FieldReconstruction 𝕜)
    (innerBox : Box 𝕜) (gx gy : 𝕜 × 𝕜) (outerV : 𝕜) : Outcome 𝕜 :=
  let midPoint := (mid rnd gx, mid rnd gy)
  let area := cellArea rnd gx gy
  if innerBox.isWithinBox midPoint then .ok outerV
  else do
    let v ← expansion midPoint f.ab f.expansionCenter
    .ok (rnd (outerV + rnd (area * v)))

/-- `getAveragePotential` (Results.cpp:224-256). -/
def getAveragePotential (rnd : 𝕜 → 𝕜) (expansion : 𝕜 × 𝕜 → List (𝕜 × 𝕜) → 𝕜 × 𝕜 → Outcome 𝕜)
    (f : FieldReconstruction 𝕜) (innerBox outerBox : Box 𝕜) : Outcome 𝕜 := do
  let planes ← buildIntegrationPlanesForBox rnd outerBox innerBox
  let outerV ← forEach (fun gx s => forEach (fun gy s => cellStep rnd expansion f innerBox gx gy s)
    (gaps planes.2) s) (gaps planes.1) 0
  let innerV := rnd (f.innerRegionAveragePotential * boxArea rnd innerBox)
  let avVj ← divide (rnd (innerV + outerV)) (boxArea rnd outerBox)
  .ok (rnd avVj)

/-- `getCapacitanceOnBox` (Results.cpp:258-267). -/
def getCapacitanceOnBox (rnd : 𝕜 → 𝕜) (expansion : 𝕜 × 𝕜 → List (𝕜 × 𝕜) → 𝕜 × 𝕜 → Outcome 𝕜) (eps0 : 𝕜)
    (p : InCellPotentials 𝕜) (i j : Int) (cellBox : Box 𝕜) : Outcome 𝕜 := do
  let f ← mapAt p.electric j
  let Qj ← monopole f.ab
  let av ← getAveragePotential rnd expansion f p.innerRegionBox cellBox
  let ViWhenPrescribedVj ← mapAt f.conductorPotentials i
  let avVj := rnd (-av + ViWhenPrescribedVj)
  let q ← divide Qj avVj
  .ok (rnd (rnd q * eps0))

/-- `getInductanceOnBox` (Results.cpp:269-278); line 274 reads `electric`, as written in the code. -/
def getInductanceOnBox (rnd : 𝕜 → 𝕜) (expansion : 𝕜 × 𝕜 → List (𝕜 × 𝕜) → 𝕜 × 𝕜 → Outcome 𝕜) (mu0 : 𝕜)
    (p : InCellPotentials 𝕜) (i j : Int) (cellBox : Box 𝕜) : Outcome 𝕜 := do
  let f ← mapAt p.magnetic j
  let Ij ← monopole f.ab
  let av ← getAveragePotential rnd expansion f p.innerRegionBox cellBox
  let fe ← mapAt p.electric j
  let AiWhenPrescribedAj ← mapAt fe.conductorPotentials i
  let avAj := rnd (-av + AiWhenPrescribedAj)
  let q ← divide avAj Ij
  .ok (rnd (rnd q * mu0))

end Tulip.RoundedGrid
