import Verif.Model.Driver

/-!
# Results for cells, with the rounding of computer arithmetic

The same lines as in `Model/Driver.lean` and `Model/Results.lean`, with every arithmetic operation followed by a rounding
`rnd : 𝕜 → 𝕜`, as in `Model/RoundedGrid.lean`. Areas and averages of the parts of the inner region are parameters and stand for the
numbers as computed by MFEM and the model.
-/

namespace Tulip.RoundedCell
open Tulip InCellPotentials
variable {𝕜 : Type _} [Field 𝕜] [DecidableEq 𝕜]

/-- Loop of `getInnerRegionAveragePotential` (Driver.cpp:433-442): total potential and area. -/
def innerLoop (rnd : 𝕜 → 𝕜) (materials : NameToAttrMap) (area : String → Outcome 𝕜) (isDomain : String → Bool)
    (inDomain inBoundary : Int → Outcome 𝕜) : List String → 𝕜 → 𝕜 → Outcome (𝕜 × 𝕜)
  | [], totalPotential, totalArea => .ok (totalPotential, totalArea)
  | name :: t, totalPotential, totalArea => do
    let tag ← Outcome.ofOption .outOfRange (SMap.find? materials name)
    let area' ← area name
    let av ← if isDomain name then inDomain tag else inBoundary tag
    innerLoop rnd materials area isDomain inDomain inBoundary t (rnd (totalPotential + rnd (av * area')))
      (rnd (totalArea + area'))

/-- `Driver::getInnerRegionAveragePotential` (Driver.cpp:422-445), for a list of material names. -/
def getInnerRegionAveragePotential (rnd : 𝕜 → 𝕜) (materials : NameToAttrMap) (area : String → Outcome 𝕜)
    (isDomain : String → Bool) (inDomain inBoundary : Int → Outcome 𝕜) (names : List String) : Outcome 𝕜 := do
  let t ← innerLoop rnd materials area isDomain inDomain inBoundary names 0 0
  let q ← divide t.1 t.2
  .ok (rnd q)

/-- One entry of `getPhi() *= 0.0` and the following calls of `Add` (Driver.cpp:467-474): `mfem::Vector::Add(a, v)` adds
`a * v[i]` to entry `i`. -/
def superpose (rnd : 𝕜 → 𝕜) (old : 𝕜) (terms : List (𝕜 × 𝕜)) : 𝕜 :=
  terms.foldl (fun acc t => rnd (acc + rnd (t.1 * t.2))) (rnd (old * 0))

/-- `getCapacitanceUsingInnerRegion` (Results.cpp:164-172). -/
def getCapacitanceUsingInnerRegion (rnd : 𝕜 → 𝕜) (eps0 : 𝕜) (p : InCellPotentials 𝕜) (i j : Int) : Outcome 𝕜 := do
  let f ← mapAt p.electric j
  let Qj ← monopole f.ab
  let ViWhenPrescribedVj ← mapAt f.conductorPotentials i
  let avVj := rnd (-f.innerRegionAveragePotential + ViWhenPrescribedVj)
  let q ← divide Qj avVj
  .ok (rnd (rnd q * eps0))

/-- `getInductanceUsingInnerRegion` (Results.cpp:174-182). -/
def getInductanceUsingInnerRegion (rnd : 𝕜 → 𝕜) (mu0 : 𝕜) (p : InCellPotentials 𝕜) (i j : Int) : Outcome 𝕜 := do
  let f ← mapAt p.magnetic j
  let Ij ← monopole f.ab
  let AiWhenPrescribedAj ← mapAt f.conductorPotentials i
  let avAj := rnd (-f.innerRegionAveragePotential + AiWhenPrescribedAj)
  let q ← divide avAj Ij
  .ok (rnd (rnd q * mu0))

end Tulip.RoundedCell
