import Verif.Model.DMat
import Verif.Model.Parser
import Mathlib.LinearAlgebra.Matrix.NonsingularInverse

/-!
# `ElectrostaticSolver` (src/ElectrostaticSolver.h, src/ElectrostaticSolver.cpp)

MFEM's discretisation is the structure `FEM`: basis functions are given by their values at quadrature
points, degrees of freedom by the boundary elements they lie on; bilinear and linear forms are the
quadrature sums MFEM's integrators compute. Simplifications: one quadrature rule serves all integrators;
the preconditioned conjugate gradient is an arbitrary function (`LinSolver`), assumed exact where a
theorem says so; MFEM's `Vector`s are functions on `Fin n`.

What the code takes from MFEM is modelled from its documentation (the sources are not in the sandbox):
`FormLinearSystem` eliminates the essential rows and columns keeping the diagonal (`DIAG_KEEP`), does so
only the first time it is called (the eliminated part is cached in the bilinear form), and moves the known
values to the right-hand side; `ProjectBdrCoefficient` sets the nodal values on the marked boundary
elements; `PWCoefficient` is 0 for attributes that are not listed.
-/

namespace Tulip

/-- `AttrToValueMap` (AttrToValueMap.h:10-38). -/
abbrev AttrToValueMap (𝕜 : Type _) := SMap Int 𝕜

/-- `AttrToValueMap::getAttributesAsArray` (AttrToValueMap.h:17-27). -/
def AttrToValueMap.getAttributesAsArray {𝕜 : Type _} (m : AttrToValueMap 𝕜) : List Int := SMap.keys m

/-- `AttrToValueMap::getValuesAsArray` (AttrToValueMap.h:29-38). -/
def AttrToValueMap.getValuesAsArray {𝕜 : Type _} (m : AttrToValueMap 𝕜) : List 𝕜 := SMap.vals m

/-- `struct SolverInputs` (ElectrostaticSolver.h:13-18). -/
structure SolverInputs (𝕜 : Type _) where
  dirichletBoundaries : AttrToValueMap 𝕜 := []
  neumannBoundaries : AttrToValueMap 𝕜 := []
  openBoundaries : List Int := []
  domainPermittivities : AttrToValueMap 𝕜 := []

/-- A quadrature point of a domain element: attribute of the element, weight, values of the nodal (H1)
basis and its gradient, of the Nedelec basis and of the Raviart-Thomas basis (FES.cpp:5-51). -/
structure DomPt (𝕜 : Type _) (n e d : Nat) where
  attr : Int
  w : 𝕜
  N : Fin n → 𝕜
  gradN : Fin n → 𝕜 × 𝕜
  W : Fin e → 𝕜 × 𝕜
  R : Fin d → 𝕜 × 𝕜

/-- A quadrature point of a boundary element: attribute, weight, position, values of the nodal basis, and
weighted normal components of the Raviart-Thomas basis (what `VectorFEBoundaryFluxLFIntegrator` adds). -/
structure BdrPt (𝕜 : Type _) (n d : Nat) where
  attr : Int
  w : 𝕜
  pos : 𝕜 × 𝕜
  N : Fin n → 𝕜
  fl : Fin d → 𝕜

/-- The discretisation of a mesh: what MFEM provides to the solver. -/
structure FEM (𝕜 : Type _) where
  /-- number of H1, Nedelec and Raviart-Thomas degrees of freedom -/
  n : Nat
  ne : Nat
  nd : Nat
  /-- `mesh.bdr_attributes` and `mesh.attributes` -/
  bdrAttrs : List Int
  domAttrs : List Int
  /-- boundary elements: attribute and H1 degrees of freedom -/
  bdrElems : List (Int × List (Fin n))
  /-- position of the H1 nodes -/
  node : Fin n → 𝕜 × 𝕜
  dom : List (DomPt 𝕜 n ne nd)
  bdr : List (BdrPt 𝕜 n nd)
  /-- `DiscreteGradOperator` (FES.cpp:58-63) -/
  grad : Matrix (Fin ne) (Fin n) 𝕜

/-- `mfem::PCG` (matrix, right-hand side, initial guess). -/
abbrev LinSolver (𝕜 : Type _) :=
  (n : Nat) → Matrix (Fin n) (Fin n) 𝕜 → (Fin n → 𝕜) → (Fin n → 𝕜) → (Fin n → 𝕜)

/-- Analytic functions used by the solver: `firstOrderABC` (ElectrostaticSolver.cpp:51-56) as a function of
the position and `momentComponent` (multipolarExpansion.h:42-63) as a function of position, order,
component and centre. Their real-valued models are in `Model/Multipolar.lean`. -/
structure Analytic (𝕜 : Type _) where
  abc : 𝕜 × 𝕜 → 𝕜
  moment : 𝕜 × 𝕜 → Nat → Nat → 𝕜 × 𝕜 → 𝕜

/-- `mfem::Array<int>::Max`: undefined for an empty array. -/
def arrayMax : List Int → Outcome Int
  | [] => .ub
  | a :: as => .ok (as.foldl max a)

/-- Assignments `marker[attr - 1] = 1` of `AttrToMarker` (ElectrostaticSolver.cpp:31-36). -/
def markLoop : List Int → List Int → Outcome (List Int)
  | [], marker => .ok marker
  | a :: as, marker =>
    if 0 < a then
      if (a - 1).toNat < marker.length then markLoop as (marker.set (a - 1).toNat 1) else .ub
    else .throw .mfemVerify

/-- `AttrToMarker` (ElectrostaticSolver.cpp:8-40). -/
def AttrToMarker (bdrAttrs attrs : List Int) : Outcome (List Int) :=
  if attrs.length = 0 then .ok []
  else do
    let maxAttrInConditions ← arrayMax attrs
    let maxAttrInMesh ← arrayMax bdrAttrs
    let maxAttr := max maxAttrInConditions maxAttrInMesh
    let marker := List.replicate maxAttr.toNat (0 : Int)
    if attrs = [-1] then .ok (List.replicate maxAttr.toNat 1)
    else markLoop attrs marker

section
variable {𝕜 : Type _} [Field 𝕜]

/-- Scalar product in the plane. -/
def dot2 (a b : 𝕜 × 𝕜) : 𝕜 := a.1 * b.1 + a.2 * b.2

/-- Permittivities (ElectrostaticSolver.cpp:93-101, also 513-518): `EPSILON0_NATURAL = 1` times the given
factors; an attribute without a slot in the vector is an out-of-range access (the `assert` is compiled
out in release builds, and does not check for attributes below 1). -/
def epsLoop (maxAttr : Int) : List (Int × 𝕜) → (Int → 𝕜) → Outcome (Int → 𝕜)
  | [], eps => .ok eps
  | (a, er) :: t, eps =>
    if 1 ≤ a ∧ a ≤ maxAttr then epsLoop maxAttr t (fun b => if b = a then eps a * er else eps b)
    else .ub

namespace FEM
variable (F : FEM 𝕜)

/-- Permittivity coefficient of the constructor (ElectrostaticSolver.cpp:91-103). -/
def permittivity (m : AttrToValueMap 𝕜) : Outcome (Int → 𝕜) :=
  if m.length = 0 then .ok (fun _ => 1)
  else do
    let maxAttr ← arrayMax F.domAttrs
    epsLoop maxAttr m (fun _ => 1)

/-- `DiffusionIntegrator(epsCoef)` (ElectrostaticSolver.cpp:106-107). -/
def stiffness (eps : Int → 𝕜) : Matrix (Fin F.n) (Fin F.n) 𝕜 := Matrix.of fun i j =>
  (F.dom.map (fun q => q.w * eps q.attr * dot2 (q.gradN i) (q.gradN j))).sum

/-- Is the attribute marked? (`marker[attr - 1] != 0`, as MFEM does for every boundary element.) -/
def marked (marker : List Int) (attr : Int) : Prop := marker.getD (attr - 1).toNat 0 ≠ 0

instance (marker : List Int) (attr : Int) : Decidable (marked marker attr) := by
  unfold marked; infer_instance

/-- `BoundaryMassIntegrator(firstOrderABC)` restricted to the marked boundaries
(ElectrostaticSolver.cpp:111-118). -/
def openMass (A : Analytic 𝕜) (marker : List Int) : Matrix (Fin F.n) (Fin F.n) 𝕜 := Matrix.of fun i j =>
  ((F.bdr.filter (fun q => marked marker q.attr)).map (fun q => q.w * A.abc q.pos * (q.N i * q.N j))).sum

/-- `h1SurfMass_` (ElectrostaticSolver.cpp:123-124). -/
def surfMass : Matrix (Fin F.n) (Fin F.n) 𝕜 := Matrix.of fun i j =>
  (F.bdr.map (fun q => q.w * (q.N i * q.N j))).sum

/-- `hDivMass_` (ElectrostaticSolver.cpp:120-121). -/
def massD : Matrix (Fin F.nd) (Fin F.nd) 𝕜 := Matrix.of fun i j =>
  (F.dom.map (fun q => q.w * dot2 (q.R i) (q.R j))).sum

/-- `hCurlHDivEps_` (ElectrostaticSolver.cpp:126-127). -/
def mixed (eps : Int → 𝕜) : Matrix (Fin F.nd) (Fin F.ne) 𝕜 := Matrix.of fun i j =>
  (F.dom.map (fun q => q.w * eps q.attr * dot2 (q.R i) (q.W j))).sum

/-- Mass matrix of `getTotalEnergy` (ElectrostaticSolver.cpp:521-523). -/
def massE (eps : Int → 𝕜) : Matrix (Fin F.ne) (Fin F.ne) 𝕜 := Matrix.of fun i j =>
  (F.dom.map (fun q => q.w * eps q.attr * dot2 (q.W i) (q.W j))).sum

/-- `VectorFEBoundaryFluxLFIntegrator(PWCoefficient)` applied to `D`: flux through the selected boundaries
with a weight (ElectrostaticSolver.cpp:295-301, 338-346, 388-407). -/
def flux (sel : Int → Bool) (weight : 𝕜 × 𝕜 → 𝕜) (D : Fin F.nd → 𝕜) : 𝕜 :=
  ∑ k, ((F.bdr.filter (fun q => sel q.attr)).map (fun q => weight q.pos * q.fl k)).sum * D k

/-- `DomainLFIntegrator` restricted to an attribute (ElectrostaticSolver.cpp:472-484). -/
def domInt (attr : Int) (u : Fin F.n → 𝕜) : 𝕜 :=
  ∑ k, ((F.dom.filter (fun q => q.attr = attr)).map (fun q => q.w * q.N k)).sum * u k

/-- `buildH1BoundaryIntegrator` (ElectrostaticSolver.cpp:409-428) with coefficient 1. -/
def bdrInt (attr : Int) (u : Fin F.n → 𝕜) : 𝕜 :=
  ∑ k, ((F.bdr.filter (fun q => q.attr = attr)).map (fun q => q.w * q.N k)).sum * u k

/-- Degrees of freedom on the boundary elements with this attribute. -/
def bdrDofs (attr : Int) : List (Fin F.n) :=
  (F.bdrElems.filter (fun b => b.1 = attr)).flatMap Prod.snd

/-- `GridFunction::ProjectBdrCoefficient` for a single marked attribute. -/
def projectBdr (coef : 𝕜 × 𝕜 → 𝕜) (attr : Int) (gf : Fin F.n → 𝕜) : Fin F.n → 𝕜 :=
  fun i => if i ∈ F.bdrDofs attr then coef (F.node i) else gf i

/-- Loop of `applyBoundaryConstantValuesToGridFunction` (ElectrostaticSolver.cpp:209-218): attributes above
the largest boundary attribute of the mesh mark nothing; attributes below 1 are written out of range. -/
def applyLoop (bdrMax : Int) : List Int → List 𝕜 → (Fin F.n → 𝕜) → Outcome (Fin F.n → 𝕜)
  | [], _, gf => .ok gf
  | _ :: _, [], _ => .ub
  | a :: as, v :: vs, gf =>
    if a ≤ bdrMax then
      if 1 ≤ a then applyLoop bdrMax as vs (F.projectBdr (fun _ => v) a gf) else .ub
    else applyLoop bdrMax as vs gf

/-- `applyBoundaryConstantValuesToGridFunction` (ElectrostaticSolver.cpp:196-219). -/
def applyBoundary (vals : AttrToValueMap 𝕜) (gf : Fin F.n → 𝕜) : Outcome (Fin F.n → 𝕜) :=
  if vals.getAttributesAsArray.length = 0 then .ok gf
  else do
    let bdrMax ← arrayMax F.bdrAttrs
    F.applyLoop bdrMax vals.getAttributesAsArray vals.getValuesAsArray gf

/-- `GetEssentialTrueDofs(ess_bdr_)`: reads `marker[attr - 1]` for every boundary element (out of range if
the marker array is too short), and collects the degrees of freedom of the marked ones. -/
def essentialDofs (marker : List Int) : Outcome (List (Fin F.n)) :=
  if F.bdrElems.all (fun b => decide (1 ≤ b.1 ∧ (b.1 - 1).toNat < marker.length)) then
    .ok ((F.bdrElems.filter (fun b => marked marker b.1)).flatMap Prod.snd)
  else .ub

end FEM

/-- Matrix left by `EliminateVDofs(list, DIAG_KEEP)`. -/
def eliminated {n : Nat} (K : Matrix (Fin n) (Fin n) 𝕜) (ess : List (Fin n)) : Matrix (Fin n) (Fin n) 𝕜 :=
  Matrix.of fun i j => if i ∈ ess ∨ j ∈ ess then (if i = j then K i j else 0) else K i j

/-- `struct SolverSolution` (ElectrostaticSolver.h:20-22). -/
structure SolverSolution {𝕜 : Type _} (F : FEM 𝕜) where
  phi : Fin F.n → 𝕜
  e : Fin F.ne → 𝕜
  d : Fin F.nd → 𝕜

/-- `class ElectrostaticSolver` (ElectrostaticSolver.h:24-100): inputs, markers, assembled stiffness matrix
with the list of degrees of freedom eliminated from it (none before the first `Solve`), permittivity,
surface charge, and the fields. -/
structure Solver {𝕜 : Type _} (F : FEM 𝕜) where
  params : SolverInputs 𝕜
  essBdr : List Int
  eps : Int → 𝕜
  K : Matrix (Fin F.n) (Fin F.n) 𝕜
  elim : Option (List (Fin F.n))
  sigma : Fin F.n → 𝕜
  sol : SolverSolution F

namespace Solver
variable {F : FEM 𝕜}

/-- Constructor (ElectrostaticSolver.cpp:59-148) with `Assemble` (175-194). `raw` is the content of the
uninitialised storage of `phi_`, `e_` and `d_`. -/
def make (A : Analytic 𝕜) (F : FEM 𝕜) (p : SolverInputs 𝕜) (raw : SolverSolution F) :
    Outcome (Solver F) := do
  let ess ← AttrToMarker F.bdrAttrs p.dirichletBoundaries.getAttributesAsArray
  let eps ← F.permittivity p.domainPermittivities
  let K0 := F.stiffness eps
  let K ← (if p.openBoundaries.length = 0 then .ok K0
    else do
      let mk ← AttrToMarker F.bdrAttrs p.openBoundaries
      .ok (K0 + F.openMass A mk) : Outcome (Matrix (Fin F.n) (Fin F.n) 𝕜))
  let sigma ← F.applyBoundary p.neumannBoundaries (fun _ => 0)
  .ok { params := p, essBdr := ess, eps := eps, K := K, elim := none, sigma := sigma, sol := raw }

/-- Essential degrees of freedom of `Solve` (ElectrostaticSolver.cpp:232-239). -/
def essTdofs (s : Solver F) : Outcome (List (Fin F.n)) :=
  if 0 < s.params.dirichletBoundaries.getAttributesAsArray.length then F.essentialDofs s.essBdr
  else if h : 0 < F.n then .ok [⟨0, h⟩] else .ub

/-- Right-hand side of `FormLinearSystem`: `b - A_e x`, and `A x` on the essential rows. -/
def formRhs {n : Nat} (K A : Matrix (Fin n) (Fin n) 𝕜) (ess : List (Fin n)) (x b : Fin n → 𝕜) : Fin n → 𝕜 :=
  fun i => if i ∈ ess then A.mulVec x i else b i - (K - A).mulVec x i

/-- `Solve` (ElectrostaticSolver.cpp:221-277). -/
def solve (P : LinSolver 𝕜) (s : Solver F) : Outcome (Solver F) := do
  let rhod := F.surfMass.mulVec s.sigma
  let phi0 ← F.applyBoundary s.params.dirichletBoundaries (fun _ => 0)
  let ess ← s.essTdofs
  let el := s.elim.getD ess
  let A := eliminated s.K el
  let phi := P F.n A (formRhs s.K A ess phi0 rhod) phi0
  let e := fun i => -(F.grad.mulVec phi i)
  let ed := (F.mixed s.eps).mulVec e
  let d := P F.nd F.massD ed s.sol.d
  .ok { s with elim := some el, sol := { phi := phi, e := e, d := d } }

/-- `setDirichletConditions` (ElectrostaticSolver.cpp:279-282). -/
def setDirichletConditions (s : Solver F) (dbcs : AttrToValueMap 𝕜) : Solver F :=
  { s with params := { s.params with dirichletBoundaries := dbcs } }

/-- `setNeumannCondition` (ElectrostaticSolver.cpp:284-293). -/
def setNeumannCondition (s : Solver F) (attr : Int) (density : 𝕜 × 𝕜 → 𝕜) : Outcome (Solver F) := do
  let bdrMax ← arrayMax F.bdrAttrs
  if 1 ≤ attr ∧ attr ≤ bdrMax then .ok { s with sigma := F.projectBdr density attr s.sigma }
  else .ub

/-- `getSolution` (ElectrostaticSolver.cpp:447-454). -/
def getSolution (s : Solver F) : SolverSolution F := { phi := s.sol.phi, e := s.sol.e, d := s.sol.d }

/-- `setSolution` (ElectrostaticSolver.cpp:456-461). -/
def setSolution (s : Solver F) (t : SolverSolution F) : Solver F :=
  { s with sol := { phi := t.phi, e := t.e, d := t.d } }

/-- `getTotalCharge` (ElectrostaticSolver.cpp:295-301). -/
def getTotalCharge (s : Solver F) : 𝕜 := F.flux (fun _ => true) (fun _ => 1) s.sol.d

/-- `getChargeInBoundary` (ElectrostaticSolver.cpp:463-468). -/
def getChargeInBoundary (s : Solver F) (attr : Int) : 𝕜 :=
  F.flux (fun a => a = attr) (fun _ => -1) s.sol.d

/-- `chargedBoundaries` (ElectrostaticSolver.cpp:310-316). -/
def chargedBoundaries (s : Solver F) : List Int :=
  SMap.keys s.params.dirichletBoundaries ++ SMap.keys s.params.neumannBoundaries

/-- `getChargeMomentComponent` (ElectrostaticSolver.cpp:303-347). -/
def getChargeMomentComponent (A : Analytic 𝕜) (s : Solver F) (n d : Nat) (center : 𝕜 × 𝕜) : 𝕜 :=
  if n = 0 then
    if d = 0 then s.chargedBoundaries.foldl (fun q b => q + s.getChargeInBoundary b) 0 else 0
  else
    F.flux (fun a => s.chargedBoundaries.contains a) (fun x => -1 * A.moment x n d center) s.sol.d

variable [DecidableEq 𝕜]

/-- `getCenterOfCharge` (ElectrostaticSolver.cpp:349-369). -/
def getCenterOfCharge (A : Analytic 𝕜) (s : Solver F) : Outcome (𝕜 × 𝕜) :=
  match s.params.openBoundaries with
  | [openBoundaryAttr] => do
    let Q := s.getTotalCharge - s.getChargeInBoundary openBoundaryAttr
    let x ← divide (s.getChargeMomentComponent A 1 0 (0, 0)) Q
    let y ← divide (s.getChargeMomentComponent A 1 1 (0, 0)) Q
    .ok (x, y)
  | _ => .throw (.runtimeError "Not implemented for closed problems.")

/-- `getMultipolarCoefficients` (ElectrostaticSolver.cpp:371-386); `order` is the `int` the driver passes,
converted to `std::size_t`: -1 gives an empty vector, other negative values a vector longer than
`max_size()`. -/
def getMultipolarCoefficients (A : Analytic 𝕜) (s : Solver F) (order : Int) : Outcome (List (𝕜 × 𝕜)) := do
  let c ← s.getCenterOfCharge A
  if order < -1 then .throw .lengthError
  else .ok ((List.range (order + 1).toNat).map (fun n =>
    (s.getChargeMomentComponent A n 0 c, s.getChargeMomentComponent A n 1 c)))

/-- `getAveragePotentialInDomain` (ElectrostaticSolver.cpp:470-493). -/
def getAveragePotentialInDomain (s : Solver F) (attr : Int) : Outcome 𝕜 :=
  divide (F.domInt attr s.sol.phi) (F.domInt attr (fun _ => 1))

/-- `getAveragePotentialInBoundary` (ElectrostaticSolver.cpp:495-507). -/
def getAveragePotentialInBoundary (s : Solver F) (attr : Int) : Outcome 𝕜 :=
  divide (F.bdrInt attr s.sol.phi) (F.bdrInt attr (fun _ => 1))

omit [DecidableEq 𝕜] in
/-- `getTotalEnergy` (ElectrostaticSolver.cpp:509-532). -/
def getTotalEnergy (s : Solver F) : Outcome 𝕜 := do
  let maxAttr ← arrayMax F.domAttrs
  let eps ← epsLoop maxAttr s.params.domainPermittivities (fun _ => 1)
  .ok ((2 : 𝕜)⁻¹ * ∑ i, s.sol.e i * (F.massE eps).mulVec s.sol.e i)

end Solver
end
end Tulip
