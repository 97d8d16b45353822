import Verif.Model.Driver
import Verif.Spec.Materials
import Verif.Spec.Fields

/-!
# Specification vocabulary for the driver
-/

namespace Tulip.Spec
variable {𝕜 : Type}

/-- `ps` lists the conductors of the model by number: every declared conductor occurs in it once, and the
number read from the name of its `i`-th entry is `i`. -/
structure Numbering (mats : Materials 𝕜) (ps : List (PEC 𝕜)) : Prop where
  all : ps.Perm mats.pecs
  ids : ∀ i (h : i < ps.length), getMaterialIdFromName ps[i].name = .ok (i : Int)
  nonempty : ps ≠ []

/-- What the solver needs from materials and mesh to be built: MFEM's boundary attributes are consistent,
tags of conductors and open boundaries are positive, tags of dielectrics are within the attributes of the
elements, dielectric names are not repeated. -/
structure Buildable (F : FEM 𝕜) (mats : Materials 𝕜) : Prop where
  bdr : ValidBoundary F
  bdrAttrs : F.bdrAttrs ≠ []
  points : ∀ q ∈ F.bdr, 1 ≤ q.attr
  pecs : ∀ p ∈ mats.pecs, 1 ≤ p.tag
  opens : ∀ o ∈ mats.openBoundaries, 1 ≤ o.tag
  names : (mats.dielectrics.map Dielectric.name).Nodup
  dielectrics : ∀ d ∈ mats.dielectrics, 1 ≤ d.tag ∧ ∃ a ∈ F.domAttrs, d.tag ≤ a

end Tulip.Spec

namespace Tulip.Spec
variable {𝕜 : Type} [Field 𝕜]

/-- Charge on the boundary with this tag in a given field: minus the outward flux of D through it. -/
def chargeOn {F : FEM 𝕜} (t : SolverSolution F) (tag : Int) : 𝕜 :=
  -outwardFlux F t.d tag

/-- Relative permittivity of the regions with this tag: the declared one, 1 where no dielectric is declared or
dielectrics are ignored. -/
def declaredEps (mats : Materials 𝕜) (ignoreDielectrics : Bool) (tag : Int) : 𝕜 :=
  if ignoreDielectrics then 1
  else match mats.dielectrics.find? (fun d => d.tag = tag) with
    | some d => d.relativePermittivity
    | none => 1

/-- Dielectrics have distinct names and tags, open boundaries have distinct names. -/
structure WellDeclared (mats : Materials 𝕜) : Prop where
  names : (mats.dielectrics.map Dielectric.name).Nodup
  tags : (mats.dielectrics.map Dielectric.tag).Nodup
  opens : (mats.openBoundaries.map OpenBoundary.name).Nodup

/-- `t` is the field with the conductor boundaries at the potentials `V` (by tag) and no other sources: the
potential has the prescribed value at the degrees of freedom on the conductors (where it is unambiguous), the
discrete equations hold at all others, E is minus the discrete gradient, D the projection of permittivity times
E. -/
structure PrescribedField (A : Analytic 𝕜) (F : FEM 𝕜) (mats : Materials 𝕜) (ignoreDielectrics : Bool)
    (V : Int → 𝕜) (t : SolverSolution F) : Prop where
  values : ∀ k c, (∃ p ∈ mats.pecs, OnBoundary F p.tag k) →
    (∀ p ∈ mats.pecs, OnBoundary F p.tag k → V p.tag = c) → t.phi k = c
  equations : ∀ k, (∀ p ∈ mats.pecs, ¬ OnBoundary F p.tag k) →
    weakForm A F (declaredEps mats ignoreDielectrics) (mats.openBoundaries.map OpenBoundary.tag) t.phi k = 0
  e : ∀ k, t.e k = -∑ i, F.grad k i * t.phi i
  d : Displacement F (declaredEps mats ignoreDielectrics) t.e t.d

/-- The discrete problems of the model are well posed, with and without dielectrics: with all conductors at 0 V the
only solution is 0, no diagonal coefficient of the equations vanishes at the degrees of freedom on the conductors, and
the projection of D is unique. -/
structure WellPosed (A : Analytic 𝕜) (F : FEM 𝕜) (mats : Materials 𝕜) : Prop where
  unique : ∀ (b : Bool) (u : Fin F.n → 𝕜), (∀ k, (∃ p ∈ mats.pecs, OnBoundary F p.tag k) → u k = 0) →
    (∀ k, ¬ (∃ p ∈ mats.pecs, OnBoundary F p.tag k) →
      weakForm A F (declaredEps mats b) (mats.openBoundaries.map OpenBoundary.tag) u k = 0) → ∀ k, u k = 0
  diagonal : ∀ (b : Bool) k, (∃ p ∈ mats.pecs, OnBoundary F p.tag k) →
    weakForm A F (declaredEps mats b) (mats.openBoundaries.map OpenBoundary.tag) (fun j => if j = k then 1 else 0) k ≠ 0
  projection : ProjectionUnique F

/-- Different conductors have no degree of freedom in common. -/
def Separate (F : FEM 𝕜) (mats : Materials 𝕜) : Prop :=
  ∀ p ∈ mats.pecs, ∀ q ∈ mats.pecs, ∀ k, OnBoundary F p.tag k → OnBoundary F q.tag k → p.tag = q.tag

/-- What makes the discrete problem elliptic: positive quadrature weights and permittivities, no negative absorbing
coefficient on the open boundaries, every node on a conductor in a basis function that is not constant, and basis
functions that determine their coefficients: a potential that vanishes on the conductors and has no gradient at the
quadrature points is 0, a flux that vanishes at the quadrature points is 0. -/
structure Elliptic [LinearOrder 𝕜] (A : Analytic 𝕜) (F : FEM 𝕜) (mats : Materials 𝕜) : Prop where
  weights : ∀ q ∈ F.dom, 0 < q.w
  permittivities : ∀ d ∈ mats.dielectrics, 0 < d.relativePermittivity
  opens : ∀ q ∈ F.bdr, (∃ o ∈ mats.openBoundaries, o.tag = q.attr) → 0 ≤ q.w * A.abc q.pos
  nodes : ∀ k, (∃ p ∈ mats.pecs, OnBoundary F p.tag k) → ∃ q ∈ F.dom, q.gradN k ≠ (0, 0)
  potentials : ∀ u : Fin F.n → 𝕜, (∀ k, (∃ p ∈ mats.pecs, OnBoundary F p.tag k) → u k = 0) →
    (∀ q ∈ F.dom, vectorAt q.gradN u = (0, 0)) → ∀ k, u k = 0
  fluxes : ∀ d : Fin F.nd → 𝕜, (∀ q ∈ F.dom, vectorAt q.R d = (0, 0)) → ∀ k, d k = 0

/-- 1 V on this tag, 0 V on all others. -/
def oneVolt (tag : Int) (a : Int) : 𝕜 := if a = tag then 1 else 0

/-- The files holding one field: one per enabled viewer, in `exportFolder/<viewer>/<name>`, with the suffix
`_no_dielectrics` when dielectrics are ignored. -/
def fieldFiles {F : FEM 𝕜} (opts : DriverOptions) (name : String) (ignoreDielectrics : Bool) (t : SolverSolution F) :
    List (Event 𝕜) :=
  let suffix := if ignoreDielectrics then "_no_dielectrics" else ""
  (if opts.exportParaViewSolution then [.field .paraView (opts.exportFolder ++ "/ParaView/" ++ name ++ suffix) F t]
    else []) ++
  (if opts.exportVisItSolution then [.field .visIt (opts.exportFolder ++ "/VisIt/" ++ name ++ suffix) F t] else [])

/-- The JSON files among what is written: path and content. -/
def jsonFiles (evs : List (Event 𝕜)) : List (String × Json 𝕜) :=
  evs.filterMap (fun | .json path content => some (path, content) | _ => none)

/-- The field files among what is written: path. -/
def fieldPaths (evs : List (Event 𝕜)) : List String :=
  evs.filterMap (fun | .field _ path _ _ => some path | _ => none)

/-- Path of a file in a folder. -/
def fileIn (folder name : String) : String :=
  if folder.toList.getLast? = some '/' then folder ++ name else folder ++ "/" ++ name

/-- The electric or the magnetic half of in-cell results. -/
def cellSide (ignoreDielectrics : Bool) (p : InCellPotentials 𝕜) : SMap Int (FieldReconstruction 𝕜) :=
  if ignoreDielectrics then p.magnetic else p.electric

/-- Boundary values that put conductor `j` at the potential `v j` and prescribe nothing else. -/
def ConductorsAt (ps : List (PEC 𝕜)) (v : Fin ps.length → 𝕜) (m : AttrToValueMap 𝕜) : Prop :=
  m.Sorted ∧ ∀ a x, SMap.find? m a = some x ↔ ∃ j : Fin ps.length, ps[j].tag = a ∧ x = v j

/-- The charge on conductor `j` in the field of conductor `i` is the one on conductor `i` in the field of conductor `j`. -/
def ReciprocalCharges [Field 𝕜] {F : FEM 𝕜} (ps : List (PEC 𝕜)) (fields : List (Option (SolverSolution F))) : Prop :=
  ∀ (i j : Fin ps.length) (t u : SolverSolution F), fields[i.1]? = some (some t) → fields[j.1]? = some (some u) →
    chargeOn t ps[j].tag = chargeOn u ps[i].tag

/-- Reciprocity: the charge on conductor `j` with conductor `i` at one volt is the one on `i` with `j` at one volt. -/
def Reciprocity (A : Analytic 𝕜) (F : FEM 𝕜) (mats : Materials 𝕜) (ignoreDielectrics : Bool) : Prop :=
  ∀ p ∈ mats.pecs, ∀ q ∈ mats.pecs, ∀ t u : SolverSolution F,
    PrescribedField A F mats ignoreDielectrics (oneVolt p.tag) t →
    PrescribedField A F mats ignoreDielectrics (oneVolt q.tag) u → chargeOn t q.tag = chargeOn u p.tag

/-- How a line is operated: closed ones with conductor 0 grounded, all others with zero total charge. -/
def Operated {F : FEM 𝕜} (o : Openness) (ps : List (PEC 𝕜)) (V : Int → 𝕜) (t : SolverSolution F) : Prop :=
  if o = .closed then ∀ p, ps[0]? = some p → V p.tag = 0 else (ps.map (fun p => chargeOn t p.tag)).sum = 0

/-- Public queries on a driver. -/
inductive Query where
  | generalizedC (ignoreDielectrics : Bool)
  | cMatrix
  | lMatrix
  | floatingMatrix (ignoreDielectrics : Bool)
  | floating
  | pulMTL
  | pulMTLByDomains
  | inCell
  | run
  | setExportFolder (folder : String)

/-- Queries answered from the generalized capacitance matrices alone. -/
inductive Query.FromMatrices : Query → Prop where
  | generalizedC (b : Bool) : FromMatrices (.generalizedC b)
  | cMatrix : FromMatrices .cMatrix
  | lMatrix : FromMatrices .lMatrix
  | floatingMatrix (b : Bool) : FromMatrices (.floatingMatrix b)
  | floating : FromMatrices .floating
  | pulMTL : FromMatrices .pulMTL

/-- Answers to queries. -/
inductive Answer (𝕜 : Type) where
  | matrix (M : DMat 𝕜)
  | floating (p : Tulip.FloatingPotentials 𝕜)
  | pul (p : PULParameters 𝕜)
  | pulByDomain (p : Driver.PULParametersByDomain 𝕜)
  | inCell (p : InCellPotentials 𝕜)
  | done

/-- Effect of a query. -/
noncomputable def Query.exec [DecidableEq 𝕜] [LinearOrder 𝕜] (E : Engine 𝕜) {F : FEM 𝕜} : Query → Act F (Answer 𝕜)
  | .generalizedC b => do let M ← Driver.getGeneralizedCMatrix b; pure (.matrix M)
  | .cMatrix => do let M ← Driver.getCMatrix; pure (.matrix M)
  | .lMatrix => do let M ← Driver.getLMatrix; pure (.matrix M)
  | .floatingMatrix b => do let M ← Driver.getFloatingPotentialsMatrix b; pure (.matrix M)
  | .floating => do let p ← Driver.getFloatingPotentials; pure (.floating p)
  | .pulMTL => do let p ← Driver.getPULMTL E; pure (.pul p)
  | .pulMTLByDomains => do let p ← Driver.getPULMTLByDomains E; pure (.pulByDomain p)
  | .inCell => do let p ← Driver.getInCellPotentials E; pure (.inCell p)
  | .run => do Driver.run E; pure .done
  | .setExportFolder folder => fun d => (.ok .done, d.setExportFolder folder, [])

/-- The export folder after a sequence of queries: the last one set. -/
def folderAfter : List Query → String → String
  | [], f => f
  | .setExportFolder g :: qs, _ => folderAfter qs g
  | _ :: qs, f => folderAfter qs f

/-- The driver after a sequence of queries, whether they succeed or throw. -/
noncomputable def afterQueries [DecidableEq 𝕜] [LinearOrder 𝕜] (E : Engine 𝕜) {F : FEM 𝕜} :
    List Query → Driver F → Driver F
  | [], d => d
  | q :: qs, d => afterQueries E qs (q.exec E d).2.1

end Tulip.Spec
