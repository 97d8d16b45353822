import Verif.Spec.Solver

/-!
# Specification of the discrete electrostatic problem

Written with the basis functions of the discretisation only: fields are expanded at the quadrature points and
integrals are sums over them.
-/

namespace Tulip.Spec
variable {𝕜 : Type _} [Field 𝕜]

/-- Value of the scalar field with coefficients `u` at a point where the basis has the values `B`. -/
def scalarAt {n : Nat} (B : Fin n → 𝕜) (u : Fin n → 𝕜) : 𝕜 := ∑ k, u k * B k

/-- Value of the vector field with coefficients `u` at a point where the basis has the values `B`. -/
def vectorAt {n : Nat} (B : Fin n → 𝕜 × 𝕜) (u : Fin n → 𝕜) : 𝕜 × 𝕜 :=
  (∑ k, u k * (B k).1, ∑ k, u k * (B k).2)

/-- Scalar product of plane vectors. -/
def inner2 (a b : 𝕜 × 𝕜) : 𝕜 := a.1 * b.1 + a.2 * b.2

/-- Weak form of `-div (eps grad u) = 0` with the absorbing boundary condition on the boundaries `opens`, tested
with nodal basis function `i`. -/
def weakForm (A : Analytic 𝕜) (F : FEM 𝕜) (eps : Int → 𝕜) (opens : List Int) (u : Fin F.n → 𝕜) (i : Fin F.n) : 𝕜 :=
  (F.dom.map (fun q => q.w * eps q.attr * inner2 (q.gradN i) (vectorAt q.gradN u))).sum +
  ((F.bdr.filter (fun q => q.attr ∈ opens)).map (fun q => q.w * A.abc q.pos * (q.N i * scalarAt q.N u))).sum

/-- Weak form of the surface charges `sigma`, tested with nodal basis function `i`. -/
def surfaceTerm (F : FEM 𝕜) (sigma : Fin F.n → 𝕜) (i : Fin F.n) : 𝕜 :=
  (F.bdr.map (fun q => q.w * (q.N i * scalarAt q.N sigma))).sum

/-- `d` is the projection of `eps` times `e`: both have the same integral against every test field. -/
def Displacement (F : FEM 𝕜) (eps : Int → 𝕜) (e : Fin F.ne → 𝕜) (d : Fin F.nd → 𝕜) : Prop :=
  ∀ k, (F.dom.map (fun q => q.w * inner2 (q.R k) (vectorAt q.R d))).sum =
    (F.dom.map (fun q => q.w * eps q.attr * inner2 (q.R k) (vectorAt q.W e))).sum

/-- The projection is unique: only 0 has zero integral against every test field. -/
def ProjectionUnique (F : FEM 𝕜) : Prop :=
  ∀ d : Fin F.nd → 𝕜, (∀ k, (F.dom.map (fun q => q.w * inner2 (q.R k) (vectorAt q.R d))).sum = 0) → ∀ k, d k = 0

/-- Outward flux of the field with coefficients `d` through the boundary with this attribute. -/
def outwardFlux (F : FEM 𝕜) (d : Fin F.nd → 𝕜) (attr : Int) : 𝕜 :=
  ((F.bdr.filter (fun q => q.attr = attr)).map (fun q => scalarAt q.fl d)).sum

/-- Integral of a potential over the elements with this attribute. -/
def domainIntegral (F : FEM 𝕜) (u : Fin F.n → 𝕜) (attr : Int) : 𝕜 :=
  ((F.dom.filter (fun q => q.attr = attr)).map (fun q => q.w * scalarAt q.N u)).sum

/-- Integral of a potential over the boundary elements with this attribute. -/
def boundaryIntegral (F : FEM 𝕜) (u : Fin F.n → 𝕜) (attr : Int) : 𝕜 :=
  ((F.bdr.filter (fun q => q.attr = attr)).map (fun q => q.w * scalarAt q.N u)).sum

/-- The charges that D puts on the boundaries `attrs`: one line charge at each of their quadrature points, equal to
minus the outward flux there. -/
def pointCharges (F : FEM 𝕜) (d : Fin F.nd → 𝕜) (attrs : List Int) : List (𝕜 × (𝕜 × 𝕜)) :=
  (F.bdr.filter (fun q => q.attr ∈ attrs)).map (fun q => (-scalarAt q.fl d, q.pos))

/-- The boundaries with a prescribed potential or a prescribed surface charge. -/
def chargedAttrs (p : SolverInputs 𝕜) : List Int :=
  p.dirichletBoundaries.map Prod.fst ++ p.neumannBoundaries.map Prod.fst

open Classical in
/-- Value imposed at a degree of freedom by a list of prescriptions (boundary, value as a function of the position):
the last one whose boundary it lies on; 0 if there is none. -/
noncomputable def imposed (F : FEM 𝕜) (l : List (Int × (𝕜 × 𝕜 → 𝕜))) (i : Fin F.n) : 𝕜 :=
  match l.reverse.find? (fun c => OnBoundary F c.1 i) with
  | some c => c.2 (F.node i)
  | none => 0

/-- Prescription of a constant on each boundary. -/
def constants (m : List (Int × 𝕜)) : List (Int × (𝕜 × 𝕜 → 𝕜)) := m.map (fun c => (c.1, fun _ => c.2))

/-- Relative permittivity of the regions with this attribute: the one listed, else 1. -/
def epsOf (m : AttrToValueMap 𝕜) (attr : Int) : 𝕜 := (SMap.find? m attr).getD 1

/-- Boundaries prescribed when the solver is built. -/
def Prescribed (F : FEM 𝕜) (p : SolverInputs 𝕜) (i : Fin F.n) : Prop :=
  ∃ a ∈ SMap.keys p.dirichletBoundaries, OnBoundary F a i

/-- Inputs that define a regular problem: some boundary is prescribed, the maps are maps, attributes are positive,
the equations with zero data have only the zero solution (with no zero on the diagonal at the prescribed degrees of
freedom), the projection of D is unique. -/
structure Regularly (A : Analytic 𝕜) (F : FEM 𝕜) (p : SolverInputs 𝕜) : Prop where
  boundary : ValidBoundary F
  points : ∀ q ∈ F.bdr, 1 ≤ q.attr
  some_ : p.dirichletBoundaries ≠ []
  positive : ∀ a ∈ SMap.keys p.dirichletBoundaries, 0 < a
  opens : ∀ a ∈ p.openBoundaries, 0 < a
  sorted : SMap.Sorted p.domainPermittivities
  unique : ∀ u : Fin F.n → 𝕜, (∀ i, Prescribed F p i → u i = 0) →
    (∀ i, ¬ Prescribed F p i → weakForm A F (epsOf p.domainPermittivities) p.openBoundaries u i = 0) → ∀ i, u i = 0
  diagonal : ∀ i, Prescribed F p i →
    weakForm A F (epsOf p.domainPermittivities) p.openBoundaries (fun k => if k = i then 1 else 0) i ≠ 0
  projection : ProjectionUnique F

/-- `s` is a solver built from `p` over whatever storage and put through the calls `hist`, none of which leaves it
without prescribed boundaries. -/
def Reaches (A : Analytic 𝕜) (P : LinSolver 𝕜) {F : FEM 𝕜} (p : SolverInputs 𝕜) (hist : List (SolverOp F))
    (s : Solver F) : Prop :=
  ∃ raw s0, Solver.make A F p raw = .ok s0 ∧ runOps P hist s0 = .ok s ∧ ∀ op ∈ hist, op.KeepsDirichlet

/-- Surface charges prescribed at construction and by later calls, in order. -/
def surfaceCharges {F : FEM 𝕜} (p : SolverInputs 𝕜) (hist : List (SolverOp F)) : List (Int × (𝕜 × 𝕜 → 𝕜)) :=
  constants p.neumannBoundaries ++ hist.filterMap (fun
    | .setNeumann a f => some (a, f)
    | _ => none)

/-- `t` is the field of the problem `p` with the surface charges `charges` and with the values `vals` on the
boundaries prescribed at construction. -/
structure IsField (A : Analytic 𝕜) (F : FEM 𝕜) (p : SolverInputs 𝕜) (charges vals : List (Int × (𝕜 × 𝕜 → 𝕜)))
    (t : SolverSolution F) : Prop where
  values : ∀ i, Prescribed F p i → t.phi i = imposed F vals i
  equations : ∀ i, ¬ Prescribed F p i → weakForm A F (epsOf p.domainPermittivities) p.openBoundaries t.phi i =
    surfaceTerm F (imposed F charges) i
  e : ∀ k, t.e k = -∑ i, F.grad k i * t.phi i
  d : Displacement F (epsOf p.domainPermittivities) t.e t.d

end Tulip.Spec
