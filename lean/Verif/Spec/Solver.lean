import Verif.Model.Solver

/-!
# Specification vocabulary for the electrostatic solver
-/

namespace Tulip.Spec
open Matrix
variable {𝕜 : Type _} [Field 𝕜]

/-- The linear solver returns a solution whenever the matrix is regular. -/
def ExactSolver (P : LinSolver 𝕜) : Prop :=
  ∀ (n : Nat) (A : Matrix (Fin n) (Fin n) 𝕜) (b x0 : Fin n → 𝕜), A.det ≠ 0 → A *ᵥ P n A b x0 = b

/-- `u` solves the discrete Dirichlet problem: it has the values `g` at the fixed degrees of freedom and
satisfies the equations `K u = b` at all others. -/
def DirichletSolution {n : Nat} (K : Matrix (Fin n) (Fin n) 𝕜) (fixed : Fin n → Prop) (g b u : Fin n → 𝕜) :
    Prop :=
  (∀ i, fixed i → u i = g i) ∧ ∀ i, ¬ fixed i → (K *ᵥ u) i = b i

/-- The discrete Dirichlet problem is regular: with zero data only the zero solution, and no zero on the
diagonal at the fixed degrees of freedom. -/
def Regular {n : Nat} (K : Matrix (Fin n) (Fin n) 𝕜) (fixed : Fin n → Prop) : Prop :=
  (∀ u, DirichletSolution K fixed (fun _ => 0) (fun _ => 0) u → u = fun _ => 0) ∧
    ∀ i, fixed i → K i i ≠ 0

/-- The map that prescribes `V a` on each attribute `a` of the list. -/
def prescribe (ks : List Int) (V : Int → 𝕜) : AttrToValueMap 𝕜 := ks.map (fun a => (a, V a))

/-- Degree of freedom `i` lies on the boundary with attribute `a`. -/
def OnBoundary (F : FEM 𝕜) (a : Int) (i : Fin F.n) : Prop := ∃ b ∈ F.bdrElems, b.1 = a ∧ i ∈ b.2

/-- Consistency of what MFEM reports: boundary elements have positive attributes listed in
`bdr_attributes`. -/
def ValidBoundary (F : FEM 𝕜) : Prop := (∀ b ∈ F.bdrElems, b.1 ∈ F.bdrAttrs) ∧ ∀ a ∈ F.bdrAttrs, 1 ≤ a

/-- Constants are represented exactly: nodal basis functions add up to 1 and their gradients to 0, and the
discrete gradient of a constant is 0. -/
structure RepresentsConstants (F : FEM 𝕜) : Prop where
  dom : ∀ q ∈ F.dom, ∑ i, q.N i = 1
  bdr : ∀ q ∈ F.bdr, ∑ i, q.N i = 1
  gradN : ∀ q ∈ F.dom, ∑ i, (q.gradN i).1 = 0 ∧ ∑ i, (q.gradN i).2 = 0
  grad : F.grad *ᵥ (fun _ => 1) = fun _ => 0

/-- One call on a solver object. -/
inductive SolverOp {𝕜 : Type _} (F : FEM 𝕜) where
  | setDirichlet (v : AttrToValueMap 𝕜)
  | setNeumann (attr : Int) (density : 𝕜 × 𝕜 → 𝕜)
  | solve
  | setSolution (t : SolverSolution F)

/-- Effect of a call. -/
def SolverOp.apply {F : FEM 𝕜} (P : LinSolver 𝕜) (s : Solver F) : SolverOp F → Outcome (Solver F)
  | .setDirichlet v => .ok (s.setDirichletConditions v)
  | .setNeumann a f => s.setNeumannCondition a f
  | .solve => s.solve P
  | .setSolution t => .ok (s.setSolution t)

/-- Effect of a sequence of calls. -/
def runOps {F : FEM 𝕜} (P : LinSolver 𝕜) : List (SolverOp F) → Solver F → Outcome (Solver F)
  | [], s => .ok s
  | op :: ops, s => do
    let s ← op.apply P s
    runOps P ops s

/-- The call never leaves the solver without prescribed boundaries. -/
def SolverOp.KeepsDirichlet {F : FEM 𝕜} : SolverOp F → Prop
  | .setDirichlet v => v ≠ []
  | _ => True

end Tulip.Spec
