import Verif.Model.Solver

/-!
# The linear solver: `mfem::PCG` with `mfem::GSSmoother`

Both linear systems of `Solve` (ElectrostaticSolver.cpp:246-247, 271-272) are solved with preconditioned conjugate
gradients, at most 500 iterations, relative tolerance 1e-12, and a symmetric Gauss-Seidel sweep as preconditioner. The
sources of MFEM are not in the sandbox: the functions follow MFEM's published code (`SparseMatrix::Gauss_Seidel_forw`,
`Gauss_Seidel_back`, `GSSmoother::Mult`, `CGSolver::Mult`). Simplifications: exact arithmetic; the absolute tolerance
is one parameter (the code passes 0 for the potential and MFEM's default for D); squares of norms are compared (MFEM
squares the square roots of the tolerances); `converged` is not kept (the code does not read it); a zero on the
diagonal gives 0 (MFEM aborts).
-/

namespace Tulip
open Matrix
variable {𝕜 : Type _} [Field 𝕜]

/-- One equation of a Gauss-Seidel sweep: the value of `y i` that satisfies row `i` with the other values as they are
(preconditioner of ElectrostaticSolver.cpp:246, 271). -/
def gsStep {n : Nat} (A : Matrix (Fin n) (Fin n) 𝕜) (x y : Fin n → 𝕜) (i : Fin n) : Fin n → 𝕜 :=
  Function.update y i ((x i - ∑ j, if j = i then 0 else A i j * y j) / A i i)

/-- `GSSmoother::Mult` with one iteration and `iterative_mode == false` (preconditioner of ElectrostaticSolver.cpp:246,
271): from zero, a sweep in ascending and a sweep in descending order. -/
def gsSmooth {n : Nat} (A : Matrix (Fin n) (Fin n) 𝕜) (x : Fin n → 𝕜) : Fin n → 𝕜 :=
  (List.finRange n).reverse.foldl (gsStep A x) ((List.finRange n).foldl (gsStep A x) (fun _ => 0))

variable [LinearOrder 𝕜]

/-- Loop of `CGSolver::Mult` (called at ElectrostaticSolver.cpp:247, 272): `x` approximate solution, `r` residual, `d`
direction, `z` its image, `nom` and `den` the products of residual and preconditioned residual and of direction and
image, `stop` the bound at which to stop; the number counts the iterations left after this one. -/
def cgLoop {n : Nat} (A : Matrix (Fin n) (Fin n) 𝕜) (B : (Fin n → 𝕜) → Fin n → 𝕜) (stop : 𝕜) :
    Nat → (x r d z : Fin n → 𝕜) → (nom den : 𝕜) → Fin n → 𝕜
  | 0, x, _, d, _, nom, den => x + (nom / den) • d
  | k + 1, x, r, d, z, nom, den =>
    let x' := x + (nom / den) • d
    let r' := r - (nom / den) • z
    let z' := B r'
    let betanom := r' ⬝ᵥ z'
    if betanom < 0 then x'
    else if betanom ≤ stop then x'
    else
      let d' := z' + (betanom / nom) • d
      let Ad := A *ᵥ d'
      let den' := d' ⬝ᵥ Ad
      if den' = 0 then x' else cgLoop A B stop k x' r' d' Ad betanom den'

/-- `CGSolver::Mult` with `iterative_mode == true` (called at ElectrostaticSolver.cpp:247, 272): at most `maxIter`
iterations from the initial guess `x0`, until the product of residual and preconditioned residual is not more than
`rtol` times the initial one or `atol`. -/
def cgSolve {n : Nat} (B : (Fin n → 𝕜) → Fin n → 𝕜) (maxIter : Nat) (rtol atol : 𝕜) (A : Matrix (Fin n) (Fin n) 𝕜)
    (b x0 : Fin n → 𝕜) : Fin n → 𝕜 :=
  let r := b - A *ᵥ x0
  let d := B r
  let nom := d ⬝ᵥ r
  let stop := max (nom * rtol) atol
  if nom < 0 then x0
  else if nom ≤ stop then x0
  else
    let z := A *ᵥ d
    let den := z ⬝ᵥ d
    if den = 0 then x0 else cgLoop A B stop (maxIter - 1) x0 r d z nom den

/-- `PCG` with `GSSmoother` (ElectrostaticSolver.cpp:246-247, 271-272). -/
def mfemPCG (maxIter : Nat) (rtol atol : 𝕜) : LinSolver 𝕜 := fun _ A b x0 => cgSolve (gsSmooth A) maxIter rtol atol A b x0

end Tulip
