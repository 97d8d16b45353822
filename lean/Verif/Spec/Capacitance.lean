import Mathlib.LinearAlgebra.Matrix.Symmetric
import Mathlib.LinearAlgebra.Matrix.DotProduct
import Mathlib.Algebra.Order.Field.Basic
import Mathlib.Data.Fin.Tuple.Basic

/-!
# Specification vocabulary for capacitance matrices
-/

namespace Tulip.Spec
variable {𝕜 : Type _}

/-- Charges on the conductors at potentials `V`: the generalized capacitance matrix times `V`. -/
def charges [Field 𝕜] {n : Nat} (gC : Matrix (Fin n) (Fin n) 𝕜) (V : Fin n → 𝕜) : Fin n → 𝕜 :=
  gC.mulVec V

/-- `C` is the capacitance matrix of neutral operation: whenever the total charge is zero, the charges on
conductors 1..n are `C` applied to the potentials relative to conductor 0. -/
def NeutralCapacitance [Field 𝕜] {n : Nat} (gC : Matrix (Fin (n + 1)) (Fin (n + 1)) 𝕜)
    (C : Matrix (Fin n) (Fin n) 𝕜) : Prop :=
  ∀ V : Fin (n + 1) → 𝕜, ∑ i, charges gC V i = 0 →
    ∀ i : Fin n, charges gC V i.succ = C.mulVec (fun j => V j.succ - V 0) i

/-- Symmetric and positive semidefinite. -/
def PSD [Field 𝕜] [LinearOrder 𝕜] {n : Nat} (A : Matrix (Fin n) (Fin n) 𝕜) : Prop :=
  A.IsSymm ∧ ∀ x : Fin n → 𝕜, 0 ≤ x ⬝ᵥ A.mulVec x

/-- Symmetric and positive definite. -/
def PD [Field 𝕜] [LinearOrder 𝕜] {n : Nat} (A : Matrix (Fin n) (Fin n) 𝕜) : Prop :=
  A.IsSymm ∧ ∀ x : Fin n → 𝕜, x ≠ 0 → 0 < x ⬝ᵥ A.mulVec x

/-- Renumbering of the conductors other than 0. -/
def renumber {n : Nat} (σ : Equiv.Perm (Fin n)) : Fin (n + 1) → Fin (n + 1) :=
  Fin.cases 0 (fun i => (σ i).succ)

/-- The matrix after renumbering. -/
def renumbered {n : Nat} (σ : Equiv.Perm (Fin n)) (A : Matrix (Fin (n + 1)) (Fin (n + 1)) 𝕜) :
    Matrix (Fin (n + 1)) (Fin (n + 1)) 𝕜 := A.submatrix (renumber σ) (renumber σ)

/-- Potentials `v` when conductor `i` is at 1 V and all others are floating (carry no charge). -/
def FloatingPotentials [Field 𝕜] {n : Nat} (C : Matrix (Fin n) (Fin n) 𝕜) (i : Fin n) (v : Fin n → 𝕜) : Prop :=
  v i = 1 ∧ ∀ j, j ≠ i → charges C v j = 0

end Tulip.Spec
