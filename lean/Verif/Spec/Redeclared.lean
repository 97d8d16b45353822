import Verif.Spec.Driver

/-!
# Specification vocabulary: declaring the same materials in another way
-/

namespace Tulip.Spec
variable {𝕜 : Type}

/-- The same open boundaries and dielectrics, perhaps in another order and under other names. -/
structure Redeclared (mats mats' : Materials 𝕜) : Prop where
  opens : (mats'.openBoundaries.map OpenBoundary.tag).Perm (mats.openBoundaries.map OpenBoundary.tag)
  dielectrics : (mats'.dielectrics.map (fun d => (d.tag, d.relativePermittivity))).Perm
    (mats.dielectrics.map (fun d => (d.tag, d.relativePermittivity)))

/-- Conductor 0 keeps its number, conductor `i + 1` gets the boundary that conductor `σ i + 1` had. -/
structure Reassigned {n : Nat} (σ : Equiv.Perm (Fin n)) (ps ps' : List (PEC 𝕜)) : Prop where
  len : ps.length = n + 1
  len' : ps'.length = n + 1
  zero : (ps'[0]'(by omega)).tag = (ps[0]'(by omega)).tag
  succ : ∀ i : Fin n, (ps'[i.1 + 1]'(by have := i.2; omega)).tag = (ps[(σ i).1 + 1]'(by have := (σ i).2; omega)).tag

end Tulip.Spec
