import Verif.Proofs.DriverCell
import Verif.Proofs.DriverReady

/-!
# In-cell results without dielectrics
-/

set_option linter.unusedSectionVars false

namespace Tulip
open Matrix Act Spec

variable {𝕜 : Type} [Field 𝕜] [DecidableEq 𝕜] {F : FEM 𝕜} {b : Bool} {ps : List (PEC 𝕜)}
  {sols : List (SolverSolution F)} {d : Driver F}

/-- The floating potentials of an open model as a function of the stored fields. -/
theorem getFloatingPotentialsMatrix_value (h : Ready b ps sols d) (ho : d.model.determineOpenness = .ok .open_) :
    (Driver.getFloatingPotentialsMatrix b d).1 =
      if ps.length = 1 then .ok (DMat.ofMatrix (fun _ _ : Fin ps.length => 1))
      else floatingFromC (DMat.ofMatrix (symPart (rawCharges ps sols h.len))) := by
  have hlen : d.model.materials.buildNameToAttrMapForPEC.length = ps.length := by
    rw [(pecMap_perm h.numbering.names_nodup).length_eq, List.length_map, h.numbering.all.length_eq]
  by_cases h1 : ps.length = 1
  · unfold Driver.getFloatingPotentialsMatrix
    rw [Act.read_bind, if_pos (hlen.trans h1), if_pos h1, ones_cast h1]
    rfl
  · have e0 : Driver.getFloatingPotentialsMatrix b d = ((do
        let C ← Driver.getGeneralizedCMatrix b
        Act.lift (floatingFromC C)) : Act F (DMat 𝕜)) d := by
      unfold Driver.getFloatingPotentialsMatrix
      rw [Act.read_bind, if_neg (by rw [hlen]; exact h1), ho, Act.lift_ok_bind]
    obtain ⟨d', e1, hf⟩ := getGeneralizedCMatrix_spec h ho (by rintro ⟨_, h⟩; cases h)
    rw [e0, Act.bind_ok e1, if_neg h1]
    rfl

end Tulip
