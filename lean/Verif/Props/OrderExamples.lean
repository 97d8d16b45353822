import Verif.Props.Order
import Verif.Props.ElementRegionExamples

/-!
# C95: the chambers at orders 1 and 5
-/

namespace Tulip.Props
open Tulip Tulip.Spec Matrix MvPolynomial

theorem adequate_mono {𝕜 : Type} [Field 𝕜] [LinearOrder 𝕜] {Q : Rule 𝕜} {p p' : Nat} (h : Adequate Q p') (hp : p ≤ p') : Adequate Q p :=
  ⟨h.tri, h.seg, fun P hP => h.determines P (hP.trans hp)⟩

/-- The hypotheses of `C95_order` hold for the chambers (two dielectrics, three conductors) at orders 1 and 5, for new
solvers. -/
example : ∃ (S S' : Shapes chambers) (Q : Rule ℚ) (inp : SolverInputs ℚ) (s : Solver (chambers.femWith S Q))
    (s' : Solver (chambers.femWith S' Q)), Elements S 1 ∧ Elements S' 5 ∧
    buildSolverInputsFromModel (chamberModel 4) false = .ok inp ∧
    Reaches noAnalytic inverseSolver inp [] s ∧ Reaches noAnalytic inverseSolver inp [] s' ∧
    ∀ V : Int → ℚ, ∃ (s1 : Solver (chambers.femWith S Q)) (s1' : Solver (chambers.femWith S' Q)) (W W' : ℚ),
      (s.setDirichletConditions (prescribe ((chamberModel 4).materials.pecs.map PEC.tag) V)).solve inverseSolver = .ok s1 ∧
      (s'.setDirichletConditions (prescribe ((chamberModel 4).materials.pecs.map PEC.tag) V)).solve inverseSolver = .ok s1' ∧
      s1.getTotalEnergy = .ok W ∧ s1'.getTotalEnergy = .ok W' ∧ W' ≤ W := by
  obtain ⟨S, hS, hC⟩ := complete_exist chambers_proper chambers_conforming (p := 1) (by norm_num)
  obtain ⟨S', hS', hC'⟩ := complete_exist chambers_proper chambers_conforming (p := 5) (by norm_num)
  have h := chambers_case (r := 4) (by norm_num)
  have hQ := gridRule_adequate (𝕜 := ℚ) 5
  obtain ⟨s, hs⟩ := make_ok (F := chambers.femWith S (gridRule ℚ 5)) h.numbering (elements_buildable h.proper h.sensible)
    noAnalytic false ⟨fun _ => 0, fun _ => 0, fun _ => 0⟩
  obtain ⟨s', hs'⟩ := make_ok (F := chambers.femWith S' (gridRule ℚ 5)) h.numbering (elements_buildable h.proper h.sensible)
    noAnalytic false ⟨fun _ => 0, fun _ => 0, fun _ => 0⟩
  have r : Reaches noAnalytic inverseSolver (inputsOf (chamberModel 4).materials false) [] s :=
    ⟨_, s, hs, rfl, fun _ h => by cases h⟩
  have r' : Reaches noAnalytic inverseSolver (inputsOf (chamberModel 4).materials false) [] s' :=
    ⟨_, s', hs', rfl, fun _ h => by cases h⟩
  have hin := buildInputs_ok (chamberModel 4) h.sensible.names false
  refine ⟨S, S', _, _, s, s', hS, hS', hin, r, r', fun V => ?_⟩
  obtain ⟨s1, s1', W, W', e1, e2, e3, e4, -, e5, -⟩ := C95_order inverseSolver_exact inverseSolver_exact h.numbering (by norm_num)
    (by norm_num) hS hC hS' hC' (adequate_mono hQ (by norm_num)) hQ ⟨fun _ _ _ => rfl, fun _ _ => rfl⟩ h.proper h.sensible h.joined
    h.apart rfl hin r (fun _ => rfl) r' (fun _ => rfl) V
  exact ⟨s1, s1', W, W', e1, e2, e3, e4, e5⟩

end Tulip.Props
