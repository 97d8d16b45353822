import Verif.Props.LimitExamples
import Verif.Proofs.EnergySplit

/-!
# C102: the fields found converge
-/

namespace Tulip.Props
open Tulip Tulip.Spec MeasureTheory Set

section
variable {T T' T0 : Triangulation ℝ} {mats : Materials ℝ} {ps : List (PEC ℝ)} {b : Bool} {V : Int → ℝ} {v w : ℝ × ℝ → ℝ} {L M : ℝ}

/-- **C102, part 1.** Two potentials whose energies are both near the least one have nearly the same field: the energy of
their difference is at most the sum of twice the excesses. So there is at most one field of least energy. -/
theorem C102_close (hm : ∀ d ∈ mats.dielectrics, 0 < d.relativePermittivity) (hv : Potential T mats V v) (hw : Potential T mats V w) :
    potentialEnergy T (declaredEps mats b) (fun x => v x - w x) ≤
      2 * (potentialEnergy T (declaredEps mats b) v - sInf (potentialEnergies T mats b V)) +
      2 * (potentialEnergy T (declaredEps mats b) w - sInf (potentialEnergies T mats b V)) := by
  obtain ⟨L, hL, h1⟩ := potential_slopes hv
  obtain ⟨M, hM, h2⟩ := potential_slopes hw
  have := csInf_le (energies_below hm T b V) ⟨_, potential_blend hv hw 2⁻¹, rfl⟩
  rw [energy_blend h1 h2 hL hM] at this
  linarith

end

section
variable {mats : Materials ℝ} {ps : List (PEC ℝ)}

/-- What fine runs find is near least energy. -/
theorem fine_finds (hN : Numbering mats ps) (hc : mats.openBoundaries = [])
    (hm : ∀ d ∈ mats.dielectrics, 0 < d.relativePermittivity) {T0 : Triangulation ℝ} (h0 : Embedded T0) (b : Bool) (V : Int → ℝ) (flatness : ℝ)
    {ε : ℝ} (hε : 0 < ε) :
    ∃ size > 0, ∀ (T : Triangulation ℝ) (A : Analytic ℝ) (P : LinSolver ℝ) (S : Shapes T) (Q : Rule ℝ) (p : Nat) (s : Solver (T.femWith S Q)),
      ExactSolver P → ClosedRun T A P mats b S Q p s → SameCrossSection T0 T → Fine T flatness size →
      ∃ u, Finds P mats s V u ∧ Potential T0 mats V u ∧
        potentialEnergy T0 (declaredEps mats b) u ≤ sInf (potentialEnergies T0 mats b V) + ε := by
  obtain ⟨δ, hδ, key⟩ := C101_converges hN hc hm h0 b V flatness hε
  refine ⟨δ, hδ, fun T A P S Q p s hP h hs hF => ?_⟩
  obtain ⟨W, e1, -, e3⟩ := key T A P S Q p s hP h hs hF
  obtain ⟨u, W', k1, k2, k3, k4⟩ := C101_energy hP hN hc h V
  obtain rfl := reports_unique e1 k2
  obtain ⟨L, hL, hsl⟩ := potential_slopes k3
  refine ⟨u, k1, potential_same (sameCrossSection_symm hs) k3, ?_⟩
  rw [← energy_same h.embedded.apart h0.apart (sameCrossSection_symm hs) _ hsl hL, ← k4]
  exact e3

/-- **C102, part 2.** The fields found on any two meshes of a cross-section that are fine enough differ as little as one wants,
in energy, whatever the orders, shape functions, quadrature rules and calls before. -/
theorem C102_fields (hN : Numbering mats ps) (hc : mats.openBoundaries = [])
    (hm : ∀ d ∈ mats.dielectrics, 0 < d.relativePermittivity) {T0 : Triangulation ℝ} (h0 : Embedded T0) (b : Bool) (V : Int → ℝ) (flatness : ℝ)
    {ε : ℝ} (hε : 0 < ε) :
    ∃ size > 0, ∀ (T T' : Triangulation ℝ) (A A' : Analytic ℝ) (P P' : LinSolver ℝ) (S : Shapes T) (S' : Shapes T') (Q Q' : Rule ℝ) (p p' : Nat)
      (s : Solver (T.femWith S Q)) (s' : Solver (T'.femWith S' Q')), ExactSolver P → ExactSolver P' → ClosedRun T A P mats b S Q p s →
      ClosedRun T' A' P' mats b S' Q' p' s' → SameCrossSection T0 T → SameCrossSection T0 T' → Fine T flatness size → Fine T' flatness size →
      ∃ u u', Finds P mats s V u ∧ Finds P' mats s' V u' ∧ potentialEnergy T0 (declaredEps mats b) (fun x => u x - u' x) ≤ ε := by
  obtain ⟨δ, hδ, key⟩ := fine_finds hN hc hm h0 b V flatness (show 0 < ε / 4 by linarith)
  refine ⟨δ, hδ, fun T T' A A' P P' S S' Q Q' p p' s s' hP hP' h h' hs hs' hF hF' => ?_⟩
  obtain ⟨u, e1, e2, e3⟩ := key T A P S Q p s hP h hs hF
  obtain ⟨u', e1', e2', e3'⟩ := key T' A' P' S' Q' p' s' hP' h' hs' hF'
  refine ⟨u, u', e1, e1', (C102_close hm e2 e2').trans ?_⟩
  linarith

/-- **C102, part 3.** If the cross-section has a potential of least energy, the fields found on fine meshes converge to its
field. -/
theorem C102_solution (hN : Numbering mats ps) (hc : mats.openBoundaries = [])
    (hm : ∀ d ∈ mats.dielectrics, 0 < d.relativePermittivity) {T0 : Triangulation ℝ} (h0 : Embedded T0) (b : Bool) (V : Int → ℝ)
    {v : ℝ × ℝ → ℝ} (hv : Potential T0 mats V v) (hleast : ∀ W ∈ potentialEnergies T0 mats b V, potentialEnergy T0 (declaredEps mats b) v ≤ W)
    (flatness : ℝ) {ε : ℝ} (hε : 0 < ε) :
    ∃ size > 0, ∀ (T : Triangulation ℝ) (A : Analytic ℝ) (P : LinSolver ℝ) (S : Shapes T) (Q : Rule ℝ) (p : Nat) (s : Solver (T.femWith S Q)),
      ExactSolver P → ClosedRun T A P mats b S Q p s → SameCrossSection T0 T → Fine T flatness size →
      ∃ u, Finds P mats s V u ∧ potentialEnergy T0 (declaredEps mats b) (fun x => u x - v x) ≤ ε := by
  obtain ⟨δ, hδ, key⟩ := fine_finds hN hc hm h0 b V flatness (show 0 < ε / 2 by linarith)
  refine ⟨δ, hδ, fun T A P S Q p s hP h hs hF => ?_⟩
  obtain ⟨u, e1, e2, e3⟩ := key T A P S Q p s hP h hs hF
  have h1 := le_csInf (⟨_, v, hv, rfl⟩ : (potentialEnergies T0 mats b V).Nonempty) hleast
  refine ⟨u, e1, (C102_close hm e2 hv).trans ?_⟩
  linarith

end
end Tulip.Props
