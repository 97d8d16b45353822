import Verif.Props.Multipolar
import Verif.Proofs.Fields

/-!
# C54, C55, C69: charges and their moments, in terms of the specification `Spec/Fields.lean`
-/

namespace Tulip.Props
open Tulip Tulip.Spec

section general
variable {𝕜 : Type _} [Field 𝕜] {F : FEM 𝕜}

theorem charged_eq (s : Solver F) : s.chargedBoundaries = chargedAttrs s.params := rfl

theorem scalarAt_flux (q : BdrPt 𝕜 F.n F.nd) (d : Fin F.nd → 𝕜) : pointFlux q d = scalarAt q.fl d :=
  Finset.sum_congr rfl (fun _ _ => mul_comm _ _)

theorem moment_eq (A : Analytic 𝕜) (s : Solver F) {n : Nat} (hn : n ≠ 0) (d : Nat) (c : 𝕜 × 𝕜) :
    s.getChargeMomentComponent A n d c =
      ((pointCharges F s.getSolution.d (chargedAttrs s.params)).map (fun q => q.1 * A.moment q.2 n d c)).sum := by
  unfold Solver.getChargeMomentComponent
  rw [if_neg hn, flux_eq]
  unfold pointCharges
  rw [List.map_map]
  have hf : F.bdr.filter (fun q => s.chargedBoundaries.contains q.attr) =
      F.bdr.filter (fun q => decide (q.attr ∈ chargedAttrs s.params)) := by
    apply List.filter_congr
    intro q _
    rw [charged_eq, Bool.eq_iff_iff]
    simp
  rw [hf]
  congr 1
  apply List.map_congr_left
  intro q _
  simp only [Function.comp, scalarAt_flux]
  show _ = -scalarAt q.fl s.sol.d * _
  ring

theorem net_eq [DecidableEq 𝕜] (s : Solver F) (hnd : (chargedAttrs s.params).Nodup) :
    ((chargedAttrs s.params).map s.getChargeInBoundary).sum =
      ((pointCharges F s.getSolution.d (chargedAttrs s.params)).map Prod.fst).sum := by
  have h := netCharge_eq s hnd
  unfold netCharge at h
  rw [charged_eq] at h
  rw [h, flux_eq]
  unfold pointCharges
  rw [List.map_map]
  have hf : F.bdr.filter (fun q => (chargedAttrs s.params).contains q.attr) =
      F.bdr.filter (fun q => decide (q.attr ∈ chargedAttrs s.params)) := by
    apply List.filter_congr
    intro q _
    rw [Bool.eq_iff_iff]
    simp
  rw [hf]
  congr 1
  apply List.map_congr_left
  intro q _
  simp only [Function.comp, scalarAt_flux]
  show _ = -scalarAt q.fl s.sol.d
  ring

theorem total_eq (s : Solver F) : s.getTotalCharge = (F.bdr.map (fun q => scalarAt q.fl s.getSolution.d)).sum := by
  unfold Solver.getTotalCharge
  rw [flux_eq, List.filter_eq_self.mpr (fun _ _ => rfl)]
  congr 1
  apply List.map_congr_left
  intro q _
  rw [one_mul, scalarAt_flux]
  rfl

/-- **C69, moments.** The moments of order 1 and higher are those of the charges on the boundaries with a prescribed
potential or surface charge, one line charge per quadrature point; the first component of order 0 is the sum of the
charges of these boundaries (their total charge if none is listed twice), the other is 0. -/
theorem C69_moments [DecidableEq 𝕜] (A : Analytic 𝕜) (s : Solver F) (c : 𝕜 × 𝕜) :
    (∀ n d, n ≠ 0 → s.getChargeMomentComponent A n d c =
      ((pointCharges F s.getSolution.d (chargedAttrs s.params)).map (fun q => q.1 * A.moment q.2 n d c)).sum) ∧
    s.getChargeMomentComponent A 0 0 c = ((chargedAttrs s.params).map s.getChargeInBoundary).sum ∧
    ((chargedAttrs s.params).Nodup → s.getChargeMomentComponent A 0 0 c =
      ((pointCharges F s.getSolution.d (chargedAttrs s.params)).map Prod.fst).sum) ∧
    s.getChargeMomentComponent A 0 1 c = 0 := by
  have h0 : s.getChargeMomentComponent A 0 0 c = ((chargedAttrs s.params).map s.getChargeInBoundary).sum := by
    unfold Solver.getChargeMomentComponent
    rw [if_pos rfl, if_pos rfl, foldl_add_eq_sum, zero_add]
    rfl
  exact ⟨fun n d hn => moment_eq A s hn d c, h0, fun hnd => h0.trans (net_eq s hnd), rfl⟩

/-- **C55.** Let `o` be the only open boundary, not prescribed itself, no boundary prescribed twice, and all flux
through other boundaries zero. If the total outward flux of D vanishes and the net charge does not,
`getCenterOfCharge` returns a point about which the dipole moment of the charges vanishes; the coefficients of every
order start with the net charge, followed by zeros at order 1. -/
theorem C55_center [DecidableEq 𝕜] (A : Analytic 𝕜) (hA : FirstMoments A) (s : Solver F) (o : Int)
    (ho : s.params.openBoundaries = [o]) (hoc : o ∉ chargedAttrs s.params) (hnd : (chargedAttrs s.params).Nodup)
    (hcov : ∀ q ∈ F.bdr, q.attr ∈ chargedAttrs s.params ∨ q.attr = o ∨ scalarAt q.fl s.getSolution.d = 0)
    (hgauss : (F.bdr.map (fun q => scalarAt q.fl s.getSolution.d)).sum = 0)
    (hQ : ((pointCharges F s.getSolution.d (chargedAttrs s.params)).map Prod.fst).sum ≠ 0) :
    ∃ c, s.getCenterOfCharge A = .ok c ∧
      ((pointCharges F s.getSolution.d (chargedAttrs s.params)).map (fun q => q.1 * (q.2.1 - c.1))).sum = 0 ∧
      ((pointCharges F s.getSolution.d (chargedAttrs s.params)).map (fun q => q.1 * (q.2.2 - c.2))).sum = 0 ∧
      ∀ order : Nat, ∃ ab, s.getMultipolarCoefficients A order = .ok ab ∧ ab.length = order + 1 ∧
        ab[0]? = some (((pointCharges F s.getSolution.d (chargedAttrs s.params)).map Prod.fst).sum, 0) ∧
        (1 ≤ order → ab[1]? = some (0, 0)) := by
  obtain ⟨c, h1, h2, h3, h4, h5⟩ := center_state A hA s o ho hoc hnd
    (fun q hq => (hcov q hq).imp id (fun h => h.imp id (fun h => (scalarAt_flux q _).trans h)))
    ((total_eq s).trans hgauss) (by rw [charged_eq, net_eq s hnd]; exact hQ)
  refine ⟨c, h1, ?_, ?_, ?_⟩
  · rw [moment_eq A s one_ne_zero] at h2
    simpa only [(hA _ _).1] using h2
  · rw [moment_eq A s one_ne_zero] at h3
    simpa only [(hA _ _).2] using h3
  · rw [charged_eq, net_eq s hnd] at h5
    exact h5

/-- **C55, without Gauss' law.** The centre returned is the dipole moment divided by `Q + 2 T`, with `Q` the net
charge and `T` the total outward flux: biased unless the discrete total flux is exactly zero. -/
theorem C55_bias [DecidableEq 𝕜] (A : Analytic 𝕜) (hA : FirstMoments A) (s : Solver F) (o : Int)
    (ho : s.params.openBoundaries = [o]) (hoc : o ∉ chargedAttrs s.params) (hnd : (chargedAttrs s.params).Nodup)
    (hcov : ∀ q ∈ F.bdr, q.attr ∈ chargedAttrs s.params ∨ q.attr = o) (c : 𝕜 × 𝕜)
    (hc : s.getCenterOfCharge A = .ok c) :
    let Q := ((pointCharges F s.getSolution.d (chargedAttrs s.params)).map Prod.fst).sum
    let T := (F.bdr.map (fun q => scalarAt q.fl s.getSolution.d)).sum
    c.1 * (Q + 2 * T) = ((pointCharges F s.getSolution.d (chargedAttrs s.params)).map (fun q => q.1 * q.2.1)).sum := by
  have h := bias_state A s o ho hoc hnd hcov c hc
  rw [charged_eq, net_eq s hnd, total_eq, moment_eq A s one_ne_zero] at h
  simpa only [(hA _ _).1, sub_zero] using h

end general

/-- the hypotheses of C55 hold for two boundaries, and the centre is the position of the charge -/
example : FirstMoments coords ∧ twoSolver.params.openBoundaries = [2] ∧ 2 ∉ chargedAttrs twoSolver.params ∧
    (chargedAttrs twoSolver.params).Nodup ∧
    (∀ q ∈ twoFEM.bdr, q.attr ∈ chargedAttrs twoSolver.params ∨ q.attr = 2) ∧
    (twoFEM.bdr.map (fun q => scalarAt q.fl twoSolver.getSolution.d)).sum = 0 ∧
    ((pointCharges twoFEM twoSolver.getSolution.d (chargedAttrs twoSolver.params)).map Prod.fst).sum ≠ 0 ∧
    twoSolver.getCenterOfCharge coords = .ok (3, 1) := by
  refine ⟨fun x c => ⟨rfl, rfl⟩, rfl, by decide, by decide, ?_, by decide +kernel, by decide +kernel,
    by decide +kernel⟩
  intro q hq
  rcases List.mem_cons.mp hq with rfl | hq
  · exact Or.inl (by decide)
  · rcases List.mem_cons.mp hq with rfl | hq
    · exact Or.inr rfl
    · cases hq

/-- **C54 for the solver.** If no boundary is prescribed twice, `getMultipolarCoefficients` gives coefficients whose
expansion about the centre of charge approximates the potential of the charges that the discrete field puts on the
prescribed boundaries, with the bound of C54 at every point farther from the centre than all of these boundaries. -/
theorem C54_solver {F : FEM ℝ} (s : Solver F) (hnd : (chargedAttrs s.params).Nodup) (c p : ℝ × ℝ)
    (hc : s.getCenterOfCharge realAnalytic = .ok c) (R : ℝ) (h0 : 0 ≤ R)
    (hR : ∀ q ∈ F.bdr, q.attr ∈ chargedAttrs s.params → ‖toC q.pos - toC c‖ ≤ R)
    (hp : R < ‖toC p - toC c‖) (N : ℕ) :
    ∃ ab x, s.getMultipolarCoefficients realAnalytic N = .ok ab ∧ Multipolar.multipolarExpansion p ab c = .ok x ∧
      |linePotential (pointCharges F s.getSolution.d (chargedAttrs s.params)) p - x| ≤
        ((pointCharges F s.getSolution.d (chargedAttrs s.params)).map (fun q => |q.1|)).sum / (2 * Real.pi) *
          ((R / ‖toC p - toC c‖) ^ (N + 1) / ((N + 1) * (1 - R / ‖toC p - toC c‖))) := by
  have h := solver_state s hnd c p hc R h0 hR hp N
  have e : solverCharges s = pointCharges F s.getSolution.d (chargedAttrs s.params) := by
    unfold solverCharges pointCharges
    have hf : F.bdr.filter (fun q => s.chargedBoundaries.contains q.attr) =
        F.bdr.filter (fun q => decide (q.attr ∈ chargedAttrs s.params)) := by
      apply List.filter_congr
      intro q _
      rw [charged_eq, Bool.eq_iff_iff]
      simp
    rw [hf]
    apply List.map_congr_left
    intro q _
    have := scalarAt_flux q s.sol.d
    unfold pointFlux at this
    rw [this]
    rfl
  rw [e] at h
  exact h

end Tulip.Props
