import Verif.Props.ElementPlates
import Verif.Props.TriangleExamples
import Verif.Props.RegionExamples

/-!
# C90, C91: the plate capacitor and the chambers at the default order
-/

namespace Tulip.Props
open Tulip Tulip.Spec Matrix

/-- an engine with these elements -/
noncomputable def shapesEngine {T : Triangulation ℚ} (S : Shapes T) (Q : Rule ℚ) : Engine ℚ :=
  { chainEngine with disc := fun _ _ => T.femWith S Q }

/-- Elements of order 3 on the mesh of the capacitor. -/
theorem plates_elements : ∃ S : Shapes plates, Elements S 3 := elements_exist plates_proper (by norm_num)

/-- The hypotheses of `C91_plates` hold for the capacitor at the default order: `C = eps0 * 8/17`, `L = mu0 * 3/2`. -/
example : ∃ (E : Engine ℚ) (d : _) (p : PULParameters ℚ), (Driver.construct E plateModel {}).1 = .ok d ∧
    (Query.pulMTL.exec E d).1 = .ok (.pul p) ∧
    p.C = DMat.ofMatrix !![1 / 7 * (8 / 17)] ∧ p.L = DMat.ofMatrix !![5 * (3 / 2)] := by
  obtain ⟨S, hS⟩ := plates_elements
  obtain ⟨d, p, h1, h2, h3, h4⟩ := C91_plates (shapesEngine S (cubicRule ℚ)) (model := plateModel) (opts := {}) (p := 3) rfl rfl rfl
    hS (cubicRule_adequate le_rfl) cubicRule_exact
    inverseSolver_exact plate_numbering plates_proper plates_conforming plates_measured
    (by unfold IsVertex; decide +kernel) plates_sensible rfl plates_parallel plates_depth
  refine ⟨_, d, p, h1, h2, ?_, ?_⟩
  · rw [h3]
    have : boundaryLength plates 2 / plateDepth 3 = 8 / 17 := by decide +kernel
    exact congrArg (fun x => DMat.ofMatrix !![(1 / 7 : ℚ) * x]) this
  · rw [h4]
    have : ((3 : ℚ) - 0) / boundaryLength plates 2 = 3 / 2 := by decide +kernel
    exact congrArg (fun x => DMat.ofMatrix !![(5 : ℚ) * x]) this

/-- The chambers at any order. -/
theorem chambers_elements {r : ℚ} (hr : 0 < r) {p : Nat} (hp : 1 ≤ p) : ∃ S : Shapes chambers,
    ElementCase (shapesEngine S (gridRule ℚ p)) S (gridRule ℚ p) p (chamberModel r) { solverOptions := { order := p } } chamberPecs := by
  obtain ⟨S, hS⟩ := elements_exist chambers_proper hp
  have h := chambers_case hr
  exact ⟨S, { mesh := rfl, order := rfl, disc := rfl, elements := hS, rule := gridRule_adequate p, solver := inverseSolver_exact
              numbering := h.numbering, proper := h.proper, sensible := h.sensible, joined := h.joined, apart := h.apart
              absorb := fun s _ ⟨o, ho, _⟩ => by cases ho }⟩

/-- The hypotheses of `C90_orders` hold for the chambers at order 7. -/
example : ∃ (E : Engine ℚ) (d : _) (M : Matrix (Fin 3) (Fin 3) ℚ),
    (Driver.construct E (chamberModel 4) { solverOptions := { order := 7 } }).1 = .ok d ∧
    ((Query.generalizedC false).exec E d).1 = .ok (.matrix (DMat.ofMatrix M)) ∧ M.IsSymm := by
  obtain ⟨S, h⟩ := chambers_elements (r := 4) (by norm_num) (p := 7) (by norm_num)
  obtain ⟨_, _, d, hd, h2⟩ := C90_orders _ h
  obtain ⟨M, e, hs, _⟩ := h2 false .closed rfl (by decide)
  exact ⟨_, d, M, hd, e, hs⟩

end Tulip.Props
