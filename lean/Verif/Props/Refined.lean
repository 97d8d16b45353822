import Verif.Props.Order
import Verif.Proofs.Refined

/-!
# C98: refining the mesh does not raise the energy
-/

set_option linter.unusedSectionVars false

namespace Tulip.Props
open Tulip Tulip.Spec Matrix MvPolynomial

section
variable {𝕜 : Type} [Field 𝕜] [LinearOrder 𝕜] [IsStrictOrderedRing 𝕜] {T T' : Triangulation 𝕜} {S : Shapes T} {S' : Shapes T'}
  {Q Q' : Rule 𝕜} {p p' : Nat} {old : Fin T.nv → Fin T'.nv} {parent : Tri T'.nv → Tri T.nv}

/-- **C98.** Two solvers for the same closed model, one on a mesh `T` with elements of order `p`, the other on a refinement
`T'` of this mesh with elements of order `p' ≥ p`, whatever was done to them before (without surface charges): after solving
with the same potentials on the conductors, the one on the finer mesh does not report more energy; and reports the same
only if both have found the same potential. -/
theorem C98_refined {A A' : Analytic 𝕜} {P P' : LinSolver 𝕜} (hP : ExactSolver P) (hP' : ExactSolver P') {model model' : Model 𝕜}
    (hmats : model'.materials = model.materials) {ps : List (PEC 𝕜)} (hN : Numbering model.materials ps) (hp : 1 ≤ p) (hpp : p ≤ p')
    (h : Elements S p) (hS : Complete S p) (h' : Elements S' p') (hS' : Complete S' p') (hA : Adequate Q p) (hA' : Adequate Q' p')
    (hQ : ExactRule Q (2 * p)) (hQ' : ExactRule Q' (2 * p)) (hT : Proper T) (hT' : Proper T') (hconf : Conforming T)
    (href : Refines T T' old parent)
    (hm : Sensible T model.materials) (hj : JoinedToConductors T model.materials) (ha : ConductorsApart T model.materials)
    (hm' : Sensible T' model.materials) (hj' : JoinedToConductors T' model.materials) (ha' : ConductorsApart T' model.materials)
    (hc : model.materials.openBoundaries = []) {b : Bool} {inp inp' : SolverInputs 𝕜}
    (hin : buildSolverInputsFromModel model b = .ok inp) (hin' : buildSolverInputsFromModel model' b = .ok inp')
    {hist : List (SolverOp (T.femWith S Q))} {s : Solver (T.femWith S Q)}
    (hs : Reaches A P inp hist s) (hq : ∀ i, imposed (T.femWith S Q) (surfaceCharges inp hist) i = 0)
    {hist' : List (SolverOp (T'.femWith S' Q'))} {s' : Solver (T'.femWith S' Q')} (hs' : Reaches A' P' inp' hist' s')
    (hq' : ∀ i, imposed (T'.femWith S' Q') (surfaceCharges inp' hist') i = 0) (V : Int → 𝕜) :
    ∃ (s1 : Solver (T.femWith S Q)) (s1' : Solver (T'.femWith S' Q')) (W W' : 𝕜),
      (s.setDirichletConditions (prescribe (model.materials.pecs.map PEC.tag) V)).solve P = .ok s1 ∧
      (s'.setDirichletConditions (prescribe (model.materials.pecs.map PEC.tag) V)).solve P' = .ok s1' ∧
      s1.getTotalEnergy = .ok W ∧ s1'.getTotalEnergy = .ok W' ∧ 0 ≤ W' ∧ W' ≤ W ∧
      (W' = W → SameFunction T T' parent (fun t => ∑ i : Fin S.n, C (s1.getSolution.phi i) * S.N t i)
        (fun t => ∑ i : Fin S'.n, C (s1'.getSolution.phi i) * S'.N t i)) := by
  obtain ⟨s1, W, e1, e2, -, e4, e5⟩ := solve_energy hP hN hp h hS hA hT hm hj ha hc hin hs hq V
  have := solve_energy hP' (model := model') (hmats ▸ hN) (hp.trans hpp) h' hS' hA' hT' (hmats ▸ hm') (hmats ▸ hj') (hmats ▸ ha')
    (hmats ▸ hc) hin' hs' hq' V
  rw [hmats] at this
  obtain ⟨s1', W', e1', e2', e3', e4', e5'⟩ := this
  obtain ⟨k1, k2⟩ := galerkin_refined hpp hp hT hT' hconf href hA' hm.permittivities hc hQ hQ' e4 e4'
  refine ⟨s1, s1', W, W', e1, e1', e2, e2', e3', ?_, fun e => ?_⟩
  · rw [e5, e5']
    exact mul_le_mul_of_nonneg_left k1 (inv_nonneg.mpr two_pos.le)
  · rw [e5, e5'] at e
    have hg := k2 (mul_left_cancel₀ (inv_ne_zero two_ne_zero) e)
    -- with the same gradients the coarse potential also solves the problem on the fine mesh
    have hopen : OpenAbsorb A' T' model.materials := fun s _ ⟨o, ho, _⟩ => by rw [hc] at ho; cases ho
    have hG : GalerkinField T' A' Q' p' model.materials b V (restrict T T' parent (nodalComb S s1.getSolution.phi))
        (fluxComb S' s1'.getSolution.d) := by
      refine ⟨(restrict_piecewise hT hT' href e4.potential).mono hpp,
        fun c hc => restrict_constant hT hT' href (e4.conductors c hc), fun R hR hR0 => ?_, e4'.displacement, fun G hG => ?_⟩
      · have := e4'.equations R hR hR0
        rw [fieldProduct_congr (fun _ _ => rfl) hg]
        have habs : ∀ P' : Tri T'.nv → MvPolynomial (Fin 2) 𝕜,
            absorbed T' A' Q' (model.materials.openBoundaries.map OpenBoundary.tag) R P' = 0 := by
          intro P'
          rw [hc]
          simp [absorbed]
        rw [habs] at this ⊢
        exact this
      · rw [e4'.projection G hG]
        exact congrArg Neg.neg (fieldProduct_congr (fun _ _ => rfl) fun t ht => (hg t ht).symm)
    intro t ht x x' hx
    have heq := ((C94_field (hp.trans hpp) h' hS' hA' hT' hm' hj' ha' hopen b V).2.2 _ _ _ _ e4' hG t ht).1
    exact (congrArg (eval x') heq).trans (restrict_same hT href _ t ht x x' hx)

end
end Tulip.Props
