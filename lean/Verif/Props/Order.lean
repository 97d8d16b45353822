import Verif.Props.Galerkin
import Verif.Props.Fields
import Verif.Proofs.Order

/-!
# C95: raising the order of the elements does not raise the energy
-/

set_option linter.unusedSectionVars false

namespace Tulip.Props
open Tulip Tulip.Spec Matrix MvPolynomial

section
variable {𝕜 : Type} [Field 𝕜] {T : Triangulation 𝕜} {S : Shapes T} {Q : Rule 𝕜}

theorem energy_product (eps : Int → 𝕜) (u : Fin S.n → 𝕜) :
    ((T.femWith S Q).dom.map (fun q => q.w * eps q.attr * ((vectorAt q.gradN u).1 ^ 2 + (vectorAt q.gradN u).2 ^ 2))).sum =
      fieldProduct T Q eps (fun t => T.gradient t (nodalComb S u t)) (fun t => T.gradient t (nodalComb S u t)) := by
  refine (dom_sum_with (S := S) eps (fun q => (vectorAt q.gradN u).1 ^ 2 + (vectorAt q.gradN u).2 ^ 2)).trans ?_
  unfold fieldProduct triIntegral
  refine congrArg List.sum (List.map_congr_left fun t _ => ?_)
  congr 1
  refine congrArg List.sum (List.map_congr_left fun r _ => ?_)
  rw [vectorAt_gradN, map_add, map_mul, map_mul, sq, sq]
  rfl

/-- The field the solver leaves is the field of the declared materials. -/
theorem isField_prescribed {F : FEM 𝕜} {mats : Materials 𝕜} {A : Analytic 𝕜} {ps : List (PEC 𝕜)} (hN : Numbering mats ps)
    (hW : WellDeclared mats) {b : Bool} {ch : List (Int × (𝕜 × 𝕜 → 𝕜))} (hq : ∀ i, imposed F ch i = 0) {V : Int → 𝕜}
    {t : SolverSolution F} (h : IsField A F (inputsOf mats b) ch (constants (prescribe (mats.pecs.map PEC.tag) V)) t) :
    PrescribedField A F mats b V t where
  values k c hk hc := by
    rw [h.values k ((inputs_prescribed hN b k).mpr hk)]
    obtain ⟨p, hp, hon⟩ := hk
    rw [imposed_const (a := p.tag) (List.mem_map_of_mem hp) hon, hc p hp hon]
    intro a ha hona
    obtain ⟨p', hp', rfl⟩ := List.mem_map.mp ha
    rw [hc p hp hon, hc p' hp' hona]
  equations k hk := by
    rw [← inputs_weak hW, h.equations k fun hp => by
      obtain ⟨p, hp, ho⟩ := (inputs_prescribed hN b k).mp hp
      exact hk p hp ho]
    rw [funext hq]
    unfold surfaceTerm scalarAt
    simp
  e := h.e
  d := by rw [← inputs_eps hW]; exact h.d

end

section
variable {𝕜 : Type} [Field 𝕜] [LinearOrder 𝕜] [IsStrictOrderedRing 𝕜] {T : Triangulation 𝕜} {S S' : Shapes T}
  {Q Q' : Rule 𝕜} {p p' : Nat}

/-- What one solve of a closed model at order `p` leaves: a field in the sense of C94 and its energy. -/
theorem solve_energy {A : Analytic 𝕜} {P : LinSolver 𝕜} (hP : ExactSolver P) {model : Model 𝕜} {ps : List (PEC 𝕜)}
    (hN : Numbering model.materials ps) (hp : 1 ≤ p) (h : Elements S p) (hS : Complete S p) (hA : Adequate Q p) (hT : Proper T)
    (hm : Sensible T model.materials) (hj : JoinedToConductors T model.materials) (ha : ConductorsApart T model.materials)
    (hc : model.materials.openBoundaries = []) {b : Bool} {inp : SolverInputs 𝕜}
    (hin : buildSolverInputsFromModel model b = .ok inp) {hist : List (SolverOp (T.femWith S Q))} {s : Solver (T.femWith S Q)}
    (hs : Reaches A P inp hist s) (hq : ∀ i, imposed (T.femWith S Q) (surfaceCharges inp hist) i = 0) (V : Int → 𝕜) :
    ∃ (s1 : Solver (T.femWith S Q)) (W : 𝕜),
      (s.setDirichletConditions (prescribe (model.materials.pecs.map PEC.tag) V)).solve P = .ok s1 ∧ s1.getTotalEnergy = .ok W ∧
      0 ≤ W ∧ GalerkinField T A Q p model.materials b V (nodalComb S s1.getSolution.phi) (fluxComb S s1.getSolution.d) ∧
      W = 2⁻¹ * fieldProduct T Q (declaredEps model.materials b) (fun t => T.gradient t (nodalComb S s1.getSolution.phi t))
        (fun t => T.gradient t (nodalComb S s1.getSolution.phi t)) := by
  have hW : WellDeclared model.materials := ⟨hm.names, hm.tags, hm.openNames⟩
  have hB : Buildable (T.femWith S Q) model.materials := elements_buildable hT hm
  have e : inp = inputsOf model.materials b := Outcome.ok.inj (hin.symm.trans (buildInputs_ok model hm.names b))
  subst e
  have hell : Elliptic A (T.femWith S Q) model.materials :=
    elements_elliptic h hT hA hm hj fun s _ ⟨o, ho, _⟩ => by rw [hc] at ho; cases ho
  have hR := inputs_regularly hN hB hW hell.wellPosed b
  have hks : model.materials.pecs.map PEC.tag ≠ [] := fun e => by
    have := hN.all.length_eq
    rw [List.map_eq_nil_iff.mp e] at this
    exact hN.nonempty (List.length_eq_zero_iff.mp this)
  have hkpos : ∀ a ∈ model.materials.pecs.map PEC.tag, 0 < a := fun a ha => by
    obtain ⟨c, hc, rfl⟩ := List.mem_map.mp ha
    have := hm.pecs c hc
    omega
  have hopen : (inputsOf model.materials b).openBoundaries = [] := by
    have := openTags_perm hW
    rw [hc] at this
    exact this.eq_nil
  have hdom : (T.femWith S Q).domAttrs ≠ [] := by
    obtain ⟨s, hs⟩ := List.exists_mem_of_ne_nil _ hT.boundary
    obtain ⟨t, ht, _⟩ := hT.segs s hs
    exact List.ne_nil_of_mem (List.mem_dedup.mpr (List.mem_map_of_mem ht))
  have hw : ∀ q ∈ (T.femWith S Q).dom, 0 ≤ q.w ∧ 0 ≤ epsOf (inputsOf model.materials b).domainPermittivities q.attr :=
    fun q hq => by
      rw [inputs_eps hW]
      exact ⟨(elements_weights hT hA q hq).le, (declaredEps_pos hm.permittivities b _).le⟩
  obtain ⟨s1, e1, f1, -⟩ := C66_discrete_problem A P hP _ hR hist s hs _ hks hkpos V
  obtain ⟨s1', W, e2, e3, e4, e5, -⟩ := C67_energy A P hP (C90_elements hT h hA).2.1 hdom _ hR hopen hw hist s hs hq _ hks hkpos V
  have : s1' = s1 := Outcome.ok.inj (e2.symm.trans e1)
  subst this
  have hf := isField_prescribed hN hW hq f1
  refine ⟨s1', W, e1, e3, e5, ?_, ?_⟩
  · exact (galerkin_iff (u := s1'.getSolution.phi) (d := s1'.getSolution.d) h hS hp hT (elements_separate h ha) hf.e).mp hf
  · rw [e4, inputs_eps hW]
    exact congrArg (2⁻¹ * ·) (energy_product _ s1'.getSolution.phi)

/-- **C95.** Two solvers for the same closed model on the same mesh, one with elements of order `p`, the other of order
`p' ≥ p`, whatever was done to them before (without surface charges): after solving with the same potentials on the
conductors the one of higher order does not report more energy; and reports the same only if both have found the
same potential. -/
theorem C95_order {A A' : Analytic 𝕜} {P P' : LinSolver 𝕜} (hP : ExactSolver P) (hP' : ExactSolver P') {model : Model 𝕜}
    {ps : List (PEC 𝕜)} (hN : Numbering model.materials ps) (hp : 1 ≤ p) (hpp : p ≤ p') (h : Elements S p) (hS : Complete S p)
    (h' : Elements S' p') (hS' : Complete S' p') (hA : Adequate Q p) (hA' : Adequate Q' p') (hQ : SameIntegrals Q Q' (2 * p))
    (hT : Proper T) (hm : Sensible T model.materials) (hj : JoinedToConductors T model.materials)
    (ha : ConductorsApart T model.materials) (hc : model.materials.openBoundaries = []) {b : Bool} {inp : SolverInputs 𝕜}
    (hin : buildSolverInputsFromModel model b = .ok inp) {hist : List (SolverOp (T.femWith S Q))} {s : Solver (T.femWith S Q)}
    (hs : Reaches A P inp hist s) (hq : ∀ i, imposed (T.femWith S Q) (surfaceCharges inp hist) i = 0)
    {hist' : List (SolverOp (T.femWith S' Q'))} {s' : Solver (T.femWith S' Q')} (hs' : Reaches A' P' inp hist' s')
    (hq' : ∀ i, imposed (T.femWith S' Q') (surfaceCharges inp hist') i = 0) (V : Int → 𝕜) :
    ∃ (s1 : Solver (T.femWith S Q)) (s1' : Solver (T.femWith S' Q')) (W W' : 𝕜),
      (s.setDirichletConditions (prescribe (model.materials.pecs.map PEC.tag) V)).solve P = .ok s1 ∧
      (s'.setDirichletConditions (prescribe (model.materials.pecs.map PEC.tag) V)).solve P' = .ok s1' ∧
      s1.getTotalEnergy = .ok W ∧ s1'.getTotalEnergy = .ok W' ∧ 0 ≤ W' ∧ W' ≤ W ∧
      (W' = W → ∀ t ∈ T.tris, ∑ i : Fin S'.n, C (s1'.getSolution.phi i) * S'.N t i = ∑ i : Fin S.n, C (s1.getSolution.phi i) * S.N t i) := by
  obtain ⟨s1, W, e1, e2, -, e4, e5⟩ := solve_energy hP hN hp h hS hA hT hm hj ha hc hin hs hq V
  obtain ⟨s1', W', e1', e2', e3', e4', e5'⟩ := solve_energy hP' hN (hp.trans hpp) h' hS' hA' hT hm hj ha hc hin hs' hq' V
  obtain ⟨k1, k2⟩ := galerkin_energy hpp hT hA' hm.permittivities hc hQ e4 e4'
  refine ⟨s1, s1', W, W', e1, e1', e2, e2', e3', ?_, fun e t ht => ?_⟩
  · rw [e5, e5']
    exact mul_le_mul_of_nonneg_left k1 (inv_nonneg.mpr two_pos.le)
  · rw [e5, e5'] at e
    have hg := k2 (mul_left_cancel₀ (inv_ne_zero two_ne_zero) e)
    -- with the same gradients the lower order potential also solves the problem of higher order
    have hopen : OpenAbsorb A' T model.materials := fun s _ ⟨o, ho, _⟩ => by rw [hc] at ho; cases ho
    have hG : GalerkinField T A' Q' p' model.materials b V (nodalComb S s1.getSolution.phi) (fluxComb S' s1'.getSolution.d) := by
      refine ⟨e4.potential.mono hpp, e4.conductors, fun R hR hR0 => ?_, e4'.displacement, fun G hG => ?_⟩
      · have := e4'.equations R hR hR0
        rw [fieldProduct_congr (fun _ _ => rfl) hg]
        have habs : ∀ P' : Tri T.nv → MvPolynomial (Fin 2) 𝕜,
            absorbed T A' Q' (model.materials.openBoundaries.map OpenBoundary.tag) R P' = 0 := by
          intro P'
          rw [hc]
          simp [absorbed]
        rw [habs] at this ⊢
        exact this
      · rw [e4'.projection G hG]
        exact congrArg Neg.neg (fieldProduct_congr (fun _ _ => rfl) fun t ht => (hg t ht).symm)
    exact ((C94_field (hp.trans hpp) h' hS' hA' hT hm hj ha hopen b V).2.2 _ _ _ _ e4' hG t ht).1

end
end Tulip.Props
