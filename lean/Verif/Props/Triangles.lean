import Verif.Props.PUL
import Verif.Props.Energy
import Verif.Props.Uniqueness
import Verif.Proofs.Triangles

/-!
# C79: first-order elements on triangles
-/

set_option linter.unusedSectionVars false

namespace Tulip.Props
open Tulip Tulip.Spec Matrix

section
variable {𝕜 : Type} [Field 𝕜] [LinearOrder 𝕜] [IsStrictOrderedRing 𝕜] {T : Triangulation 𝕜} {mats : Materials 𝕜}
  {A : Analytic 𝕜}

/-- **C79, elements.** On every mesh of triangles with positive area, first-order elements represent constants exactly,
the discrete gradient is the gradient, and no non-zero flux vanishes at the integration points. -/
theorem C79_elements (h : Proper T) : RepresentsConstants T.fem ∧ ExactGradient T.fem ∧ ProjectionUnique T.fem := by
  refine ⟨fem_constants h.det_ne h.seg_ne two_ne_zero, fun q hq u => ?_, fun d hd => ?_⟩
  · have := fem_gradient h.det_ne two_ne_zero hq u
    exact ⟨congrArg Prod.fst this, congrArg Prod.snd this⟩
  · apply flux_determined h.det_ne two_ne_zero d
    have weights : ∀ q ∈ T.fem.dom, 0 < q.w := by
      intro q hq
      obtain ⟨t, ht, hq⟩ := mem_dom.mp hq
      have : 0 < T.det t / 6 := div_pos (h.area t ht) (by norm_num)
      rcases hq with rfl | rfl | rfl <;> exact this
    have hs : ∑ k, d k * (T.fem.dom.map (fun q => q.w * inner2 (q.R k) (vectorAt q.R d))).sum = 0 :=
      Finset.sum_eq_zero (fun k _ => by rw [hd k, mul_zero])
    rw [vector_form T.fem.dom (fun q => q.w) (fun q => q.R) (fun q => vectorAt q.R d) d] at hs
    intro q hq
    have h2 := sum_nonneg_eq_zero (fun q hq => mul_nonneg (weights q hq).le (inner2_self_nonneg _)) hs q hq
    exact inner2_self_eq_zero ((mul_eq_zero.mp h2).resolve_left (weights q hq).ne')

end

section
variable {𝕜 : Type} [Field 𝕜] [DecidableEq 𝕜] [LinearOrder 𝕜] [IsStrictOrderedRing 𝕜]

/-- The generalized matrix from any fields with one conductor at 1 V. -/
theorem generalized_of_fields (E : Engine 𝕜) {model : Model 𝕜} {opts : DriverOptions}
    {ps : List (PEC 𝕜)} (hN : Numbering model.materials ps) (hB : Buildable (E.fem model opts) model.materials)
    (hW : WellDeclared model.materials) (hP : ExactSolver E.pcg)
    (hw : WellPosed E.analytic (E.fem model opts) model.materials) (hs : Separate (E.fem model opts) model.materials)
    {d : Driver (E.fem model opts)} (hd : (Driver.construct E model opts).1 = .ok d) {o : Openness}
    (ho : model.determineOpenness = .ok o) (hc : ¬ (ps.length = 1 ∧ o = .closed)) (b : Bool) :
    ∃ M : Matrix (Fin ps.length) (Fin ps.length) 𝕜,
      ((Query.generalizedC b).exec E d).1 = .ok (.matrix (DMat.ofMatrix M)) ∧ M.IsSymm ∧
      ∀ (i j : Fin ps.length) (t u : SolverSolution (E.fem model opts)),
        PrescribedField E.analytic (E.fem model opts) model.materials b (oneVolt ps[i].tag) t →
        PrescribedField E.analytic (E.fem model opts) model.materials b (oneVolt ps[j].tag) u →
        M i j = (chargeOn t ps[j].tag + chargeOn u ps[i].tag) / 2 := by
  obtain ⟨sols, hlen, hst, hf⟩ := C29_excitation E hN hB d hd b
  have hu : ∀ j : Fin ps.length, PrescribedField E.analytic (E.fem model opts) model.materials b (oneVolt ps[j].tag)
      (sols[j.1]'(by omega)) := fun j => (hf j.1 j.2 (by omega)).2 hW hP hw
  have hstored : ∀ j : Fin ps.length, (Driver.problem b d).solutions[j.1]? = some (some (sols[j.1]'(by omega))) := by
    intro j
    rw [hst, List.getElem?_map, List.getElem?_eq_getElem (by omega)]
    rfl
  obtain ⟨M, e, hsym, hM⟩ := (C31_generalized E hN hd ho b).2 hc
  refine ⟨M, e, hsym, fun i j t u ht hu' => ?_⟩
  rw [ht.unique hw hs (hu i), hu'.unique hw hs (hu j)]
  exact hM i j _ _ (hstored i) (hstored j)

/-- Openness can be determined when boundary segments have two ends. -/
theorem openness_determined {T : Triangulation 𝕜} (h : ∀ s ∈ T.segs, s.a ≠ s.b) {model : Model 𝕜}
    (hm : model.mesh = T.toMesh) : ∃ o, model.determineOpenness = .ok o := by
  have hl : ∀ tag, ∃ b, elementsFormOpenLoops (getElementsWithAttribute model.mesh tag) = .ok b := by
    intro tag
    have hp : ProperSegments (getElementsWithAttribute model.mesh tag) := by
      intro e he
      rw [hm] at he
      unfold getElementsWithAttribute at he
      obtain ⟨he, _⟩ := List.mem_filter.mp he
      obtain ⟨s, hs, rfl⟩ := List.mem_map.mp he
      exact ⟨s.a.1, s.b.1, rfl, fun e => h s hs (Fin.ext (by exact_mod_cast e))⟩
    obtain ⟨_, _, _, _, _, ls, e, _⟩ := determineClosedLoops_spec _ hp
    exact ⟨_, by unfold elementsFormOpenLoops; rw [e]; rfl⟩
  have loop : ∀ os : List OpenBoundary, ∃ o, Model.opennessLoop model.mesh os = .ok o := by
    intro os
    induction os with
    | nil => exact ⟨_, rfl⟩
    | cons o os ih =>
      obtain ⟨b, e⟩ := hl o.tag
      unfold Model.opennessLoop
      rw [e]
      simp only [Outcome.ok_bind]
      cases b
      · exact ⟨_, rfl⟩
      · exact ih
  unfold Model.determineOpenness
  split
  · exact ⟨_, rfl⟩
  · exact loop _

/-- **C79.** On a mesh of triangles at order 1: if triangles have positive area and meet the boundary segments properly,
every vertex is joined with a conductor, conductors have no common vertex, permittivities are positive, tags sensible,
conductors numbered, and open boundaries (if any) absorb, then a driver is constructed, for any conductor potentials
there is exactly one field, with and without dielectrics, openness is determined, and the generalized capacitance matrices are computed from
the charges in these fields. -/
theorem C79_triangles (E : Engine 𝕜) {T : Triangulation 𝕜} {model : Model 𝕜} {opts : DriverOptions}
    {ps : List (PEC 𝕜)} (hm : model.mesh = T.toMesh) (h1 : opts.solverOptions.order = 1)
    (hE : E.disc T.toMesh 1 = T.fem) (hP : ExactSolver E.pcg) (hN : Numbering model.materials ps) (hT : Proper T)
    (hS : Sensible T model.materials) (hj : JoinedToConductors T model.materials)
    (ha : ConductorsApart T model.materials) (ho : OpenAbsorb E.analytic T model.materials) :
    (∀ (b : Bool) (V : Int → 𝕜), ∃! t : SolverSolution (E.fem model opts),
      PrescribedField E.analytic (E.fem model opts) model.materials b V t) ∧
    (∃ o, model.determineOpenness = .ok o) ∧
    ∃ d, (Driver.construct E model opts).1 = .ok d ∧
      ∀ (b : Bool) (o : Openness), model.determineOpenness = .ok o → ¬ (ps.length = 1 ∧ o = .closed) →
        ∃ M : Matrix (Fin ps.length) (Fin ps.length) 𝕜,
          ((Query.generalizedC b).exec E d).1 = .ok (.matrix (DMat.ofMatrix M)) ∧ M.IsSymm ∧
          ∀ (i j : Fin ps.length) (t u : SolverSolution (E.fem model opts)),
            PrescribedField E.analytic (E.fem model opts) model.materials b (oneVolt ps[i].tag) t →
            PrescribedField E.analytic (E.fem model opts) model.materials b (oneVolt ps[j].tag) u →
            M i j = (chargeOn t ps[j].tag + chargeOn u ps[i].tag) / 2 := by
  have hF : E.fem model opts = T.fem := by
    unfold Engine.fem
    rw [hm, h1, hE]
  have hB : Buildable (E.fem model opts) model.materials := by rw [hF]; exact triangles_buildable hT hS
  have he : Elliptic E.analytic (E.fem model opts) model.materials := by rw [hF]; exact triangles_elliptic hT hS hj ho
  have hs : Separate (E.fem model opts) model.materials := by rw [hF]; exact triangles_separate ha
  have hW : WellDeclared model.materials := ⟨hS.names, hS.tags, hS.openNames⟩
  refine ⟨(C74_unique_partial he hs).2, openness_determined hT.seg_ne hm, ?_⟩
  obtain ⟨d, _, _, _, _, e, _⟩ := construct_spec E hN hB
  have e := congrArg Prod.fst e
  exact ⟨d, e, fun b o hop hc => generalized_of_fields E hN hB hW hP he.wellPosed hs e hop hc b⟩

end
end Tulip.Props
