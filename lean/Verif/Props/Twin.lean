import Verif.Props.Similar
import Verif.Proofs.Transfer

/-!
# Drivers whose discretisations correspond
-/

set_option linter.unusedSectionVars false

namespace Tulip.Props
open Tulip Tulip.Spec Matrix

section
variable {𝕜 : Type} [Field 𝕜] [DecidableEq 𝕜] [LinearOrder 𝕜]

theorem solved_forget {E : Engine 𝕜} {F : FEM 𝕜} {mats : Materials 𝕜} {b : Bool} {ps : List (PEC 𝕜)}
    {sp : SolvedProblem F} {s0 : Solver F} {sols : List (SolverSolution F)} (h : Solved E mats b ps sp s0 sols) :
    sp.solver.params.openBoundaries = (inputsOf mats b).openBoundaries ∧
    sp.solver.params.neumannBoundaries = (inputsOf mats b).neumannBoundaries ∧
    SMap.keys sp.solver.params.dirichletBoundaries = SMap.keys (inputsOf mats b).dirichletBoundaries := by
  obtain ⟨hist, _, hr⟩ := h.reached.1
  have hset := runOps_setup _ hr
  obtain ⟨_, _, hp, _⟩ := make_fields h.make
  exact ⟨by rw [hset.openB, hp], by rw [hset.neumann, hp], h.keys⟩

/-- Two drivers of corresponding discretisations, without the fields their solvers hold. -/
theorem construct_twin {E E' : Engine 𝕜} {model model' : Model 𝕜} {opts opts' : DriverOptions} {ps : List (PEC 𝕜)}
    (hN : Numbering model.materials ps) (hB : Buildable (E.fem model opts) model.materials)
    (hB' : Buildable (E'.fem model' opts') model.materials) (hW : WellDeclared model.materials)
    (hP : ExactSolver E.pcg) (hP' : ExactSolver E'.pcg)
    (hw : WellPosed E.analytic (E.fem model opts) model.materials)
    (hw' : WellPosed E'.analytic (E'.fem model' opts') model.materials) (hs : Separate (E.fem model opts) model.materials)
    {w : Prop} (hm : TwinModel w model model') {τ : Transfer (E.fem model opts) (E'.fem model' opts')}
    (hF : ∀ b V t', PrescribedField E'.analytic (E'.fem model' opts') model.materials b V t' →
      ∃ t, PrescribedField E.analytic (E.fem model opts) model.materials b V t ∧ t.halves = τ.back t')
    (ho : opts'.multipolarExpansionOrder = opts.multipolarExpansionOrder) :
    ∃ d d', (Driver.construct E model opts).1 = .ok d ∧ (Driver.construct E' model' opts').1 = .ok d' ∧
      ∀ f, Twin τ w (d.setExportFolder f).forget (d'.setExportFolder f).forget := by
  have hM := hm.materials
  have hN' : Numbering model'.materials ps := by rw [hM]; exact hN
  have hB' : Buildable (E'.fem model' opts') model'.materials := by rw [hM]; exact hB'
  have hw' : WellPosed E'.analytic (E'.fem model' opts') model'.materials := by rw [hM]; exact hw'
  have hW' : WellDeclared model'.materials := by rw [hM]; exact hW
  obtain ⟨d, s0e, s0m, se, sm, e, d1, d2, hSe, hSm⟩ := construct_spec E hN hB
  obtain ⟨d', s0e', s0m', se', sm', e', d1', d2', hSe', hSm'⟩ := construct_spec E' hN' hB'
  have e := congrArg Prod.fst e
  have e' := congrArg Prod.fst e'
  refine ⟨d, d', e, e', fun f => ⟨?_, ?_, rfl, ?_⟩⟩
  · show TwinModel w d.model d'.model
    rw [d1, d1']
    exact hm
  · show d'.opts.multipolarExpansionOrder = d.opts.multipolarExpansionOrder
    rw [d2, d2', ho]
  · have key : ∀ b, (Driver.problem b d).solutions.map (Option.map SolverSolution.halves) =
        (Driver.problem b d').solutions.map (Option.map τ.back) := by
      intro b
      obtain ⟨sols, hrd, h⟩ := construct_fields E hN hB hW hP hw e b
      obtain ⟨sols', hrd', h'⟩ := construct_fields E' hN' hB' hW' hP' hw' e' b
      rw [hrd.stored, hrd'.stored, List.map_map, List.map_map]
      apply List.ext_getElem
      · rw [List.length_map, List.length_map, hrd.len, hrd'.len]
      · intro i hi hi'
        rw [List.length_map] at hi hi'
        have hi0 : i < ps.length := by rw [← hrd.len]; exact hi
        rw [List.getElem_map, List.getElem_map]
        show some (SolverSolution.halves _) = some (τ.back _)
        congr 1
        have := h' i hi0 hi'
        rw [hM] at this
        obtain ⟨t, ht, et⟩ := hF b _ _ this
        rw [(h i hi0 hi).unique hw hs ht]
        exact et
    have hM' : ∀ b, inputsOf model'.materials b = inputsOf model.materials b := fun b => by rw [hM]
    have zero : (SolverSolution.mk (F := E.fem model opts) (fun _ => 0) (fun _ => 0) (fun _ => 0)).halves =
        τ.back (SolverSolution.mk (F := E'.fem model' opts') (fun _ => 0) (fun _ => 0) (fun _ => 0)) :=
      Prod.ext (map_zero τ.phi).symm (map_zero τ.d).symm
    intro b
    cases b
    · obtain ⟨a1, a2, a3⟩ := solved_forget hSe
      obtain ⟨b1, b2, b3⟩ := solved_forget hSe'
      rw [hM'] at b1 b2 b3
      refine ⟨⟨b1.trans a1.symm, b3.trans a3.symm, ?_, zero⟩, key false⟩
      exact congrArg SMap.keys (b2.trans a2.symm)
    · obtain ⟨a1, a2, a3⟩ := solved_forget hSm
      obtain ⟨b1, b2, b3⟩ := solved_forget hSm'
      rw [hM'] at b1 b2 b3
      refine ⟨⟨b1.trans a1.symm, b3.trans a3.symm, ?_, zero⟩, key true⟩
      exact congrArg SMap.keys (b2.trans a2.symm)

theorem forget_forget {F : FEM 𝕜} (d : Driver F) : d.forget.forget = d.forget := rfl

/-- Drivers of corresponding discretisations answer alike. -/
theorem same_answers {E E' : Engine 𝕜} (hE : SameLaws E E') {model model' : Model 𝕜} {opts opts' : DriverOptions} {ps : List (PEC 𝕜)}
    (hN : Numbering model.materials ps) (hB : Buildable (E.fem model opts) model.materials)
    (hB' : Buildable (E'.fem model' opts') model.materials) (hW : WellDeclared model.materials)
    (hP : ExactSolver E.pcg) (hP' : ExactSolver E'.pcg)
    (hw : WellPosed E.analytic (E.fem model opts) model.materials)
    (hw' : WellPosed E'.analytic (E'.fem model' opts') model.materials) (hs : Separate (E.fem model opts) model.materials)
    {w : Prop} (hm : TwinModel w model model') {τ : Transfer (E.fem model opts) (E'.fem model' opts')} (hτ : Faithful τ w)
    (hF : ∀ b V t', PrescribedField E'.analytic (E'.fem model' opts') model.materials b V t' →
      ∃ t, PrescribedField E.analytic (E.fem model opts) model.materials b V t ∧ t.halves = τ.back t')
    (ho : opts'.multipolarExpansionOrder = opts.multipolarExpansionOrder) :
    ∃ d d', (Driver.construct E model opts).1 = .ok d ∧ (Driver.construct E' model' opts').1 = .ok d' ∧
      ∀ (history history' : List Query) (q : Query), q ≠ .pulMTLByDomains →
        (q.exec E' (afterQueries E' history' d')).1 = (q.exec E (afterQueries E history d)).1 ∧
        (folderAfter history' opts'.exportFolder = folderAfter history opts.exportFolder →
          jsonFiles (q.exec E' (afterQueries E' history' d')).2.2 = jsonFiles (q.exec E (afterQueries E history d)).2.2) := by
  obtain ⟨d, d', e, e', ht⟩ := construct_twin hN hB hB' hW hP hP' hw hw' hs hm hF ho
  refine ⟨d, d', e, e', fun history history' q hq => ?_⟩
  have key : ∀ f, (q.exec E' (d'.setExportFolder f)).1 = (q.exec E (d.setExportFolder f)).1 ∧
      jsonFiles (q.exec E' (d'.setExportFolder f)).2.2 = jsonFiles (q.exec E (d.setExportFolder f)).2.2 := by
    intro f
    by_cases hf : ∃ g, q = .setExportFolder g
    · obtain ⟨g, rfl⟩ := hf
      exact ⟨rfl, rfl⟩
    · have hf' : ∀ g, q ≠ .setExportFolder g := fun g h => hf ⟨g, h⟩
      obtain ⟨s1, _, s3⟩ := Sim.exec hτ hE hq _ _ (ht f)
      obtain ⟨i1, i2⟩ := (exec_clean E q hf').indep _ _ (forget_forget (d.setExportFolder f))
      obtain ⟨j1, j2⟩ := (exec_clean E' q hf').indep _ _ (forget_forget (d'.setExportFolder f))
      exact ⟨by rw [← i1, ← j1]; exact s1.eq.symm, by rw [← i2, ← j2]; exact s3.symm⟩
  obtain ⟨a1, a2⟩ := C39_history E d history q
  obtain ⟨b1, b2⟩ := C39_history E' d' history' q
  rw [(construct_opts e).1] at a2
  rw [(construct_opts e').1] at b2
  refine ⟨?_, fun hfold => ?_⟩
  · rw [a1, b1]
    by_cases hf : ∃ g, q = .setExportFolder g
    · obtain ⟨g, rfl⟩ := hf
      rfl
    · have hf' : ∀ g, q ≠ .setExportFolder g := fun g h => hf ⟨g, h⟩
      have k := (key "").1
      rw [(exec_folder E q hf' d _).1, (exec_folder E' q hf' d' _).1] at k
      exact k
  · rw [a2, b2, hfold]
    exact (key _).2

end
end Tulip.Props
