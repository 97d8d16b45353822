import Verif.Proofs.ExactRules
import Verif.Props.Triangles
import Verif.Proofs.ElementsExist
import Verif.Proofs.Quadrature

/-!
# C90: elements of any order on triangles
-/

set_option linter.unusedSectionVars false

namespace Tulip.Props
open Tulip Tulip.Spec Matrix

section
variable {𝕜 : Type} [Field 𝕜] [LinearOrder 𝕜] [IsStrictOrderedRing 𝕜] {T : Triangulation 𝕜}

/-- **C90, spaces.** On every mesh of triangles with positive area there are finite element spaces of every order from 1
on, and quadrature rules adequate for them that are exact for polynomials of any given degree. -/
theorem C90_spaces (h : Proper T) {p : Nat} (hp : 1 ≤ p) :
    (∃ S : Shapes T, Elements S p) ∧ ∀ m, ∃ Q : Rule 𝕜, Adequate Q p ∧ ExactRule Q m :=
  ⟨elements_exist h hp, Quadrature.exact_rule_exists p⟩

/-- **C90, elements.** With elements of any order, constants are represented exactly, the discrete gradient is the
gradient, and no non-zero flux has zero integral against all fluxes. -/
theorem C90_elements {S : Shapes T} {Q : Rule 𝕜} {p : Nat} (hT : Proper T) (h : Elements S p) (hQ : Adequate Q p) :
    RepresentsConstants (T.femWith S Q) ∧ ExactGradient (T.femWith S Q) ∧ ProjectionUnique (T.femWith S Q) := by
  refine ⟨elements_constants h h.grad_one, fun q hq u => ?_, fun d hd => ?_⟩
  · have := elements_gradient h hq u
    exact ⟨congrArg Prod.fst this, congrArg Prod.snd this⟩
  · apply elements_fluxes h hQ d
    have weights := elements_weights (S := S) hT hQ
    have hs : ∑ k, d k * ((T.femWith S Q).dom.map (fun q => q.w * inner2 (q.R k) (vectorAt q.R d))).sum = 0 :=
      Finset.sum_eq_zero (fun k _ => by rw [hd k, mul_zero])
    rw [vector_form (T.femWith S Q).dom (fun q => q.w) (fun q => q.R) (fun q => vectorAt q.R d) d] at hs
    intro q hq
    have h2 := sum_nonneg_eq_zero (fun q hq => mul_nonneg (weights q hq).le (inner2_self_nonneg _)) hs q hq
    exact inner2_self_eq_zero ((mul_eq_zero.mp h2).resolve_left (weights q hq).ne')

end

section
variable {𝕜 : Type} [Field 𝕜] [DecidableEq 𝕜] [LinearOrder 𝕜] [IsStrictOrderedRing 𝕜] {T : Triangulation 𝕜} {S : Shapes T}
  {Q : Rule 𝕜} {p : Nat}

theorem _root_.Tulip.Spec.ElementCase.fem {E : Engine 𝕜} {model : Model 𝕜} {opts : DriverOptions} {ps : List (PEC 𝕜)}
    (h : ElementCase E S Q p model opts ps) : E.fem model opts = T.femWith S Q := by
  unfold Engine.fem
  rw [h.mesh, h.order, h.disc]

/-- **C90.** On a mesh of triangles at any order, with the hypotheses of C79: a driver is constructed, for any conductor
potentials there is exactly one field, with and without dielectrics, openness is determined, and the generalized
capacitance matrices are computed from the charges in these fields. -/
theorem C90_orders (E : Engine 𝕜) {model : Model 𝕜} {opts : DriverOptions} {ps : List (PEC 𝕜)}
    (h : ElementCase E S Q p model opts ps) :
    (∀ (b : Bool) (V : Int → 𝕜), ∃! t : SolverSolution (E.fem model opts),
      PrescribedField E.analytic (E.fem model opts) model.materials b V t) ∧
    (∃ o, model.determineOpenness = .ok o) ∧
    ∃ d, (Driver.construct E model opts).1 = .ok d ∧
      ∀ (b : Bool) (o : Openness), model.determineOpenness = .ok o → ¬ (ps.length = 1 ∧ o = .closed) →
        ∃ M : Matrix (Fin ps.length) (Fin ps.length) 𝕜,
          ((Query.generalizedC b).exec E d).1 = .ok (.matrix (DMat.ofMatrix M)) ∧ M.IsSymm ∧
          ∀ (i j : Fin ps.length) (t u : SolverSolution (E.fem model opts)),
            PrescribedField E.analytic (E.fem model opts) model.materials b (oneVolt ps[i].tag) t →
            PrescribedField E.analytic (E.fem model opts) model.materials b (oneVolt ps[j].tag) u →
            M i j = (chargeOn t ps[j].tag + chargeOn u ps[i].tag) / 2 := by
  have hF := h.fem
  have hB : Buildable (E.fem model opts) model.materials := by rw [hF]; exact elements_buildable h.proper h.sensible
  have he : Elliptic E.analytic (E.fem model opts) model.materials := by
    rw [hF]
    exact elements_elliptic h.elements h.proper h.rule h.sensible h.joined h.absorb
  have hs : Separate (E.fem model opts) model.materials := by rw [hF]; exact elements_separate h.elements h.apart
  have hW : WellDeclared model.materials := ⟨h.sensible.names, h.sensible.tags, h.sensible.openNames⟩
  refine ⟨(C74_unique_partial he hs).2, openness_determined h.proper.seg_ne h.mesh, ?_⟩
  obtain ⟨d, _, _, _, _, e, _⟩ := construct_spec E h.numbering hB
  have e := congrArg Prod.fst e
  exact ⟨d, e, fun b o hop hc => generalized_of_fields E h.numbering hB hW h.solver he.wellPosed hs e hop hc b⟩

/-- What C90 says of a case, with matrices indexed by the number of conductors and fields over the mesh. -/
theorem element_case (E : Engine 𝕜) {model : Model 𝕜} {opts : DriverOptions} {ps : List (PEC 𝕜)}
    (h : ElementCase E S Q p model opts ps) {d : Driver (E.fem model opts)} (hd : (Driver.construct E model opts).1 = .ok d)
    {o : Openness} (ho : model.determineOpenness = .ok o) (hc : ¬ (ps.length = 1 ∧ o = .closed)) (b : Bool) {N : Nat}
    (hl : ps.length = N) :
    (∀ V : Int → 𝕜, ∃ t : SolverSolution (T.femWith S Q), PrescribedField E.analytic (T.femWith S Q) model.materials b V t) ∧
    WellPosed E.analytic (T.femWith S Q) model.materials ∧ Separate (T.femWith S Q) model.materials ∧
    ∃ M : Matrix (Fin N) (Fin N) 𝕜, ((Query.generalizedC b).exec E d).1 = .ok (.matrix (DMat.ofMatrix M)) ∧
      ∀ (i j : Fin N) (t u : SolverSolution (T.femWith S Q)),
        PrescribedField E.analytic (T.femWith S Q) model.materials b (oneVolt (ps[i.1]'(by omega)).tag) t →
        PrescribedField E.analytic (T.femWith S Q) model.materials b (oneVolt (ps[j.1]'(by omega)).tag) u →
        M i j = (chargeOn t (ps[j.1]'(by omega)).tag + chargeOn u (ps[i.1]'(by omega)).tag) / 2 := by
  subst hl
  obtain ⟨h1, _, d', hd', h2⟩ := C90_orders E h
  have : d = d' := Outcome.ok.inj (hd.symm.trans hd')
  subst this
  have hF := h.fem
  obtain ⟨M, e, _, hM⟩ := h2 b o ho hc
  refine ⟨fun V => ?_, (elements_elliptic h.elements h.proper h.rule h.sensible h.joined h.absorb).wellPosed,
    elements_separate h.elements h.apart, M, e, ?_⟩
  · have : ∀ G, E.fem model opts = G → ∃ t : SolverSolution G, PrescribedField E.analytic G model.materials b V t := by
      rintro G rfl
      exact (h1 b V).exists
    exact this _ hF
  · have : ∀ G, E.fem model opts = G → ∀ (i j : Fin ps.length) (t u : SolverSolution G),
        PrescribedField E.analytic G model.materials b (oneVolt ps[i].tag) t →
        PrescribedField E.analytic G model.materials b (oneVolt ps[j].tag) u →
        M i j = (chargeOn t ps[j].tag + chargeOn u ps[i].tag) / 2 := by
      rintro G rfl
      exact hM
    exact this _ hF

end
end Tulip.Props
