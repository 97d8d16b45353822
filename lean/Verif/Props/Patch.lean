import Verif.Props.ElementPlates
import Verif.Proofs.ElementPatch

/-!
# C93: fields that are reproduced exactly
-/

set_option linter.unusedSectionVars false

namespace Tulip.Props
open Tulip Tulip.Spec Matrix MvPolynomial

section
variable {𝕜 : Type} [Field 𝕜] [DecidableEq 𝕜] [LinearOrder 𝕜] [IsStrictOrderedRing 𝕜] {T : Triangulation 𝕜} {S : Shapes T}
  {Q : Rule 𝕜} {p : Nat}

/-- **C93, fields.** If the exact solution has the same displacement everywhere (in any direction), the solver finds
exactly this solution: potential, E and D are exact everywhere in every triangle, and the charge on every boundary is
the exact flux, on every mesh, with elements of every order. -/
theorem C93_field {A : Analytic 𝕜} {mats : Materials 𝕜} (h : Elements S p) (hA : Adequate Q p) (hQ : ExactRule Q p)
    (hT : Proper T) (hc : Conforming T) (hS : Sensible T mats) (hj : JoinedToConductors T mats) (ha : ConductorsApart T mats)
    (ho : OpenAbsorb A T mats) (b : Bool) {V : Int → 𝕜} {f : Fin T.nv → 𝕜} {g : 𝕜 × 𝕜}
    (hf : UniformField A T mats (declaredEps mats b) V f g) {sol : SolverSolution (T.femWith S Q)}
    (hsol : PrescribedField A (T.femWith S Q) mats b V sol) :
    (∀ t ∈ T.tris, ∑ i : Fin S.n, C (sol.phi i) * S.N t i = linearOn t f) ∧
    (∀ t ∈ T.tris, C (declaredEps mats b t.attr) * ∑ k : Fin S.ne, C (sol.e k) * (S.W t k).1 = C (-g.1) ∧
      C (declaredEps mats b t.attr) * ∑ k : Fin S.ne, C (sol.e k) * (S.W t k).2 = C (-g.2)) ∧
    (∀ t ∈ T.tris, ∑ k : Fin S.nd, C (sol.d k) * (S.R t k).1 = C (-g.1) ∧ ∑ k : Fin S.nd, C (sol.d k) * (S.R t k).2 = C (-g.2)) ∧
    ∀ tag, chargeOn sol tag = fluxThrough T g tag := by
  have he : ∀ t ∈ T.tris, 0 < declaredEps mats b t.attr := fun _ _ => declaredEps_pos hS.permittivities b _
  have hell : Elliptic A (T.femWith S Q) mats := elements_elliptic h hT hA hS hj ho
  obtain ⟨sol', hsol', r⟩ := patchWith (A := A) h hT hc hA hQ b he hf
  have hu := hsol.unique hell.wellPosed (elements_separate h ha) hsol'
  subst hu
  exact r

/-- **C93, lines.** Two conductors with a uniform displacement between them, with and without dielectrics: capacitance
and inductance are exact. -/
theorem C93_line (E : Engine 𝕜) {model : Model 𝕜} {opts : DriverOptions} {p0 p1 : PEC 𝕜}
    (h : ElementCase E S Q p model opts [p0, p1]) (hQ : ExactRule Q p) (hc : Conforming T)
    (hopen : model.materials.openBoundaries = []) {f f0 : Fin T.nv → 𝕜} {g g0 : 𝕜 × 𝕜}
    (hf : UniformField E.analytic T model.materials (declaredEps model.materials false) (oneVolt p1.tag) f g)
    (hf0 : UniformField E.analytic T model.materials (declaredEps model.materials true) (oneVolt p1.tag) f0 g0)
    (h0 : fluxThrough T g0 p1.tag ≠ 0) :
    ∃ d r, (Driver.construct E model opts).1 = .ok d ∧ (Query.pulMTL.exec E d).1 = .ok (.pul r) ∧
      r.C = DMat.ofMatrix !![E.eps0SI * fluxThrough T g p1.tag] ∧
      r.L = DMat.ofMatrix !![E.mu0SI / fluxThrough T g0 p1.tag] := by
  have hF := h.fem
  have hB : Buildable (E.fem model opts) model.materials := by rw [hF]; exact elements_buildable h.proper h.sensible
  have he : Elliptic E.analytic (E.fem model opts) model.materials := by
    rw [hF]
    exact elements_elliptic h.elements h.proper h.rule h.sensible h.joined h.absorb
  have hs : Separate (E.fem model opts) model.materials := by rw [hF]; exact elements_separate h.elements h.apart
  obtain ⟨huniq, _, d, hdc, _⟩ := C90_orders E h
  have gen : ∀ b (f : Fin T.nv → 𝕜) (g : 𝕜 × 𝕜),
      UniformField E.analytic T model.materials (declaredEps model.materials b) (oneVolt p1.tag) f g →
      ∃ t : SolverSolution (E.fem model opts),
        PrescribedField E.analytic (E.fem model opts) model.materials b (oneVolt p1.tag) t ∧
        chargeOn t p1.tag = fluxThrough T g p1.tag := by
    intro b f g hf
    obtain ⟨t, ht, _⟩ := huniq b (oneVolt p1.tag)
    refine ⟨t, ht, ?_⟩
    clear huniq hdc
    revert t
    rw [hF]
    intro t ht _
    exact (C93_field h.elements h.rule hQ h.proper hc h.sensible h.joined h.apart h.absorb b hf ht).2.2.2 p1.tag
  obtain ⟨t, ht, e1⟩ := gen false f g hf
  obtain ⟨t0, ht0, e0⟩ := gen true f0 g0 hf0
  obtain ⟨r, e, eC, eL⟩ := closed_pair E h.numbering hB ⟨h.sensible.names, h.sensible.tags, h.sensible.openNames⟩ h.solver
    he.wellPosed hs hopen hdc ht ht0 (by rw [e0]; exact h0)
  exact ⟨d, r, hdc, e, by rw [eC, e1], by rw [eL, e0]⟩

end
end Tulip.Props
