import Verif.Props.Twin
import Verif.Props.Elements
import Verif.Proofs.Galerkin

/-!
# C94: shape functions and quadrature rules do not matter
-/

set_option linter.unusedSectionVars false

namespace Tulip.Props
open Tulip Tulip.Spec Matrix MvPolynomial

section
variable {𝕜 : Type} [Field 𝕜] [LinearOrder 𝕜] [IsStrictOrderedRing 𝕜] {T : Triangulation 𝕜} {S S' : Shapes T}
  {Q Q' : Rule 𝕜} {p : Nat}

/-- **C94, spaces.** On a conforming mesh of triangles with positive area there are complete spaces of every order. -/
theorem C94_spaces (h : Proper T) (hc : Conforming T) {p : Nat} (hp : 1 ≤ p) : ∃ S : Shapes T, Elements S p ∧ Complete S p :=
  complete_exist h hc hp

/-- **C94, fields.** With any basis of the spaces of order `p`, the potential and the D of the solver are those of the
discrete field (a notion without shape functions), E is minus the gradient of the potential; and there is only one
discrete field for the same conductor potentials. -/
theorem C94_field {A : Analytic 𝕜} {mats : Materials 𝕜} (hp : 1 ≤ p) (h : Elements S p) (hS : Complete S p) (hA : Adequate Q p)
    (hT : Proper T) (hm : Sensible T mats) (hj : JoinedToConductors T mats) (ha : ConductorsApart T mats)
    (ho : OpenAbsorb A T mats) (b : Bool) (V : Int → 𝕜) :
    (∀ sol : SolverSolution (T.femWith S Q), PrescribedField A (T.femWith S Q) mats b V sol →
      GalerkinField T A Q p mats b V (fun t => ∑ i : Fin S.n, C (sol.phi i) * S.N t i)
        (fun t => (∑ k : Fin S.nd, C (sol.d k) * (S.R t k).1, ∑ k : Fin S.nd, C (sol.d k) * (S.R t k).2)) ∧
      ∀ t ∈ T.tris, ∑ k : Fin S.ne, C (sol.e k) * (S.W t k).1 = -(T.gradient t (∑ i : Fin S.n, C (sol.phi i) * S.N t i)).1 ∧
        ∑ k : Fin S.ne, C (sol.e k) * (S.W t k).2 = -(T.gradient t (∑ i : Fin S.n, C (sol.phi i) * S.N t i)).2) ∧
    (∃ P D, GalerkinField T A Q p mats b V P D) ∧
    ∀ P D P' D', GalerkinField T A Q p mats b V P D → GalerkinField T A Q p mats b V P' D' → ∀ t ∈ T.tris, P t = P' t ∧ D t = D' t := by
  have hell : Elliptic A (T.femWith S Q) mats := elements_elliptic h hT hA hm hj ho
  have hs : Separate (T.femWith S Q) mats := elements_separate h ha
  have toG : ∀ sol : SolverSolution (T.femWith S Q), PrescribedField A (T.femWith S Q) mats b V sol →
      GalerkinField T A Q p mats b V (nodalComb S sol.phi) (fluxComb S sol.d) := fun sol hsol =>
    (galerkin_iff (u := sol.phi) (d := sol.d) h hS hp hT hs hsol.e).mp hsol
  refine ⟨fun sol hsol => ⟨toG sol hsol, fun t ht => ?_⟩, ?_, fun P D P' D' h1 h2 t ht => ?_⟩
  · have e1 : ∀ (c : Fin S.ne → MvPolynomial (Fin 2) 𝕜), ∑ k : Fin S.ne, C (sol.e k) * c k =
        -∑ i : Fin S.n, C (sol.phi i) * ∑ k, C (S.grad k i) * c k := by
      intro c
      have he : ∀ k : Fin S.ne, sol.e k = -∑ i : Fin S.n, S.grad k i * sol.phi i := hsol.e
      simp only [he, C_neg, map_sum, C_mul, neg_mul, Finset.sum_neg_distrib, Finset.sum_mul, Finset.mul_sum]
      rw [Finset.sum_comm]
      congr 1
      exact Finset.sum_congr rfl fun i _ => Finset.sum_congr rfl fun k _ => by ring
    have hg : ∀ i, (∑ k, C (S.grad k i) * (S.W t k).1 = (T.gradient t (S.N t i)).1) ∧
        (∑ k, C (S.grad k i) * (S.W t k).2 = (T.gradient t (S.N t i)).2) := fun i =>
      ⟨congrArg Prod.fst (h.gradient t ht i), congrArg Prod.snd (h.gradient t ht i)⟩
    have e2 := gradient_comb (T := T) t (fun i : Fin S.n => sol.phi i) (S.N t)
    constructor
    · refine (e1 fun k => (S.W t k).1).trans (congrArg Neg.neg ?_)
      refine Eq.trans ?_ (congrArg Prod.fst e2).symm
      exact Finset.sum_congr rfl fun i _ => by rw [(hg i).1]
    · refine (e1 fun k => (S.W t k).2).trans (congrArg Neg.neg ?_)
      refine Eq.trans ?_ (congrArg Prod.snd e2).symm
      exact Finset.sum_congr rfl fun i _ => by rw [(hg i).2]
  · obtain ⟨sol, hsol, _⟩ := (C74_unique_partial hell hs).2 b V
    exact ⟨_, _, toG sol hsol⟩
  · have from_ : ∀ P D, GalerkinField T A Q p mats b V P D → ∃ sol : SolverSolution (T.femWith S Q),
        PrescribedField A (T.femWith S Q) mats b V sol ∧ (∀ t ∈ T.tris, P t = nodalComb S sol.phi t) ∧
        ∀ t ∈ T.tris, D t = fluxComb S sol.d t := by
      intro P D hf
      obtain ⟨u, hu⟩ := hS.nodal P hf.potential
      obtain ⟨d, hd⟩ := hS.fluxes D hf.displacement
      have hP : ∀ t ∈ T.tris, P t = nodalComb S u t := fun t ht => (hu t ht).symm
      have hD : ∀ t ∈ T.tris, D t = fluxComb S d t := fun t ht => Prod.ext (hd t ht).1.symm (hd t ht).2.symm
      exact ⟨⟨u, fun k => -∑ i, S.grad k i * u i, d⟩, (galerkin_iff h hS hp hT hs fun _ => rfl).mpr (hf.congr hP hD), hP, hD⟩
    obtain ⟨s1, f1, p1, d1⟩ := from_ P D h1
    obtain ⟨s2, f2, p2, d2⟩ := from_ P' D' h2
    have e := f1.unique hell.wellPosed hs f2
    subst e
    exact ⟨(p1 t ht).trans (p2 t ht).symm, (d1 t ht).trans (d2 t ht).symm⟩

/-- **C94, rules.** The discrete field is the same for all quadrature rules that agree on polynomials of twice the order
(on segments of open boundaries the points must be the same); rules that are exact agree. -/
theorem C94_rule {A : Analytic 𝕜} {mats : Materials 𝕜} (hQ : SameIntegrals Q Q' (2 * p))
    (ho : mats.openBoundaries = [] ∨ Q'.seg = Q.seg) (b : Bool) (V : Int → 𝕜) (P : Tri T.nv → MvPolynomial (Fin 2) 𝕜)
    (D : Tri T.nv → MvPolynomial (Fin 2) 𝕜 × MvPolynomial (Fin 2) 𝕜) :
    GalerkinField T A Q' p mats b V P D ↔ GalerkinField T A Q p mats b V P D :=
  ⟨fun h => h.rule hQ ho, fun h => h.rule ⟨fun j k hjk => (hQ.tri j k hjk).symm, fun j hj => (hQ.seg j hj).symm⟩ (ho.imp_right Eq.symm)⟩

theorem exact_same {m : Nat} (h : ExactRule Q m) (h' : ExactRule Q' m) : SameIntegrals Q Q' m :=
  ⟨fun j k hjk => (h'.tri j k hjk).trans (h.tri j k hjk).symm, fun j hj => (h'.seg j hj).trans (h.seg j hj).symm⟩

/-- **C94.** Two builds of the program whose finite element spaces have the same order but any other shape functions
and degrees of freedom, and whose quadrature rules agree on polynomials of twice the order (with the same points on the
segments if there are open boundaries), answer all queries but the one by domains alike after any histories of queries,
and into the same folder write the same JSON files. -/
theorem C94_basis {E E' : Engine 𝕜} (hE : SameLaws E E') {model : Model 𝕜} {opts opts' : DriverOptions} {ps : List (PEC 𝕜)}
    (hp : 1 ≤ p) (h : ElementCase E S Q p model opts ps) (h' : ElementCase E' S' Q' p model opts' ps) (hS : Complete S p)
    (hS' : Complete S' p) (hQ : SameIntegrals Q Q' (2 * p)) (hopen : model.materials.openBoundaries = [] ∨ Q'.seg = Q.seg)
    (ho : opts'.multipolarExpansionOrder = opts.multipolarExpansionOrder) :
    ∃ d d', (Driver.construct E model opts).1 = .ok d ∧ (Driver.construct E' model opts').1 = .ok d' ∧
      ∀ (history history' : List Query) (q : Query), q ≠ .pulMTLByDomains →
        (q.exec E' (afterQueries E' history' d')).1 = (q.exec E (afterQueries E history d)).1 ∧
        (folderAfter history' opts'.exportFolder = folderAfter history opts.exportFolder →
          jsonFiles (q.exec E' (afterQueries E' history' d')).2.2 = jsonFiles (q.exec E (afterQueries E history d)).2.2) := by
  have hF := h.fem
  have hF' := h'.fem
  have hB : Buildable (E.fem model opts) model.materials := by rw [hF]; exact elements_buildable h.proper h.sensible
  have hB' : Buildable (E'.fem model opts') model.materials := by rw [hF']; exact elements_buildable h.proper h.sensible
  have he : Elliptic E.analytic (E.fem model opts) model.materials := by
    rw [hF]
    exact elements_elliptic h.elements h.proper h.rule h.sensible h.joined h.absorb
  have he' : Elliptic E'.analytic (E'.fem model opts') model.materials := by
    rw [hF']
    exact elements_elliptic h'.elements h.proper h'.rule h.sensible h.joined h'.absorb
  have hs : Separate (E.fem model opts) model.materials := by rw [hF]; exact elements_separate h.elements h.apart
  obtain ⟨f, g, hf, hg⟩ := transfer_exists h.elements hS h'.elements hS' hp
  have key : ∀ G G', G = T.femWith S Q → G' = T.femWith S' Q' → ∃ τ : Transfer G G', Faithful τ (Q'.seg = Q.seg) ∧
      ∀ b V t', PrescribedField E'.analytic G' model.materials b V t' →
        ∃ t, PrescribedField E.analytic G model.materials b V t ∧ t.halves = τ.back t' := by
    rintro G G' rfl rfl
    refine ⟨⟨f, g⟩, faithful_with h.elements h'.elements hS' hp hQ hf hg, fun b V t' ht' => ?_⟩
    refine ⟨⟨f t'.phi, fun k => -∑ i, S.grad k i * f t'.phi i, g t'.d⟩, ?_, rfl⟩
    refine (galerkin_iff h.elements hS hp h.proper (elements_separate h.elements h.apart) fun _ => rfl).mpr ?_
    have := (galerkin_iff (u := t'.phi) (d := t'.d) h'.elements hS' hp h.proper (elements_separate h'.elements h.apart) ht'.e).mp ht'
    rw [hE.analytic] at this
    exact (this.rule hQ hopen).congr (fun t ht => (hf t'.phi t ht).symm) fun t ht => (hg t'.d t ht).symm
  obtain ⟨τ, hτ, hfield⟩ := key _ _ hF hF'
  refine same_answers hE h.numbering hB hB' ⟨h.sensible.names, h.sensible.tags, h.sensible.openNames⟩ h.solver h'.solver
    he.wellPosed he'.wellPosed hs ⟨rfl, rfl, fun _ => rfl, fun _ => rfl, fun hop => ?_⟩ hτ hfield ho
  rcases hopen with e | e
  · unfold Model.determineOpenness at hop
    rw [e] at hop
    cases hop
  · exact e

end
end Tulip.Props
