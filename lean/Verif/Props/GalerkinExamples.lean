import Verif.Props.Galerkin
import Verif.Props.ElementRegionExamples

/-!
# C94: another basis and another rule
-/

namespace Tulip.Props
open Tulip Tulip.Spec Matrix MvPolynomial

section
variable {𝕜 : Type} [Field 𝕜] {T : Triangulation 𝕜} {S : Shapes T} {p : Nat}

/-- edge and flux functions in the opposite direction -/
noncomputable def flipped (S : Shapes T) : Shapes T :=
  { S with W := fun t k => -S.W t k, R := fun t k => -S.R t k, grad := -S.grad }

theorem flipped_sum {n : Nat} (u : Fin n → 𝕜) (B : Fin n → MvPolynomial (Fin 2) 𝕜) : ∑ k, C (u k) * -B k = ∑ k, C (-u k) * B k :=
  Finset.sum_congr rfl fun k _ => by rw [C_neg]; ring

theorem flipped_elements (h : Elements S p) : Elements (flipped S) p where
  degreeN := h.degreeN
  degreeW t ht k := by
    show (-(S.W t k).1).totalDegree ≤ p ∧ (-(S.W t k).2).totalDegree ≤ p
    rw [totalDegree_neg, totalDegree_neg]
    exact h.degreeW t ht k
  degreeR t ht k := by
    show (-(S.R t k).1).totalDegree ≤ p ∧ (-(S.R t k).2).totalDegree ≤ p
    rw [totalDegree_neg, totalDegree_neg]
    exact h.degreeR t ht k
  continuous := h.continuous
  unity := h.unity
  basisN := h.basisN
  basisW u hu k := neg_eq_zero.mp (h.basisW (fun k => -u k) (fun t ht =>
    ⟨(flipped_sum u fun k => (S.W t k).1).symm.trans (hu t ht).1, (flipped_sum u fun k => (S.W t k).2).symm.trans (hu t ht).2⟩) k)
  basisR u hu k := neg_eq_zero.mp (h.basisR (fun k => -u k) (fun t ht =>
    ⟨(flipped_sum u fun k => (S.R t k).1).symm.trans (hu t ht).1, (flipped_sum u fun k => (S.R t k).2).symm.trans (hu t ht).2⟩) k)
  basisSeg := h.basisSeg
  offSeg := h.offSeg
  meet := h.meet
  localN := h.localN
  localW t ht t' ht' k h1 h2 := h.localW t ht t' ht' k (fun e => h1 (by show -S.W t k = 0; rw [e, neg_zero]))
    (fun e => h2 (by show -S.W t' k = 0; rw [e, neg_zero]))
  localR t ht t' ht' k h1 h2 := h.localR t ht t' ht' k (fun e => h1 (by show -S.R t k = 0; rw [e, neg_zero]))
    (fun e => h2 (by show -S.R t' k = 0; rw [e, neg_zero]))
  linear := h.linear
  uniform g := by
    obtain ⟨d, hd⟩ := h.uniform g
    refine ⟨fun k => -d k, fun t ht => ?_⟩
    show ∑ k, C (-d k) * -(S.R t k).1 = _ ∧ ∑ k, C (-d k) * -(S.R t k).2 = _
    rw [flipped_sum, flipped_sum]
    simp only [neg_neg]
    exact hd t ht
  gradient t ht i := by
    rw [← show _ = T.gradient t ((flipped S).N t i) from h.gradient t ht i]
    show (∑ k, C (-S.grad k i) * -(S.W t k).1, ∑ k, C (-S.grad k i) * -(S.W t k).2) = _
    rw [flipped_sum, flipped_sum]
    simp only [neg_neg]

theorem flipped_complete (h : Complete S p) : Complete (flipped S) p where
  nodal := h.nodal
  flux k := by
    obtain ⟨h1, h2⟩ := h.flux k
    refine ⟨fun t ht => ?_, fun t ht t' ht' v w hv hw hv' hw' x y hxy => ?_⟩
    · obtain ⟨a, b, c, ha, hb, hc, e⟩ := h1 t ht
      refine ⟨-a, -b, -c, by rwa [totalDegree_neg], by rwa [totalDegree_neg], by rwa [totalDegree_neg], ?_⟩
      show -S.R t k = _
      rw [e]
      refine Prod.ext ?_ ?_
      · show -(a + c * _) = _
        ring
      · show -(b + c * _) = _
        ring
    · have := h2 t ht t' ht' v w hv hw hv' hw' x y hxy
      show eval _ (-(S.R t k).1) * _ - eval _ (-(S.R t k).2) * _ = eval _ (-(S.R t' k).1) * _ - eval _ (-(S.R t' k).2) * _
      simp only [map_neg]
      linear_combination -this
  fluxes F hF := by
    obtain ⟨d, hd⟩ := h.fluxes F hF
    refine ⟨fun k => -d k, fun t ht => ?_⟩
    show ∑ k, C (-d k) * -(S.R t k).1 = _ ∧ ∑ k, C (-d k) * -(S.R t k).2 = _
    rw [flipped_sum, flipped_sum]
    simp only [neg_neg]
    exact hd t ht

/-- every point of the triangle twice, with half of the weight -/
def doubled (Q : Rule 𝕜) : Rule 𝕜 := { Q with tri := Q.tri.flatMap (fun r => [(r.1 / 2, r.2), (r.1 / 2, r.2)]) }

theorem doubled_same [CharZero 𝕜] (Q : Rule 𝕜) (m : Nat) : SameIntegrals Q (doubled Q) m where
  tri j k _ := by
    show ((Q.tri.flatMap (fun r => [(r.1 / 2, r.2), (r.1 / 2, r.2)])).map (fun r => r.1 * (r.2.1 ^ j * r.2.2 ^ k))).sum = _
    rw [sum_flatMap]
    refine congrArg List.sum (List.map_congr_left fun r _ => ?_)
    simp only [List.map_cons, List.map_nil, List.sum_cons, List.sum_nil]
    ring
  seg _ _ := rfl

theorem doubled_adequate [LinearOrder 𝕜] [IsStrictOrderedRing 𝕜] {Q : Rule 𝕜} (h : Adequate Q p) : Adequate (doubled Q) p where
  tri r hr := by
    obtain ⟨r', hr', hr⟩ := List.mem_flatMap.mp hr
    have := h.tri r' hr'
    simp only [List.mem_cons, List.not_mem_nil, or_false, or_self] at hr
    subst hr
    show 0 < r'.1 / 2
    linarith
  seg := h.seg
  determines P hP h0 := h.determines P hP fun r hr => h0 (r.1 / 2, r.2) (List.mem_flatMap.mpr ⟨r, hr, by simp⟩)

end

/-- The hypotheses of `C94_basis` hold for the chambers (two dielectrics, three conductors) at order 5: the other program
has all edge and flux functions in the opposite direction and a rule with twice as many points. -/
example : ∃ (E E' : Engine ℚ) (d : _) (d' : _), (Driver.construct E (chamberModel 4) { solverOptions := { order := 5 } }).1 = .ok d ∧
    (Driver.construct E' (chamberModel 4) { solverOptions := { order := 5 } }).1 = .ok d' ∧
    ∀ (history history' : List Query) (q : Query), q ≠ .pulMTLByDomains →
      (q.exec E' (afterQueries E' history' d')).1 = (q.exec E (afterQueries E history d)).1 := by
  obtain ⟨S, hS, hC⟩ := complete_exist chambers_proper chambers_conforming (p := 5) (by norm_num)
  have h := chambers_case (r := 4) (by norm_num)
  have case : ∀ (S : Shapes chambers) (Q : Rule ℚ), Elements S 5 → Adequate Q 5 →
      ElementCase (shapesEngine S Q) S Q 5 (chamberModel 4) { solverOptions := { order := 5 } } chamberPecs := fun S Q hS hQ =>
    { mesh := rfl, order := rfl, disc := rfl, elements := hS, rule := hQ, solver := inverseSolver_exact
      numbering := h.numbering, proper := h.proper, sensible := h.sensible, joined := h.joined, apart := h.apart
      absorb := fun s _ ⟨o, ho, _⟩ => by cases ho }
  have hQ := gridRule_adequate (𝕜 := ℚ) 5
  obtain ⟨d, d', e, e', hq⟩ := C94_basis (E := shapesEngine S (gridRule ℚ 5)) (E' := shapesEngine (flipped S) (doubled (gridRule ℚ 5)))
    ⟨rfl, rfl, rfl⟩ (by norm_num) (case S _ hS hQ) (case _ _ (flipped_elements hS) (doubled_adequate hQ)) hC (flipped_complete hC)
    (doubled_same _ _) (.inr rfl) rfl
  exact ⟨_, _, d, d', e, e', fun history history' q hne => (hq history history' q hne).1⟩

end Tulip.Props
