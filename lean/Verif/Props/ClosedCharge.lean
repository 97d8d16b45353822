import Verif.Props.Triangles
import Verif.Props.Passive
import Verif.Proofs.PlateField
import Verif.Props.DriverExample

/-!
# C81: total charge and passivity of closed models
-/

set_option linter.unusedSectionVars false

namespace Tulip.Props
open Tulip Tulip.Spec Matrix

section
variable {𝕜 : Type} [Field 𝕜] [DecidableEq 𝕜] [LinearOrder 𝕜] [IsStrictOrderedRing 𝕜]

/-- A constant potential is a field of a closed model: no charges. -/
theorem constant_prescribed {A : Analytic 𝕜} {F : FEM 𝕜} {mats : Materials 𝕜} (hC : RepresentsConstants F)
    (hopen : mats.openBoundaries = []) (b : Bool) (c : 𝕜) :
    PrescribedField A F mats b (fun _ => c) ⟨fun _ => c, fun _ => 0, fun _ => 0⟩ where
  values := by
    rintro k x ⟨p, hp, hk⟩ hx
    exact hx p hp hk
  equations := by
    intro k _
    rw [hopen]
    unfold weakForm
    have h1 : ∀ q ∈ F.dom, q.w * declaredEps mats b q.attr * inner2 (q.gradN k) (vectorAt q.gradN (fun _ => c)) = 0 := by
      intro q hq
      obtain ⟨e1, e2⟩ := hC.gradN q hq
      unfold vectorAt inner2
      simp only [← Finset.mul_sum, e1, e2, mul_zero, add_zero]
    rw [List.map_congr_left h1]
    simp
  e := by
    intro k
    have := congrFun hC.grad k
    simp only [Matrix.mulVec, dotProduct, mul_one] at this
    show (0 : 𝕜) = -∑ i, F.grad k i * c
    rw [← Finset.sum_mul, this, zero_mul, neg_zero]
  d := by
    intro k
    have hz : ∀ {n : Nat} (f : Fin n → 𝕜 × 𝕜), vectorAt f (fun _ => (0 : 𝕜)) = (0, 0) := by
      intro n f
      simp [vectorAt]
    simp only [hz, inner2, mul_zero, add_zero]

/-- Charges in the fields of the single conductors at 1 V: those on any boundary add up to zero. -/
theorem excitations_cancel {A : Analytic 𝕜} {F : FEM 𝕜} {mats : Materials 𝕜} (hC : RepresentsConstants F)
    (hopen : mats.openBoundaries = []) (hw : WellPosed A F mats) (hs : Separate F mats) {ps : List (PEC 𝕜)}
    (hN : Numbering mats ps) (hn : (ps.map PEC.tag).Nodup) {b : Bool} {u : Fin ps.length → SolverSolution F}
    (hu : ∀ j : Fin ps.length, PrescribedField A F mats b (oneVolt ps[j].tag) (u j)) (tag : Int) :
    ∑ j, chargeOn (u j) tag = 0 := by
  have h := (constant_prescribed (A := A) hC hopen b 1).eq_superposed hw hs hN hn hu
  have h2 : chargeOn (⟨fun _ => 1, fun _ => 0, fun _ => 0⟩ : SolverSolution F) tag = 0 := by
    unfold chargeOn outwardFlux scalarAt
    simp
  rw [h] at h2
  unfold chargeOn at h2
  rw [← flux_neg_one, flux_superposed] at h2
  simp only [flux_neg_one, one_mul] at h2
  exact h2

/-- If rows add up to zero and the symmetric part is positive semidefinite, columns add up to zero. -/
theorem columns_cancel {n : Nat} {Q M : Matrix (Fin n) (Fin n) 𝕜} (hM : ∀ i j, M i j = (Q i j + Q j i) / 2)
    (hp : ∀ x, 0 ≤ x ⬝ᵥ M.mulVec x) (hr : ∀ i, ∑ j, Q i j = 0) (j : Fin n) : ∑ i, Q i j = 0 := by
  set c := ∑ i, Q i j with hc
  have hrow : ∀ k, (M.mulVec fun _ => 1) k = (∑ i, Q i k) / 2 := by
    intro k
    simp only [Matrix.mulVec, dotProduct, mul_one, hM]
    rw [← Finset.sum_div, Finset.sum_add_distrib, hr, zero_add]
  have hcol : ∀ k, ((fun _ => 1) ᵥ* M) k = (∑ i, Q i k) / 2 := by
    intro k
    simp only [Matrix.vecMul, dotProduct, one_mul, hM]
    rw [← Finset.sum_div, Finset.sum_add_distrib, hr, add_zero]
  have htot : (fun _ => 1) ⬝ᵥ M.mulVec (fun _ => 1) = 0 := by
    simp only [dotProduct, one_mul, hrow]
    rw [← Finset.sum_div, Finset.sum_comm]
    simp [hr]
  -- along 1 + s e_j the quadratic form is linear in s plus a square
  have hq : ∀ s : 𝕜, 0 ≤ s * c + s ^ 2 * M j j := by
    intro s
    have := hp ((fun _ => 1) + s • Pi.single j 1)
    rw [Matrix.mulVec_add, dotProduct_add, add_dotProduct, add_dotProduct, htot, Matrix.mulVec_smul, dotProduct_smul,
      smul_dotProduct, smul_dotProduct, Matrix.dotProduct_mulVec (fun _ => 1), dotProduct_single, hcol, single_dotProduct, hrow,
      dotProduct_smul, single_dotProduct, Matrix.mulVec_single_one] at this
    simp only [Matrix.col_apply, smul_eq_mul, one_mul, mul_one, ← hc] at this
    have e : s * c + s ^ 2 * M j j = 0 + s * (c / 2) + (s * (c / 2) + s * (s * M j j)) := by ring
    rw [e]
    exact this
  by_contra hne
  have hM0 : 0 ≤ M j j := by
    have := hp (Pi.single j 1)
    rwa [Matrix.mulVec_single_one, single_dotProduct, one_mul, Matrix.col_apply] at this
  -- choose s = -c / (M j j + 1)
  have h1 : 0 < M j j + 1 := by linarith
  have := hq (-c / (M j j + 1))
  have e : -c / (M j j + 1) * c + (-c / (M j j + 1)) ^ 2 * M j j = -(c ^ 2) / (M j j + 1) ^ 2 := by
    field_simp
    ring
  rw [e] at this
  have hneg : -(c ^ 2) / (M j j + 1) ^ 2 < 0 :=
    div_neg_of_neg_of_pos (neg_neg_of_pos (sq_pos_of_ne_zero hne)) (pow_pos h1 2)
  exact absurd this (not_le.mpr hneg)

/-- **C81, what holds.** In a closed model, equal potentials on all conductors give no charge anywhere; and if a
generalized capacitance matrix is positive semidefinite, the charges on the conductors add up to zero in every field. -/
theorem C81_closed_partial (E : Engine 𝕜) {model : Model 𝕜} {opts : DriverOptions}
    {ps : List (PEC 𝕜)} (hN : Numbering model.materials ps) (hB : Buildable (E.fem model opts) model.materials)
    (hW : WellDeclared model.materials) (hP : ExactSolver E.pcg)
    (hw : WellPosed E.analytic (E.fem model opts) model.materials) (hn : (ps.map PEC.tag).Nodup)
    (hs : Separate (E.fem model opts) model.materials) (hC : RepresentsConstants (E.fem model opts))
    (hopen : model.materials.openBoundaries = []) {d : Driver (E.fem model opts)}
    (hd : (Driver.construct E model opts).1 = .ok d) (b : Bool) :
    (∀ (V : Int → 𝕜) (t : SolverSolution (E.fem model opts)),
      PrescribedField E.analytic (E.fem model opts) model.materials b V t →
      (∀ p ∈ model.materials.pecs, ∀ q ∈ model.materials.pecs, V p.tag = V q.tag) → ∀ tag, chargeOn t tag = 0) ∧
    (∀ G : Matrix (Fin ps.length) (Fin ps.length) 𝕜,
      ((Query.generalizedC b).exec E d).1 = .ok (.matrix (DMat.ofMatrix G)) → PSD G →
      ∀ (V : Int → 𝕜) (t : SolverSolution (E.fem model opts)),
        PrescribedField E.analytic (E.fem model opts) model.materials b V t →
        (ps.map (fun p => chargeOn t p.tag)).sum = 0) := by
  obtain ⟨sols, hlen, hst, hf⟩ := C29_excitation E hN hB d hd b
  have hu : ∀ j : Fin ps.length, PrescribedField E.analytic (E.fem model opts) model.materials b (oneVolt ps[j].tag)
      (sols[j.1]'(by omega)) := fun j => (hf j.1 j.2 (by omega)).2 hW hP hw
  have hcancel := excitations_cancel hC hopen hw hs hN hn hu
  have hsup : ∀ (V : Int → 𝕜) (t : SolverSolution (E.fem model opts)),
      PrescribedField E.analytic (E.fem model opts) model.materials b V t → ∀ tag,
      chargeOn t tag = ∑ j : Fin ps.length, V ps[j].tag * chargeOn (sols[j.1]'(by omega)) tag := by
    intro V t ht tag
    rw [ht.eq_superposed hw hs hN hn hu]
    unfold chargeOn
    rw [← flux_neg_one, flux_superposed]
    simp only [flux_neg_one]
  constructor
  · intro V t ht heq tag
    obtain ⟨p, hp⟩ := List.exists_mem_of_ne_nil _ hN.nonempty
    have hV : ∀ j : Fin ps.length, V ps[j].tag = V p.tag := fun j =>
      heq _ (hN.all.mem_iff.mp (List.getElem_mem _)) _ (hN.all.mem_iff.mp hp)
    rw [hsup V t ht tag]
    simp only [hV]
    rw [← Finset.mul_sum, hcancel, mul_zero]
  · intro G hG hpsd V t ht
    have hop : model.determineOpenness = .ok .closed := by
      unfold Model.determineOpenness
      rw [hopen]
      rfl
    obtain ⟨c1, c2⟩ := C31_generalized E hN hd hop b
    have hc : ¬ (ps.length = 1 ∧ Openness.closed = .closed) := by
      intro hc
      have e := c1 hc
      rw [hG] at e
      cases e
    obtain ⟨M, e, _, hM⟩ := generalized_of_fields E hN hB hW hP hw hs hd hop hc b
    have := ofMatrix_eq (Answer.matrix.inj (Outcome.ok.inj (hG.symm.trans e)))
    subst this
    have hcol := columns_cancel (Q := Matrix.of fun i j : Fin ps.length => chargeOn (sols[j.1]'(by omega)) ps[i].tag) (M := G)
      (fun i j => by
        rw [hM i j _ _ (hu i) (hu j)]
        show _ = (chargeOn _ ps[i].tag + chargeOn _ ps[j].tag) / 2
        ring) hpsd.2 (fun i => hcancel ps[i].tag)
    have hsum : (ps.map (fun p => chargeOn t p.tag)).sum = ∑ i : Fin ps.length, chargeOn t ps[i].tag := by
      rw [← Fin.sum_univ_fun_getElem]
      rfl
    rw [hsum]
    simp only [hsup V t ht]
    rw [Finset.sum_comm]
    refine Finset.sum_eq_zero fun j _ => ?_
    rw [← Finset.mul_sum]
    have : ∑ i : Fin ps.length, chargeOn (sols[j.1]'(by omega)) ps[i].tag = 0 := hcol j
    rw [this, mul_zero]

end
end Tulip.Props
