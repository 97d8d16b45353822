import Verif.Props.BoxAccuracy
import Verif.Props.InCellExist

/-!
# C113 for the in-cell results of a driver
-/

noncomputable section

namespace Tulip.Props
open Tulip Tulip.Spec Tulip.Multipolar Tulip.Accuracy Tulip.InCellPotentials MeasureTheory

/-- The coefficients of an entry of the in-cell results are the moments of the charges on the conductors. -/
theorem entry_coefficients {F : FEM ℝ} {order : Nat} {ps : List (PEC ℝ)}
    (ht : (ps.map PEC.tag).Nodup) (i : Fin ps.length) (t : SolverSolution F) (c : ℝ × ℝ)
    (h0 : ∀ j : Fin ps.length, j ≠ i → chargeOn t ps[j].tag = 0) :
    (chargeOn t ps[i].tag, (0 : ℝ)) :: (List.range order).map (fun n =>
      (((pointCharges F t.d (ps.map PEC.tag)).map (fun q => q.1 * realAnalytic.moment q.2 (n + 1) 0 c)).sum,
       ((pointCharges F t.d (ps.map PEC.tag)).map (fun q => q.1 * realAnalytic.moment q.2 (n + 1) 1 c)).sum)) =
      lineCoefficients (pointCharges F t.d (ps.map PEC.tag)) c order := by
  unfold lineCoefficients
  rw [List.range_succ_eq_map, List.map_cons, List.map_map]
  congr 1
  refine Prod.ext ?_ (by simp)
  simp only
  have h1 : ∀ q : ℝ × ℝ × ℝ, momentComponent q.2 0 0 c = 1 := fun q => rfl
  simp only [h1, mul_one]
  have hs := sum_by_attr (fun q : BdrPt ℝ F.n F.nd => q.attr) (fun q => -scalarAt q.fl t.d) F.bdr (ps.map PEC.tag) ht
  have e1 : ((pointCharges F t.d (ps.map PEC.tag)).map (fun q => q.1)).sum =
      ((ps.map PEC.tag).map (fun a => chargeOn t a)).sum := by
    unfold pointCharges
    rw [List.map_map]
    refine Eq.trans ?_ (hs.trans ?_)
    · simp only [List.elem_eq_mem]
      rfl
    · congr 1
      apply List.map_congr_left
      intro a _
      unfold chargeOn outwardFlux
      rw [neg_eq_neg_one_mul, ← List.sum_map_mul_left]
      simp
  rw [e1, List.map_map, ← Fin.sum_univ_fun_getElem]
  exact (Finset.sum_eq_single i (fun j _ hj => h0 j hj) (fun h => absurd (Finset.mem_univ _) h)).symm

/-- **C113, in-cell results.** For every entry of the in-cell results, there is a field with one volt on its conductor and no
charge on the others such that the average over any box that contains the inner region approximates the mean of the potential
of the charges on the conductors with the error bound of `C113_charges`, for any radius `R` about the stored centre within
which all conductors lie. -/
theorem C113_in_cell {F : FEM ℝ} {model : Model ℝ} {b : Bool} {order : Nat} {ps : List (PEC ℝ)}
    (ht : (ps.map PEC.tag).Nodup) (i : Fin ps.length) (r : FieldReconstruction ℝ)
    (h : InCellEntry realAnalytic F model b order ps i r) :
    ∃ (V : Int → ℝ) (t : SolverSolution F), PrescribedField realAnalytic F model.materials b V t ∧ V ps[i].tag = 1 ∧
      (∀ j : Fin ps.length, j ≠ i → chargeOn t ps[j].tag = 0) ∧
      r.innerRegionAveragePotential = innerMean model F t.phi true ∧
      ∀ (box inner : Box ℝ), BoxContains box inner → BoxValid inner → box.min.1 < box.max.1 → box.min.2 < box.max.2 →
        ∀ R ρ : ℝ, 0 ≤ R → R < ρ →
        (∀ q ∈ F.bdr, q.attr ∈ ps.map PEC.tag → ‖toC q.pos - toC r.expansionCenter‖ ≤ R) →
        (∀ p ∈ outsideRegion box inner, ρ ≤ ‖toC p - toC r.expansionCenter‖) →
        ∃ y, getAveragePotential multipolarExpansion r inner box = .ok y ∧
          |y - exactMean (innerMean model F t.phi true) inner box
              (linePotential (pointCharges F t.d (ps.map PEC.tag)))| ≤
            ((pointCharges F t.d (ps.map PEC.tag)).map (fun q => |q.1|)).sum / (2 * Real.pi) *
              ((R / ρ) ^ (order + 1) / ((order + 1) * (1 - R / ρ)) +
                ((box.max.1 - box.min.1) ^ 2 + (box.max.2 - box.min.2) ^ 2) / (240000 * (ρ - R) ^ 2)) *
              (1 - (inner.max.1 - inner.min.1) * (inner.max.2 - inner.min.2) /
                ((box.max.1 - box.min.1) * (box.max.2 - box.min.2))) := by
  obtain ⟨V, t, h1, h2, h3, -, h5, -, -, -, h9⟩ := h
  refine ⟨V, t, h1, h2, h3, h5, ?_⟩
  intro box inner hc hv b1 b2 R ρ hR0 hRρ hR hdist
  rw [entry_coefficients ht i t r.expansionCenter h3] at h9
  rw [← h5]
  refine C113_charges _ order r h9 box inner hc hv b1 b2 R ρ hR0 hRρ ?_ hdist
  intro q hq
  unfold pointCharges at hq
  obtain ⟨x, hx, rfl⟩ := List.mem_map.mp hq
  obtain ⟨x1, x2⟩ := List.mem_filter.mp hx
  exact hR x x1 (by simpa using x2)

/-! ## A concrete entry: one conductor, one cell, an open boundary -/

/-- A segment from a conductor at the origin to an open boundary at (1/2, 0), whose weight makes the absorbing term 1. -/
def segmentFEM : FEM ℝ where
  n := 2
  ne := 1
  nd := 1
  bdrAttrs := [1, 2]
  domAttrs := [1]
  bdrElems := [(1, [0]), (2, [1])]
  node := fun i => (i.1 / 2, 0)
  dom := [{ attr := 1, w := 1, N := ![1/2, 1/2], gradN := ![(-1, 0), (1, 0)], W := fun _ => (1, 0), R := fun _ => (1, 0) }]
  bdr := [{ attr := 1, w := 1, pos := (0, 0), N := ![1, 0], fl := fun _ => -1 },
          { attr := 2, w := (firstOrderABC (1/2, 0))⁻¹, pos := (1/2, 0), N := ![0, 1], fl := fun _ => 1 }]
  grad := !![-1, 1]

/-- Its materials. -/
def segmentModel : Model ℝ where
  materials := { pecs := [⟨"Conductor_0", 1, 1⟩], openBoundaries := [⟨"OpenBoundary_0", 2⟩] }
  mesh := ⟨[], [], fun _ => (0, 0)⟩

/-- The field with one volt on the conductor. -/
def segmentField : SolverSolution segmentFEM where
  phi := ![1, 1/2]
  e := fun _ => 1/2
  d := fun _ => 1/2

theorem segment_abc : firstOrderABC (1/2, 0) ≠ 0 := by
  have hn : norml2 (1/2, 0) = 1/2 := by
    unfold norml2
    have : ((1 / 2 : ℝ) * (1 / 2) + 0 * 0) = (1 / 2) ^ 2 := by norm_num
    rw [this, Real.sqrt_sq (by norm_num)]
  unfold firstOrderABC
  rw [hn]
  have hl : Real.log (1 / 2) ≠ 0 := by
    have := Real.log_neg (x := 1 / 2) (by norm_num) (by norm_num)
    exact this.ne
  have he : EPSILON0_NATURAL ≠ 0 := by unfold EPSILON0_NATURAL; norm_num
  exact div_ne_zero (neg_ne_zero.mpr he) (mul_ne_zero (by norm_num) hl)

theorem segment_field : PrescribedField realAnalytic segmentFEM segmentModel.materials true (fun _ => 1) segmentField where
  values := by
    intro k c h1 h2
    obtain ⟨p, hp, hk⟩ := h1
    have := h2 p hp hk
    subst this
    have hp : p = ⟨"Conductor_0", 1, 1⟩ := List.mem_singleton.mp hp
    subst hp
    obtain ⟨x, hx, hx1, hx2⟩ := hk
    rcases List.mem_cons.mp hx with rfl | hx
    · have hx2 : k = (0 : Fin 2) := List.mem_singleton.mp hx2
      subst hx2
      rfl
    · obtain rfl := List.mem_singleton.mp hx
      exact absurd hx1 (by decide)
  equations := by
    intro k hk
    have h1 : k = (1 : Fin 2) := by
      have hk2 : ∀ j : Fin 2, j = 0 ∨ j = 1 := by decide
      rcases hk2 k with rfl | h
      · exact absurd ⟨((1 : Int), [(0 : Fin 2)]), List.mem_cons_self, rfl, List.mem_singleton.mpr rfl⟩
          (hk ⟨"Conductor_0", 1, 1⟩ (by simp [segmentModel]))
      · exact h
    subst h1
    unfold weakForm
    have h2 := segment_abc
    have hf : segmentFEM.bdr.filter (fun q => decide (q.attr ∈ segmentModel.materials.openBoundaries.map OpenBoundary.tag)) =
        [{ attr := 2, w := (firstOrderABC (1/2, 0))⁻¹, pos := (1/2, 0), N := ![0, 1], fl := fun _ => 1 }] := by
      simp [segmentFEM, segmentModel]
    rw [hf]
    simp only [List.map_cons, List.map_nil, List.sum_cons, List.sum_nil, segmentFEM, segmentField, realAnalytic]
    rw [inv_mul_cancel₀ h2]
    unfold inner2 vectorAt scalarAt declaredEps
    simp [Fin.sum_univ_two]
    norm_num
  e := by
    intro k
    have h0 : ∀ j : Fin 1, j = 0 := by decide
    obtain rfl : k = (0 : Fin 1) := h0 k
    show (1 / 2 : ℝ) = -∑ x : Fin 2, (!![-1, 1] : Matrix (Fin 1) (Fin 2) ℝ) 0 x * ![1, 1 / 2] x
    rw [Fin.sum_univ_two]
    norm_num
  d := by
    intro k
    simp only [segmentFEM, segmentField, declaredEps]
    simp [inner2, vectorAt]

/-- An entry of the in-cell results in this problem, of any order, and the bound for boxes around it: the hypotheses of
`C113_in_cell` can be met with `R = 0`. -/
example (m : Nat) : ∃ r : FieldReconstruction ℝ,
    InCellEntry realAnalytic segmentFEM segmentModel true m [⟨"Conductor_0", 1, 1⟩] ⟨0, by decide⟩ r ∧
    r.expansionCenter = (0, 0) ∧
    ∀ q ∈ segmentFEM.bdr, q.attr ∈ [(1 : Int)] → ‖toC q.pos - toC r.expansionCenter‖ ≤ 0 := by
  have hpc : pointCharges segmentFEM segmentField.d [1] = [(1 / 2, (0, 0))] := by
    simp [pointCharges, segmentFEM, segmentField, scalarAt]
    rfl
  have hch : chargeOn segmentField 1 = 1 / 2 := by
    simp [chargeOn, outwardFlux, segmentFEM, segmentField, scalarAt]
    rfl
  refine ⟨⟨innerMean segmentModel segmentFEM segmentField.phi true, (0, 0),
    (1 / 2, 0) :: (List.range m).map (fun n =>
      (((pointCharges segmentFEM segmentField.d [1]).map (fun q => q.1 * realAnalytic.moment q.2 (n + 1) 0 (0, 0))).sum,
       ((pointCharges segmentFEM segmentField.d [1]).map (fun q => q.1 * realAnalytic.moment q.2 (n + 1) 1 (0, 0))).sum)),
    [(0, 1)]⟩, ⟨fun _ => 1, segmentField, segment_field, rfl, ?_, rfl, rfl, ?_, ?_, ?_, ?_⟩, rfl, ?_⟩
  · intro j hj
    exact absurd (Subsingleton.elim (α := Fin 1) j _) hj
  · show chargeOn segmentField 1 ≠ 0
    rw [hch]; norm_num
  · show (0 : ℝ) * _ = ((pointCharges segmentFEM segmentField.d [1]).map _).sum
    rw [hpc]; simp
  · show (0 : ℝ) * _ = ((pointCharges segmentFEM segmentField.d [1]).map _).sum
    rw [hpc]; simp
  · show _ = (chargeOn segmentField 1, (0 : ℝ)) :: _
    rw [hch]
    rfl
  · intro q hq hqa
    rcases List.mem_cons.mp hq with rfl | hq
    · simp
    · obtain rfl := List.mem_singleton.mp hq
      simp at hqa

end Tulip.Props
