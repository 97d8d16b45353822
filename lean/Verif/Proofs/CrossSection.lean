import Verif.Proofs.Interpolation
import Mathlib.Analysis.Calculus.Rademacher
import Mathlib.Analysis.Calculus.FDeriv.Measurable
import Mathlib.MeasureTheory.Integral.DominatedConvergence

/-!
# Integrals over a cross-section, and potentials on it
-/

namespace Tulip
open MeasureTheory Set Spec Filter Topology

section
variable {T T' : Triangulation ℝ} {v w : ℝ × ℝ → ℝ} {L : ℝ}

/-- Triangles do not overlap. -/
abbrev Apart (T : Triangulation ℝ) : Prop := T.tris.Pairwise (fun t t' => Disjoint (interior (triangle T t)) (interior (triangle T t')))

/-- Integral over disjoint open pieces. -/
theorem integral_pieces {α : Type*} {K : α → Set (ℝ × ℝ)} {l : List α} (hK : ∀ p ∈ l, IsOpen (K p)) (ha : l.Pairwise (fun p q => Disjoint (K p) (K q)))
    {U : Set (ℝ × ℝ)} (hU : MeasurableSet U) {F : ℝ × ℝ → ℝ} (hi : IntegrableOn F U) :
    ∫ x in U ∩ {x | ∃ p ∈ l, x ∈ K p}, F x = (l.map (fun p => ∫ x in U ∩ K p, F x)).sum := by
  induction l with
  | nil => simp
  | cons p l ih =>
    have ha' := List.pairwise_cons.mp ha
    have e : U ∩ {x | ∃ q ∈ p :: l, x ∈ K q} = (U ∩ K p) ∪ (U ∩ {x | ∃ q ∈ l, x ∈ K q}) := by
      ext x
      simp only [List.mem_cons, exists_eq_or_imp, mem_inter_iff, mem_setOf_eq, mem_union]
      tauto
    have hm : MeasurableSet {x | ∃ q ∈ l, x ∈ K q} := by
      have : {x | ∃ q ∈ l, x ∈ K q} = ⋃ q ∈ {q | q ∈ l}, K q := by ext; simp
      rw [this]
      exact (isOpen_biUnion fun q hq => hK q (List.mem_cons_of_mem _ hq)).measurableSet
    rw [e, setIntegral_union _ (hU.inter hm) (hi.mono_set inter_subset_left) (hi.mono_set inter_subset_left),
      ih (fun q hq => hK q (List.mem_cons_of_mem _ hq)) ha'.2, List.map_cons, List.sum_cons]
    rw [Set.disjoint_left]
    rintro x ⟨-, hx⟩ ⟨-, q, hq, hxq⟩
    exact Set.disjoint_left.mp (ha'.1 q hq) hx hxq

/-- Sides of triangles have no area. -/
theorem sides_null (T : Triangulation ℝ) : volume {x | ∃ t ∈ T.tris, x ∈ frontier (triangle T t)} = 0 := by
  have : {x | ∃ t ∈ T.tris, x ∈ frontier (triangle T t)} = ⋃ t ∈ {t | t ∈ T.tris}, frontier (triangle T t) := by ext; simp
  rw [this]
  exact (measure_biUnion_null_iff T.tris.finite_toSet.countable).mpr fun t _ => (triangle_convex t).addHaar_frontier volume

theorem integral_covered (ha : Apart T) {U : Set (ℝ × ℝ)} (hU : MeasurableSet U) (hc : U ⊆ covered T) {F : ℝ × ℝ → ℝ} (hi : IntegrableOn F U) :
    ∫ x in U, F x = (T.tris.map (fun t => ∫ x in U ∩ interior (triangle T t), F x)).sum := by
  rw [← integral_pieces (fun t _ => isOpen_interior) ha hU hi]
  refine setIntegral_congr_set ?_
  have hsub : U \ (U ∩ {x | ∃ t ∈ T.tris, x ∈ interior (triangle T t)}) ⊆ {x | ∃ t ∈ T.tris, x ∈ frontier (triangle T t)} := by
    rintro x ⟨hx, hn⟩
    obtain ⟨t, ht, hxt⟩ := hc hx
    exact ⟨t, ht, subset_closure hxt, fun h => hn ⟨hx, t, ht, h⟩⟩
  rw [ae_eq_set]
  exact ⟨measure_mono_null hsub (sides_null T), by rw [diff_eq_empty.mpr inter_subset_left, measure_empty]⟩

/-- Integrals over a cross-section do not depend on the mesh. -/
theorem integral_same (ha : Apart T) (ha' : Apart T') (hs : SameCrossSection T T') (eps : Int → ℝ) {F : ℝ × ℝ → ℝ} (hi : IntegrableOn F (covered T)) :
    (T.tris.map (fun t => eps t.attr / 2 * ∫ x in triangle T t, F x)).sum = (T'.tris.map (fun q => eps q.attr / 2 * ∫ x in triangle T' q, F x)).sum := by
  have hi' : IntegrableOn F (covered T') := hs.region ▸ hi
  have e1 : ∀ t ∈ T.tris, eps t.attr / 2 * ∫ x in triangle T t, F x =
      (T'.tris.map (fun q => eps t.attr / 2 * ∫ x in interior (triangle T t) ∩ interior (triangle T' q), F x)).sum := fun t ht => by
    have hsub : interior (triangle T t) ⊆ covered T := fun x hx => ⟨t, ht, interior_subset hx⟩
    rw [← integral_interior (triangle_convex t) (triangle_closed t), integral_covered ha' isOpen_interior.measurableSet (hs.region ▸ hsub) (hi.mono_set hsub),
      List.sum_map_mul_left]
  have e2 : ∀ q ∈ T'.tris, eps q.attr / 2 * ∫ x in triangle T' q, F x =
      (T.tris.map (fun t => eps q.attr / 2 * ∫ x in interior (triangle T' q) ∩ interior (triangle T t), F x)).sum := fun q hq => by
    have hsub : interior (triangle T' q) ⊆ covered T' := fun x hx => ⟨q, hq, interior_subset hx⟩
    rw [← integral_interior (triangle_convex q) (triangle_closed q), integral_covered ha isOpen_interior.measurableSet (hs.region ▸ hsub) (hi'.mono_set hsub),
      List.sum_map_mul_left]
  rw [List.map_congr_left e1, List.map_congr_left e2, sum_swap]
  refine congrArg List.sum (List.map_congr_left fun q hq => congrArg List.sum (List.map_congr_left fun t ht => ?_))
  rw [inter_comm]
  by_cases hn : (interior (triangle T t) ∩ interior (triangle T' q)).Nonempty
  · rw [hs.material t ht q hq hn]
  · rw [inter_comm, not_nonempty_iff_eq_empty.mp hn]
    simp

theorem sameCrossSection_symm (h : SameCrossSection T T') : SameCrossSection T' T :=
  ⟨h.region.symm, fun t ht t' ht' hn => (h.material t' ht' t ht (by rwa [inter_comm])).symm, fun tag => (h.boundary tag).symm⟩

/-- An open set of the cross-section has points in the interior of triangles of every mesh. -/
theorem meets_interior {U : Set (ℝ × ℝ)} (hU : IsOpen U) (hne : U.Nonempty) (hc : U ⊆ covered T) :
    ∃ t ∈ T.tris, (U ∩ interior (triangle T t)).Nonempty := by
  by_contra hno
  have hsub : U ⊆ ⋃ t ∈ {t | t ∈ T.tris}, frontier (triangle T t) := by
    intro x hx
    obtain ⟨t, ht, hxt⟩ := hc hx
    exact mem_biUnion ht ⟨subset_closure hxt, fun hi => hno ⟨t, ht, x, hx, hi⟩⟩
  have h0 : volume (⋃ t ∈ {t | t ∈ T.tris}, frontier (triangle T t)) = 0 :=
    (measure_biUnion_null_iff T.tris.finite_toSet.countable).mpr fun t _ => (triangle_convex t).addHaar_frontier volume
  exact (hU.measure_pos volume hne).ne' (measure_mono_null hsub h0)

theorem covered_closed (T : Triangulation ℝ) : IsCompact (covered T) := by
  have : covered T = ⋃ t ∈ {t | t ∈ T.tris}, triangle T t := by ext; simp [covered]
  rw [this]
  exact T.tris.finite_toSet.isCompact_biUnion fun t _ => triangle_compact t

/-- Slopes along straight lines in the cross-section are bounded. -/
def Slopes (T : Triangulation ℝ) (L : ℝ) (v : ℝ × ℝ → ℝ) : Prop := ∀ x y, segment ℝ x y ⊆ covered T → |v x - v y| ≤ L * dist x y

theorem Slopes.mono (h : Slopes T L v) {M : ℝ} (hM : L ≤ M) : Slopes T M v := fun x y hxy =>
  (h x y hxy).trans (mul_le_mul_of_nonneg_right hM dist_nonneg)

theorem slopes_triangle (h : Slopes T L v) {t : Tri T.nv} (ht : t ∈ T.tris) {x y : ℝ × ℝ} (hx : x ∈ triangle T t) (hy : y ∈ triangle T t) :
    |v x - v y| ≤ L * dist x y := h x y fun _ hz => ⟨t, ht, (triangle_convex t).segment_subset hx hy hz⟩

theorem slopes_lipschitz (h : Slopes T L v) (hL : 0 ≤ L) {t : Tri T.nv} (ht : t ∈ T.tris) : LipschitzOnWith ⟨L, hL⟩ v (triangle T t) :=
  LipschitzOnWith.of_dist_le_mul fun x hx y hy => by
    rw [Real.dist_eq]
    exact slopes_triangle h ht hx hy

theorem slopes_differentiable (h : Slopes T L v) (hL : 0 ≤ L) :
    ∀ᵐ x ∂(volume : Measure (ℝ × ℝ)), ∀ t ∈ T.tris, x ∈ interior (triangle T t) → DifferentiableAt ℝ v x := by
  have : ∀ t ∈ {t | t ∈ T.tris}, ∀ᵐ x ∂(volume : Measure (ℝ × ℝ)), x ∈ interior (triangle T t) → DifferentiableAt ℝ v x := fun t ht => by
    have := ((slopes_lipschitz h hL ht).mono interior_subset).ae_differentiableWithinAt_of_mem (μ := (volume : Measure (ℝ × ℝ)))
    filter_upwards [this] with x hx hxt
    exact (hx hxt).differentiableAt (isOpen_interior.mem_nhds hxt)
  exact (ae_ball_iff T.tris.finite_toSet.countable).mpr this

theorem slopes_fderiv (h : Slopes T L v) (hL : 0 ≤ L) {t : Tri T.nv} (ht : t ∈ T.tris) {x : ℝ × ℝ} (hx : x ∈ interior (triangle T t)) :
    ‖fderiv ℝ v x‖ ≤ L := by
  refine norm_fderiv_le_of_lip' ℝ hL ?_
  filter_upwards [isOpen_interior.mem_nhds hx] with y hy
  rw [Real.norm_eq_abs, ← dist_eq_norm]
  exact slopes_triangle h ht (interior_subset hy) (interior_subset hx)

theorem fderiv_measurable (v : ℝ × ℝ → ℝ) (e : ℝ × ℝ) : Measurable (fun x => fderiv ℝ v x e) := measurable_fderiv_apply_const ℝ v e

theorem gradSq_measurable (v : ℝ × ℝ → ℝ) : Measurable (gradSq v) :=
  ((fderiv_measurable v _).pow_const 2).add ((fderiv_measurable v _).pow_const 2)

theorem slopes_ae {p : ℝ × ℝ → Prop} (h : ∀ᵐ x ∂(volume : Measure (ℝ × ℝ)), ∀ t ∈ T.tris, x ∈ interior (triangle T t) → p x) :
    ∀ᵐ x ∂(volume.restrict (covered T)), p x := by
  rw [ae_restrict_iff' (covered_closed T).isClosed.measurableSet]
  have h0 : ∀ᵐ x ∂(volume : Measure (ℝ × ℝ)), ¬ ∃ t ∈ T.tris, x ∈ frontier (triangle T t) := by
    rw [ae_iff]
    simpa using sides_null T
  filter_upwards [h, h0] with x hx hx0
  rintro ⟨t, ht, hxt⟩
  exact hx t ht (by_contra fun hn => hx0 ⟨t, ht, subset_closure hxt, hn⟩)

theorem slopes_gradSq (h : Slopes T L v) (hL : 0 ≤ L) {t : Tri T.nv} (ht : t ∈ T.tris) {x : ℝ × ℝ} (hx : x ∈ interior (triangle T t)) :
    gradSq v x ≤ 2 * L ^ 2 := by
  have := slopes_fderiv h hL ht hx
  have hc := coords_le (fderiv ℝ v x)
  have h1 := sq_le_sq' (by linarith [(abs_le.mp (hc.1.trans this)).1]) (abs_le.mp (hc.1.trans this)).2
  have h2 := sq_le_sq' (by linarith [(abs_le.mp (hc.2.trans this)).1]) (abs_le.mp (hc.2.trans this)).2
  unfold gradSq
  linarith

theorem slopes_integrable (h : Slopes T L v) (hL : 0 ≤ L) : IntegrableOn (gradSq v) (covered T) := by
  refine Measure.integrableOn_of_bounded (M := 2 * L ^ 2) (covered_closed T).measure_lt_top.ne (gradSq_measurable v).aestronglyMeasurable ?_
  refine slopes_ae (Eventually.of_forall fun x t ht hx => ?_)
  rw [Real.norm_eq_abs, abs_of_nonneg (by unfold gradSq; positivity)]
  exact slopes_gradSq h hL ht hx

theorem potential_slopes {mats : Materials ℝ} {V : Int → ℝ} (h : Potential T mats V v) : ∃ L, 0 ≤ L ∧ Slopes T L v := by
  obtain ⟨L, hL⟩ := h.slopes
  exact ⟨max L 0, le_max_right _ _, Slopes.mono hL (le_max_left _ _)⟩

theorem potential_same {mats : Materials ℝ} {V : Int → ℝ} (hs : SameCrossSection T T') (h : Potential T mats V v) : Potential T' mats V v := by
  refine ⟨?_, fun c hc x hx => h.conductors c hc x ?_⟩
  · rw [← hs.region]
    exact h.slopes
  · rwa [hs.boundary]

/-- The energy of a potential does not depend on the mesh. -/
theorem energy_same (ha : Apart T) (ha' : Apart T') (hs : SameCrossSection T T') (eps : Int → ℝ) (h : Slopes T L v) (hL : 0 ≤ L) :
    potentialEnergy T eps v = potentialEnergy T' eps v :=
  integral_same ha ha' hs eps (slopes_integrable h hL)

end
end Tulip
