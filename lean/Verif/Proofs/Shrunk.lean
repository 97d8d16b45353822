import Verif.Spec.Shrunk
import Verif.Proofs.CrossSection
import Mathlib.Analysis.Normed.Affine.Convex

/-!
# Potentials on a cross-section with a smaller conductor
-/

namespace Tulip
open MeasureTheory Set Spec Filter Topology

section
variable {T T' : Triangulation ℝ} {v : ℝ × ℝ → ℝ} {L c : ℝ} {k : Int} {mats : Materials ℝ}

open Classical in
/-- The former potential, and that of the conductor where it has been. -/
noncomputable def extended (T : Triangulation ℝ) (c : ℝ) (v : ℝ × ℝ → ℝ) (x : ℝ × ℝ) : ℝ := if x ∈ covered T then v x else c

theorem extended_on {x : ℝ × ℝ} (hx : x ∈ covered T) : extended T c v x = v x := if_pos hx

theorem extended_off {x : ℝ × ℝ} (hx : x ∉ covered T) : extended T c v x = c := if_neg hx

theorem extended_exit (hs : Enlarged T T' k) (h : Slopes T L v) (hL : 0 ≤ L) (hk : ∀ x ∈ boundaryPart T k, v x = c) {x z : ℝ × ℝ}
    (hxz : segment ℝ x z ⊆ covered T') (hz : z ∉ covered T) : |extended T c v x - c| ≤ L * dist x z := by
  by_cases hx : x ∈ covered T
  swap
  · rw [extended_off hx, sub_self, abs_zero]
    exact mul_nonneg hL dist_nonneg
  rw [extended_on hx]
  let γ : ℝ → ℝ × ℝ := fun s => AffineMap.lineMap x z s
  have hγ : Continuous γ := AffineMap.lineMap_continuous
  have hγseg : ∀ s ∈ Icc (0 : ℝ) 1, γ s ∈ segment ℝ x z := fun s hs => by
    rw [segment_eq_image_lineMap]
    exact ⟨s, hs, rfl⟩
  let A : Set ℝ := {s | s ∈ Icc (0 : ℝ) 1 ∧ γ s ∉ covered T}
  have hA1 : (1 : ℝ) ∈ A := ⟨⟨zero_le_one, le_rfl⟩, by simpa [γ] using hz⟩
  have hbd : BddBelow A := ⟨0, fun s hs => hs.1.1⟩
  set s0 := sInf A with hs0
  have h0 : 0 ≤ s0 := le_csInf ⟨1, hA1⟩ fun s hs => hs.1.1
  have h1 : s0 ≤ 1 := csInf_le hbd hA1
  have hbefore : ∀ s, 0 ≤ s → s < s0 → γ s ∈ covered T := fun s hs hlt => by
    by_contra hn
    exact absurd (csInf_le hbd (show s ∈ A from ⟨⟨hs, hlt.le.trans h1⟩, hn⟩)) (not_le.mpr hlt)
  have hat : γ s0 ∈ covered T := by
    rcases eq_or_lt_of_le h0 with h0 | h0
    · rw [← h0]
      simpa [γ] using hx
    · have hcl : IsClosed {s | γ s ∈ covered T} := (covered_closed T).isClosed.preimage hγ
      have hsub : closure (Ico 0 s0) ⊆ {s | γ s ∈ covered T} := hcl.closure_subset_iff.mpr fun s hs => hbefore s hs.1 hs.2
      rw [closure_Ico h0.ne] at hsub
      exact hsub ⟨h0.le, le_rfl⟩
  have hfreed : γ s0 ∈ closure (covered T' \ covered T) := by
    have hsub : γ '' A ⊆ covered T' \ covered T := by
      rintro _ ⟨s, hs, rfl⟩
      exact ⟨hxz (hγseg s hs.1), hs.2⟩
    exact closure_mono hsub (image_closure_subset_closure_image hγ ⟨s0, csInf_mem_closure ⟨1, hA1⟩ hbd, rfl⟩)
  have hend := hk _ (hs.freed _ hat hfreed)
  have hseg : segment ℝ x (γ s0) ⊆ covered T := by
    intro y hy
    rw [segment_eq_image_lineMap] at hy
    obtain ⟨r, hr, rfl⟩ := hy
    have e : AffineMap.lineMap x (γ s0) r = γ (r * s0) := by
      simp only [γ, AffineMap.lineMap_apply, vsub_eq_sub, vadd_eq_add, add_sub_cancel_right, smul_smul]
    rw [e]
    rcases eq_or_lt_of_le (show r * s0 ≤ s0 from mul_le_of_le_one_left h0 hr.2) with e | e
    · rw [e]; exact hat
    · exact hbefore _ (mul_nonneg hr.1 h0) e
  have := h x (γ s0) hseg
  rw [hend] at this
  refine this.trans (mul_le_mul_of_nonneg_left ?_ hL)
  rw [dist_left_lineMap, Real.norm_eq_abs, abs_of_nonneg h0]
  exact mul_le_of_le_one_left dist_nonneg h1

theorem extended_slopes (hs : Enlarged T T' k) (h : Slopes T L v) (hL : 0 ≤ L) (hk : ∀ x ∈ boundaryPart T k, v x = c) : Slopes T' L (extended T c v) := by
  intro x y hxy
  by_cases hin : segment ℝ x y ⊆ covered T
  · rw [extended_on (hin (left_mem_segment ℝ x y)), extended_on (hin (right_mem_segment ℝ x y))]
    exact h x y hin
  · obtain ⟨z, hz, hzT⟩ := not_subset.mp hin
    have hxz : segment ℝ x z ⊆ covered T' := ((convex_segment x y).segment_subset (left_mem_segment ℝ x y) hz).trans hxy
    have hyz : segment ℝ y z ⊆ covered T' := ((convex_segment x y).segment_subset (right_mem_segment ℝ x y) hz).trans hxy
    have h1 := extended_exit hs h hL hk hxz hzT
    have h2 := extended_exit hs h hL hk hyz hzT
    rw [← dist_add_dist_of_mem_segment hz, mul_add]
    have : |extended T c v x - extended T c v y| ≤ |extended T c v x - c| + |extended T c v y - c| := by
      rw [show extended T c v x - extended T c v y = (extended T c v x - c) - (extended T c v y - c) by ring]
      exact abs_sub _ _
    rw [dist_comm z y]
    linarith

theorem boundary_covered (hT : Proper T) (tag : Int) : boundaryPart T tag ⊆ covered T := by
  rintro x ⟨s, hs, -, hx⟩
  obtain ⟨t, ht, hside⟩ := hT.segs s hs
  refine ⟨t, ht, (triangle_convex t).segment_subset ?_ ?_ hx⟩
  all_goals
    refine subset_convexHull ℝ _ ?_
    simp only [Tri.sides, List.mem_cons, Prod.mk.injEq, List.not_mem_nil, or_false] at hside
    rcases hside with ⟨h1, h2⟩ | ⟨h1, h2⟩ | ⟨h1, h2⟩ <;> simp [h1, h2]

theorem extended_potential {V : Int → ℝ} (hT : ∀ tag, boundaryPart T tag ⊆ covered T) (hs : Shrunk T T' mats k) (hk : ∃ c ∈ mats.pecs, c.tag = k) (h : Potential T mats V v) :
    Potential T' mats V (extended T (V k) v) := by
  obtain ⟨L, hL, hsl⟩ := potential_slopes h
  have hk' : ∀ x ∈ boundaryPart T k, v x = V k := by
    obtain ⟨c, hc, rfl⟩ := hk
    exact h.conductors c hc
  refine ⟨⟨L, extended_slopes hs.toEnlarged hsl hL hk'⟩, fun c hc x hx => ?_⟩
  by_cases hck : c.tag = k
  · rw [hck] at hx ⊢
    by_cases hxT : x ∈ covered T
    · rw [extended_on hxT, hk' x (hs.surface x hx hxT)]
    · rw [extended_off hxT]
  · rw [hs.others c hc hck] at hx
    rw [extended_on (hT _ hx), h.conductors c hc x hx]

theorem extended_removed {V : Int → ℝ} {mats' : Materials ℝ} (hT : ∀ tag, boundaryPart T tag ⊆ covered T) (hs : Removed T T' mats mats' k)
    (hk : ∃ c ∈ mats.pecs, c.tag = k) (h : Potential T mats V v) : Potential T' mats' V (extended T (V k) v) := by
  obtain ⟨L, hL, hsl⟩ := potential_slopes h
  have hk' : ∀ x ∈ boundaryPart T k, v x = V k := by
    obtain ⟨c, hc, rfl⟩ := hk
    exact h.conductors c hc
  refine ⟨⟨L, extended_slopes hs.toEnlarged hsl hL hk'⟩, fun c hc x hx => ?_⟩
  rw [hs.others c hc] at hx
  rw [extended_on (hT _ hx), h.conductors c (List.mem_of_mem_filter (hs.conductors ▸ hc)) x hx]

theorem extended_energy (ha : Apart T) (ha' : Apart T') (hs : Enlarged T T' k) (eps : Int → ℝ) (h : Slopes T L v) (hL : 0 ≤ L)
    (hk : ∀ x ∈ boundaryPart T k, v x = c) : potentialEnergy T' eps (extended T c v) = potentialEnergy T eps v := by
  have hi' : IntegrableOn (gradSq (extended T c v)) (covered T') := slopes_integrable (extended_slopes hs h hL hk) hL
  have hcl : IsClosed (covered T) := (covered_closed T).isClosed
  have e1 : ∀ t ∈ T.tris, eps t.attr / 2 * ∫ x in triangle T t, gradSq v x =
      (T'.tris.map (fun q => eps t.attr / 2 * ∫ x in interior (triangle T t) ∩ interior (triangle T' q), gradSq (extended T c v) x)).sum := fun t ht => by
    have hsub : interior (triangle T t) ⊆ covered T := fun x hx => ⟨t, ht, interior_subset hx⟩
    have hg : ∫ x in interior (triangle T t), gradSq v x = ∫ x in interior (triangle T t), gradSq (extended T c v) x := by
      refine setIntegral_congr_fun isOpen_interior.measurableSet fun x hx => ?_
      have : extended T c v =ᶠ[𝓝 x] v := by
        filter_upwards [isOpen_interior.mem_nhds hx] with y hy
        exact extended_on (hsub hy)
      unfold gradSq
      simp only [this.fderiv_eq]
    rw [← integral_interior (triangle_convex t) (triangle_closed t), hg,
      integral_covered ha' isOpen_interior.measurableSet (hsub.trans hs.region) (hi'.mono_set (hsub.trans hs.region)), List.sum_map_mul_left]
  have e2 : ∀ q ∈ T'.tris, eps q.attr / 2 * ∫ x in triangle T' q, gradSq (extended T c v) x =
      (T.tris.map (fun t => eps q.attr / 2 * ∫ x in interior (triangle T' q) ∩ interior (triangle T t), gradSq (extended T c v) x)).sum := fun q hq => by
    have hsub : interior (triangle T' q) ⊆ covered T' := fun x hx => ⟨q, hq, interior_subset hx⟩
    have hz : ∫ x in interior (triangle T' q) \ covered T, gradSq (extended T c v) x = 0 := by
      have hzero : ∀ x ∈ interior (triangle T' q) \ covered T, gradSq (extended T c v) x = 0 := ?_
      · exact setIntegral_eq_zero_of_forall_eq_zero hzero
      intro x hx
      have : extended T c v =ᶠ[𝓝 x] fun _ => c := by
        filter_upwards [((isOpen_interior (s := triangle T' q)).sdiff hcl).mem_nhds hx] with y hy
        exact extended_off hy.2
      unfold gradSq
      rw [this.fderiv_eq, fderiv_const_apply]
      simp
    rw [← integral_interior (triangle_convex q) (triangle_closed q),
      ← integral_inter_add_diff hcl.measurableSet (hi'.mono_set hsub), hz, add_zero,
      integral_covered ha (isOpen_interior.measurableSet.inter hcl.measurableSet) inter_subset_right (hi'.mono_set (inter_subset_left.trans hsub)),
      List.sum_map_mul_left]
    refine congrArg (fun l : List ℝ => eps q.attr / 2 * l.sum) (List.map_congr_left fun t ht => ?_)
    rw [inter_assoc, inter_eq_right.mpr (show interior (triangle T t) ⊆ covered T from fun x hx => ⟨t, ht, interior_subset hx⟩)]
  show (T'.tris.map (fun q => eps q.attr / 2 * ∫ x in triangle T' q, gradSq (extended T c v) x)).sum = (T.tris.map (fun t => eps t.attr / 2 * ∫ x in triangle T t, gradSq v x)).sum
  rw [List.map_congr_left e1, List.map_congr_left e2, sum_swap]
  refine congrArg List.sum (List.map_congr_left fun q hq => congrArg List.sum (List.map_congr_left fun t ht => ?_))
  rw [inter_comm]
  by_cases hn : (interior (triangle T q) ∩ interior (triangle T' t)).Nonempty
  · rw [hs.material q hq t ht hn]
  · rw [not_nonempty_iff_eq_empty.mp hn]
    simp

end
end Tulip
