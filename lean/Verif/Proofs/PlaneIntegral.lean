import Mathlib.MeasureTheory.Function.Jacobian
import Mathlib.MeasureTheory.Integral.Prod
import Mathlib.MeasureTheory.Integral.IntervalIntegral.Basic
import Mathlib.Analysis.Convex.Join
import Mathlib.Analysis.SpecialFunctions.Integrals.Basic
import Mathlib.MeasureTheory.Measure.Lebesgue.VolumeOfBalls
import Mathlib.LinearAlgebra.Matrix.ToLin

/-!
# Integrals over triangles of the plane
-/

namespace Tulip
open MeasureTheory Set

/-- The reference triangle. -/
def refTri : Set (ℝ × ℝ) := {p | 0 ≤ p.1 ∧ 0 ≤ p.2 ∧ p.1 + p.2 ≤ 1}

theorem refTri_closed : IsClosed refTri :=
  (isClosed_le continuous_const continuous_fst).inter ((isClosed_le continuous_const continuous_snd).inter
    (isClosed_le (continuous_fst.add continuous_snd) continuous_const))

theorem refTri_measurable : MeasurableSet refTri := refTri_closed.measurableSet

theorem refTri_sub : refTri ⊆ Icc 0 1 ×ˢ Icc 0 1 := fun p ⟨h1, h2, h3⟩ => ⟨⟨h1, by linarith⟩, ⟨h2, by linarith⟩⟩

theorem refTri_compact : IsCompact refTri := (isCompact_Icc.prod isCompact_Icc).of_isClosed_subset refTri_closed refTri_sub

/-- Integrals over the reference triangle, one coordinate after the other. -/
theorem integral_refTri {F : ℝ × ℝ → ℝ} (hF : Continuous F) :
    ∫ p in refTri, F p = ∫ y in (0 : ℝ)..1, ∫ z in (0 : ℝ)..(1 - y), F (y, z) := by
  have hint : IntegrableOn F refTri := hF.continuousOn.integrableOn_compact refTri_compact
  rw [← integral_indicator refTri_measurable, Measure.volume_eq_prod, integral_prod]
  · rw [intervalIntegral.integral_of_le zero_le_one, ← integral_Icc_eq_integral_Ioc, ← integral_indicator measurableSet_Icc]
    refine integral_congr_ae (Filter.Eventually.of_forall fun y => ?_)
    dsimp only
    by_cases hy : y ∈ Icc (0 : ℝ) 1
    · rw [indicator_of_mem hy, intervalIntegral.integral_of_le (by linarith [hy.2]), ← integral_Icc_eq_integral_Ioc,
        ← integral_indicator measurableSet_Icc]
      refine integral_congr_ae (Filter.Eventually.of_forall fun z => ?_)
      dsimp only
      by_cases hz : z ∈ Icc (0 : ℝ) (1 - y)
      · rw [indicator_of_mem hz, indicator_of_mem (show (y, z) ∈ refTri from ⟨hy.1, hz.1, by linarith [hz.2]⟩)]
      · rw [indicator_of_notMem hz, indicator_of_notMem fun h => hz ⟨h.2.1, by have := h.2.2; simp only at this; linarith⟩]
    · rw [indicator_of_notMem hy]
      have : ∀ z, refTri.indicator F (y, z) = 0 := fun z => indicator_of_notMem (fun h => hy (refTri_sub h).1) _
      simp only [this, integral_zero]
  · rw [← Measure.volume_eq_prod]
    exact hint.integrable_indicator refTri_measurable

section
variable (a b c : ℝ × ℝ)

/-- Twice the oriented area. -/
def planeDet : ℝ := (b.1 - a.1) * (c.2 - a.2) - (c.1 - a.1) * (b.2 - a.2)

/-- The linear map of the reference triangle to a triangle. -/
noncomputable def triLinear : ℝ × ℝ →L[ℝ] ℝ × ℝ :=
  (ContinuousLinearMap.fst ℝ ℝ ℝ).smulRight (b - a) + (ContinuousLinearMap.snd ℝ ℝ ℝ).smulRight (c - a)

theorem triLinear_apply (p : ℝ × ℝ) : triLinear a b c p = (p.1 * (b.1 - a.1) + p.2 * (c.1 - a.1), p.1 * (b.2 - a.2) + p.2 * (c.2 - a.2)) := by
  simp only [triLinear, ContinuousLinearMap.add_apply, ContinuousLinearMap.smulRight_apply, ContinuousLinearMap.coe_fst',
    ContinuousLinearMap.coe_snd']
  refine Prod.ext ?_ ?_ <;> simp

theorem triLinear_det : (triLinear a b c).det = planeDet a b c := by
  rw [ContinuousLinearMap.det, ← LinearMap.det_toMatrix (Module.Basis.finTwoProd ℝ), Matrix.det_fin_two]
  simp only [LinearMap.toMatrix_apply, Module.Basis.finTwoProd_zero, Module.Basis.finTwoProd_one, Module.Basis.coe_finTwoProd_repr,
    ContinuousLinearMap.coe_coe, triLinear_apply]
  simp [planeDet]

/-- The affine map of the reference triangle to a triangle. -/
noncomputable def triMap (p : ℝ × ℝ) : ℝ × ℝ := a + triLinear a b c p

theorem triMap_apply (p : ℝ × ℝ) : triMap a b c p =
    (a.1 + p.1 * (b.1 - a.1) + p.2 * (c.1 - a.1), a.2 + p.1 * (b.2 - a.2) + p.2 * (c.2 - a.2)) := by
  unfold triMap
  rw [triLinear_apply]
  refine Prod.ext ?_ ?_ <;> simp only [Prod.fst_add, Prod.snd_add] <;> ring

theorem triMap_image : triMap a b c '' refTri = convexHull ℝ {a, b, c} := by
  ext x
  rw [convexHull_insert (by simp), convexHull_pair]
  simp only [mem_image, convexJoin_singleton_left, mem_iUnion, exists_prop]
  constructor
  · rintro ⟨p, ⟨h1, h2, h3⟩, rfl⟩
    rw [triMap_apply]
    by_cases h : p.1 + p.2 = 0
    · have e1 : p.1 = 0 := by linarith
      have e2 : p.2 = 0 := by linarith
      refine ⟨b, left_mem_segment ℝ b c, ?_⟩
      rw [e1, e2]
      convert left_mem_segment ℝ a b using 1
      simp
    · have hpos : 0 < p.1 + p.2 := lt_of_le_of_ne (by linarith) (Ne.symm h)
      refine ⟨(p.1 / (p.1 + p.2)) • b + (p.2 / (p.1 + p.2)) • c, ⟨_, _, by positivity, by positivity, by field_simp, rfl⟩,
        1 - (p.1 + p.2), p.1 + p.2, by linarith, hpos.le, by ring, ?_⟩
      refine Prod.ext ?_ ?_ <;> simp <;> field_simp <;> ring
  · rintro ⟨y, ⟨s, t, hs, ht, hst, rfl⟩, u, w, hu, hw, huw, rfl⟩
    refine ⟨(w * s, w * t), ⟨by positivity, by positivity, ?_⟩, ?_⟩
    · show w * s + w * t ≤ 1
      rw [← mul_add, hst]
      linarith
    · rw [triMap_apply]
      have e : u = 1 - w := by linarith
      have e' : s = 1 - t := by linarith
      subst e e'
      refine Prod.ext ?_ ?_ <;> simp <;> ring

theorem triMap_injective {a b c : ℝ × ℝ} (h : planeDet a b c ≠ 0) : Function.Injective (triMap a b c) := by
  intro p q e
  rw [triMap_apply, triMap_apply] at e
  have e1 := congrArg Prod.fst e
  have e2 := congrArg Prod.snd e
  simp only at e1 e2
  have h1 : planeDet a b c * (p.1 - q.1) = 0 := by
    unfold planeDet
    linear_combination (c.2 - a.2) * e1 - (c.1 - a.1) * e2
  have h2 : planeDet a b c * (p.2 - q.2) = 0 := by
    unfold planeDet
    linear_combination (b.1 - a.1) * e2 - (b.2 - a.2) * e1
  exact Prod.ext (sub_eq_zero.mp ((mul_eq_zero.mp h1).resolve_left h)) (sub_eq_zero.mp ((mul_eq_zero.mp h2).resolve_left h))

/-- Integrals over a triangle. -/
theorem integral_triangle {a b c : ℝ × ℝ} (h : planeDet a b c ≠ 0) (g : ℝ × ℝ → ℝ) :
    ∫ x in convexHull ℝ {a, b, c}, g x = |planeDet a b c| * ∫ p in refTri, g (triMap a b c p) := by
  rw [← triMap_image, integral_image_eq_integral_abs_det_fderiv_smul volume refTri_measurable
    (f' := fun _ => triLinear a b c) (fun p _ => ?_) (triMap_injective h).injOn]
  · rw [← integral_const_mul]
    simp only [triLinear_det, smul_eq_mul]
  · exact ((triLinear a b c).hasFDerivAt.const_add a).hasFDerivWithinAt

theorem refTri_volume : volume.real refTri = 1 / 2 := by
  have := integral_refTri (F := fun _ => 1) continuous_const
  simp only [intervalIntegral.integral_const, sub_zero, smul_eq_mul, mul_one, integral_const, MeasurableSet.univ,
    measureReal_restrict_apply, univ_inter] at this
  rw [this]
  rw [intervalIntegral.integral_sub (by simp) (by simp)]
  norm_num [integral_id]

theorem triangle_volume {a b c : ℝ × ℝ} (h : planeDet a b c ≠ 0) : volume.real (convexHull ℝ {a, b, c}) = |planeDet a b c| / 2 := by
  have := integral_triangle h (fun _ => 1)
  simp only [integral_const, smul_eq_mul, mul_one, MeasurableSet.univ, measureReal_restrict_apply, univ_inter, refTri_volume] at this
  rw [this]
  ring

end
end Tulip
