import Verif.Proofs.CrossSection

/-!
# Energies of potentials between two potentials
-/

namespace Tulip
open MeasureTheory Set Spec

section
variable {T : Triangulation ℝ} {mats : Materials ℝ} {V : Int → ℝ} {v w : ℝ × ℝ → ℝ} {L M : ℝ}

/-- Between and beyond two functions. -/
def blend (s : ℝ) (v w : ℝ × ℝ → ℝ) (x : ℝ × ℝ) : ℝ := (1 - s) * v x + s * w x

theorem slopes_blend (h : Slopes T L v) (h' : Slopes T M w) (s : ℝ) : Slopes T (|1 - s| * L + |s| * M) (blend s v w) := fun x y hxy => by
  have h1 := mul_le_mul_of_nonneg_left (h x y hxy) (abs_nonneg (1 - s))
  have h2 := mul_le_mul_of_nonneg_left (h' x y hxy) (abs_nonneg s)
  have e : blend s v w x - blend s v w y = (1 - s) * (v x - v y) + s * (w x - w y) := by
    unfold blend
    ring
  rw [e]
  refine (abs_add_le _ _).trans ?_
  rw [abs_mul, abs_mul]
  linarith

theorem slopes_sub (h : Slopes T L v) (h' : Slopes T M w) : Slopes T (L + M) (fun x => v x - w x) := fun x y hxy => by
  have h1 := h x y hxy
  have h2 := h' x y hxy
  have e : v x - w x - (v y - w y) = (v x - v y) - (w x - w y) := by ring
  rw [e, add_mul]
  exact (abs_sub _ _).trans (add_le_add h1 h2)

theorem gradSq_blend {x : ℝ × ℝ} (h : DifferentiableAt ℝ v x) (h' : DifferentiableAt ℝ w x) (s : ℝ) :
    gradSq (blend s v w) x = (1 - s) * gradSq v x + s * gradSq w x - s * (1 - s) * gradSq (fun x => v x - w x) x := by
  unfold gradSq
  have e1 : fderiv ℝ (fun x => v x - w x) x = fderiv ℝ v x - fderiv ℝ w x := fderiv_fun_sub h h'
  have e2 : fderiv ℝ (blend s v w) x = (1 - s) • fderiv ℝ v x + s • fderiv ℝ w x := by
    have : blend s v w = fun x => (1 - s) • v x + s • w x := by
      funext x
      simp [blend]
    rw [this, fderiv_fun_add (h.fun_const_smul _) (h'.fun_const_smul _), fderiv_fun_const_smul h, fderiv_fun_const_smul h']
  rw [e1, e2]
  simp only [ContinuousLinearMap.sub_apply, ContinuousLinearMap.smul_apply, ContinuousLinearMap.add_apply, smul_eq_mul]
  ring

theorem sum_three (l : List (Tri T.nv)) (f g k : Tri T.nv → ℝ) (α β γ : ℝ) :
    (l.map fun t => α * f t + β * g t - γ * k t).sum = α * (l.map f).sum + β * (l.map g).sum - γ * (l.map k).sum := by
  induction l with
  | nil => simp
  | cons t l ih => simp only [List.map_cons, List.sum_cons, ih]; ring

/-- Energies between and beyond two potentials. -/
theorem energy_blend (h : Slopes T L v) (h' : Slopes T M w) (hL : 0 ≤ L) (hM : 0 ≤ M) (eps : Int → ℝ) (s : ℝ) :
    potentialEnergy T eps (blend s v w) = (1 - s) * potentialEnergy T eps v + s * potentialEnergy T eps w -
      s * (1 - s) * potentialEnergy T eps (fun x => v x - w x) := by
  have i1 := slopes_integrable h hL
  have i2 := slopes_integrable h' hM
  have i3 := slopes_integrable (slopes_sub h h') (by positivity)
  have hae : ∀ᵐ x ∂(volume.restrict (covered T)), gradSq (blend s v w) x =
      (1 - s) * gradSq v x + s * gradSq w x - s * (1 - s) * gradSq (fun x => v x - w x) x := by
    refine slopes_ae ?_
    filter_upwards [slopes_differentiable h hL, slopes_differentiable h' hM] with x h1 h2 t ht hx
    exact gradSq_blend (h1 t ht hx) (h2 t ht hx) s
  have key : ∀ t ∈ T.tris, eps t.attr / 2 * ∫ x in triangle T t, gradSq (blend s v w) x =
      (1 - s) * (eps t.attr / 2 * ∫ x in triangle T t, gradSq v x) + s * (eps t.attr / 2 * ∫ x in triangle T t, gradSq w x) -
      s * (1 - s) * (eps t.attr / 2 * ∫ x in triangle T t, gradSq (fun x => v x - w x) x) := fun t ht => by
    have hsub : triangle T t ⊆ covered T := fun x hx => ⟨t, ht, hx⟩
    have hsum : Integrable (fun x => (1 - s) * gradSq v x + s * gradSq w x) (volume.restrict (triangle T t)) :=
      ((i1.mono_set hsub).const_mul _).add ((i2.mono_set hsub).const_mul _)
    rw [integral_congr_ae (ae_mono (Measure.restrict_mono hsub le_rfl) hae), integral_sub hsum ((i3.mono_set hsub).const_mul _),
      integral_add ((i1.mono_set hsub).const_mul _) ((i2.mono_set hsub).const_mul _), integral_const_mul, integral_const_mul, integral_const_mul]
    ring
  unfold potentialEnergy
  show (T.tris.map (fun t => eps t.attr / 2 * ∫ x in triangle T t, gradSq (blend s v w) x)).sum = _
  rw [List.map_congr_left key, sum_three]
  rfl

theorem potential_blend (hv : Potential T mats V v) (hw : Potential T mats V w) (s : ℝ) : Potential T mats V (blend s v w) := by
  obtain ⟨L, hL, h1⟩ := potential_slopes hv
  obtain ⟨M, hM, h2⟩ := potential_slopes hw
  refine ⟨⟨_, slopes_blend h1 h2 s⟩, fun c hc x hx => ?_⟩
  unfold blend
  rw [hv.conductors c hc x hx, hw.conductors c hc x hx]
  ring

/-- Around a potential of least energy. -/
theorem energy_least {eps : Int → ℝ} (hv : Potential T mats V v) (hl : ∀ w, Potential T mats V w → potentialEnergy T eps v ≤ potentialEnergy T eps w)
    (hw : Potential T mats V w) : potentialEnergy T eps w = potentialEnergy T eps v + potentialEnergy T eps (fun x => v x - w x) := by
  obtain ⟨L, hL, h1⟩ := potential_slopes hv
  obtain ⟨M, hM, h2⟩ := potential_slopes hw
  have key : ∀ s : ℝ, 0 ≤ s * (potentialEnergy T eps w - potentialEnergy T eps v - (1 - s) * potentialEnergy T eps (fun x => v x - w x)) := fun s => by
    have := hl _ (potential_blend hv hw s)
    rw [energy_blend h1 h2 hL hM] at this
    linarith
  set a := potentialEnergy T eps w - potentialEnergy T eps v with ha
  set d := potentialEnergy T eps (fun x => v x - w x) with hd
  have hp : ∀ s : ℝ, 0 < s → 0 ≤ a - (1 - s) * d := fun s hs => nonneg_of_mul_nonneg_right (key s) hs
  have hn : ∀ s : ℝ, 0 < s → a - (1 + s) * d ≤ 0 := fun s hs => by
    have := key (-s)
    by_contra hc
    push Not at hc
    have h3 : (-s) * (a - (1 - -s) * d) < 0 := by
      rw [sub_neg_eq_add]
      exact mul_neg_of_neg_of_pos (neg_neg_of_pos hs) hc
    linarith
  have e1 : 0 ≤ a - d := by
    refine le_of_forall_pos_le_add fun ε hε => ?_
    have hs : 0 < ε / (|d| + 1) := by positivity
    have := hp _ hs
    have h4 : ε / (|d| + 1) * d ≤ ε := by
      rw [div_mul_eq_mul_div, div_le_iff₀ (by positivity)]
      nlinarith [le_abs_self d, abs_nonneg d]
    nlinarith
  have e2 : a - d ≤ 0 := by
    refine le_of_forall_pos_le_add fun ε hε => ?_
    have hs : 0 < ε / (|d| + 1) := by positivity
    have := hn _ hs
    have h4 : ε / (|d| + 1) * d ≤ ε := by
      rw [div_mul_eq_mul_div, div_le_iff₀ (by positivity)]
      nlinarith [le_abs_self d, abs_nonneg d]
    nlinarith
  linarith

end
end Tulip
