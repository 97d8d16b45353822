import Verif.Spec.Multipolar
import Verif.Spec.Accuracy
import Mathlib.Analysis.Calculus.MeanValue
import Mathlib.Analysis.Calculus.Deriv.ZPow
import Mathlib.Analysis.Calculus.Deriv.Inv
import Mathlib.Analysis.Calculus.Deriv.Pow
import Mathlib.Analysis.SpecialFunctions.Log.Deriv
import Mathlib.Analysis.Complex.RealDeriv
import Mathlib.Tactic

/-!
# Second differences of a truncated Laurent series
-/

noncomputable section

namespace Tulip.Accuracy
open Tulip Tulip.Spec

/-- A bound of the second derivative bounds the symmetric second difference. -/
theorem second_difference {g g' g'' : ℝ → ℝ} {S : ℝ}
    (h1 : ∀ t ∈ Set.Icc (-1 : ℝ) 1, HasDerivAt g (g' t) t)
    (h2 : ∀ t ∈ Set.Icc (-1 : ℝ) 1, HasDerivAt g' (g'' t) t)
    (hb : ∀ t ∈ Set.Icc (-1 : ℝ) 1, |g'' t| ≤ S) : |g 1 + g (-1) - 2 * g 0| ≤ S := by
  have mem : ∀ t ∈ Set.Icc (0 : ℝ) 1, t ∈ Set.Icc (-1 : ℝ) 1 ∧ -t ∈ Set.Icc (-1 : ℝ) 1 := by
    intro t ht
    exact ⟨⟨by linarith [ht.1], ht.2⟩, ⟨by linarith [ht.2], by linarith [ht.1]⟩⟩
  have hd : ∀ t ∈ Set.Icc (0 : ℝ) 1, HasDerivAt (fun t => g t + g (-t) - 2 * g 0) (g' t - g' (-t)) t := by
    intro t ht
    have a := h1 t (mem t ht).1
    have b := (h1 (-t) (mem t ht).2).scomp t (hasDerivAt_neg t)
    have c : HasDerivAt (fun t => g t + g (-t) - 2 * g 0) (g' t + (-1 : ℝ) • g' (-t)) t := (a.add b).sub_const (2 * g 0)
    exact c.congr_deriv (by simp [sub_eq_add_neg])
  have hl : ∀ t ∈ Set.Icc (0 : ℝ) 1, |g' t - g' (-t)| ≤ S * (2 * t) := by
    intro t ht
    have := (convex_Icc (-1 : ℝ) 1).norm_image_sub_le_of_norm_hasDerivWithin_le
      (fun s hs => (h2 s hs).hasDerivWithinAt) (fun s hs => hb s hs) (mem t ht).2 (mem t ht).1
    rw [Real.norm_eq_abs, Real.norm_eq_abs] at this
    have e : |t - -t| = 2 * t := by rw [sub_neg_eq_add, abs_of_nonneg (by linarith [ht.1])]; ring
    rwa [e] at this
  have := image_norm_le_of_norm_deriv_right_le_deriv_boundary (a := (0 : ℝ)) (b := 1)
    (f := fun t => g t + g (-t) - 2 * g 0) (f' := fun t => g' t - g' (-t))
    (fun t ht => (hd t ht).continuousAt.continuousWithinAt)
    (fun t ht => (hd t ⟨ht.1, le_of_lt ht.2⟩).hasDerivWithinAt)
    (B := fun t => S * t ^ 2) (B' := fun t => S * (2 * t))
    (by simp; ring_nf) (by
      intro t
      have := (hasDerivAt_pow 2 t).const_mul S
      simpa using this)
    (fun t ht => hl t ⟨ht.1, le_of_lt ht.2⟩) (x := 1) ⟨by norm_num, le_refl _⟩
  simpa using this

/-- Along a line the logarithm of the modulus has derivative `Re (u / z)`. -/
theorem hasDerivAt_log_norm (m u : ℂ) (t : ℝ) (h : m + t * u ≠ 0) :
    HasDerivAt (fun t : ℝ => Real.log ‖m + t * u‖) (u / (m + t * u)).re t := by
  have e : (fun t : ℝ => Real.log ‖m + t * u‖) =
      fun t : ℝ => Real.log ((m.re + t * u.re) * (m.re + t * u.re) + (m.im + t * u.im) * (m.im + t * u.im)) / 2 := by
    funext t
    have : ‖m + t * u‖ = Real.sqrt ((m.re + t * u.re) * (m.re + t * u.re) + (m.im + t * u.im) * (m.im + t * u.im)) := by
      rw [Complex.norm_def, Complex.normSq_apply]; simp
    rw [this, Real.log_sqrt (add_nonneg (mul_self_nonneg _) (mul_self_nonneg _))]
  rw [e]
  have hn : (m.re + t * u.re) * (m.re + t * u.re) + (m.im + t * u.im) * (m.im + t * u.im) ≠ 0 := by
    have := (Complex.normSq_pos.mpr h).ne'
    rw [Complex.normSq_apply] at this
    simpa using this
  have d1 : HasDerivAt (fun t : ℝ => m.re + t * u.re) u.re t := by
    simpa using ((hasDerivAt_id t).mul_const u.re).const_add m.re
  have d2 : HasDerivAt (fun t : ℝ => m.im + t * u.im) u.im t := by
    simpa using ((hasDerivAt_id t).mul_const u.im).const_add m.im
  have d := (((d1.fun_mul d1).fun_add (d2.fun_mul d2)).log hn).div_const 2
  refine d.congr_deriv ?_
  rw [Complex.div_re, Complex.normSq_apply]
  simp only [Complex.add_re, Complex.mul_re, Complex.ofReal_re, Complex.ofReal_im, zero_mul, sub_zero, Complex.add_im,
    Complex.mul_im, add_zero]
  field_simp
  ring

/-- Along a line a negative power has derivative `-n u z^(-n-1)`. -/
theorem hasDerivAt_inv_pow (m u : ℂ) (t : ℝ) (h : m + t * u ≠ 0) (c : ℂ) (n : ℕ) :
    HasDerivAt (fun t : ℝ => c / (m + t * u) ^ n) (-(n * (c * u)) / (m + t * u) ^ (n + 1)) t := by
  have d0 : HasDerivAt (fun t : ℝ => m + t * u) u t := by
    have := (((Complex.ofRealCLM.hasDerivAt (x := t))).mul_const u).const_add m
    simpa using this
  have d : HasDerivAt (fun t : ℝ => c / (m + t * u) ^ n)
      (c * (-(n * (m + t * u) ^ (n - 1) * u) / ((m + t * u) ^ n) ^ 2)) t := by
    simpa only [div_eq_mul_inv] using ((d0.fun_pow n).fun_inv (pow_ne_zero n h)).const_mul c
  refine d.congr_deriv ?_
  rcases n with _ | n
  · simp
  · simp only [Nat.add_sub_cancel]
    field_simp
    ring

/-- The second differences of a truncated Laurent series away from its centre. -/
theorem laurent_second (a b : ℕ → ℝ) (N : ℕ) (m u : ℂ) (ρ : ℝ) (hρ : 0 < ρ)
    (h : ∀ t ∈ Set.Icc (-1 : ℝ) 1, ρ ≤ ‖m + t * u‖) :
    |laurent a b N (m + u) + laurent a b N (m - u) - 2 * laurent a b N m| ≤ laurentCurvature a b N ρ * ‖u‖ ^ 2 := by
  have h0 : ∀ t ∈ Set.Icc (-1 : ℝ) 1, m + t * u ≠ 0 := by
    intro t ht e
    have := h t ht
    rw [e, norm_zero] at this
    linarith
  let c : ℕ → ℂ := fun n => (a (n + 1) : ℂ) + (b (n + 1) : ℂ) * Complex.I
  have key := second_difference (g := fun t : ℝ => laurent a b N (m + t * u))
    (g' := fun t : ℝ => 1 / (2 * Real.pi) * (-(a 0) * (u / (m + t * u)).re +
      (∑ n ∈ Finset.range N, -(((n + 1 : ℕ) : ℂ) * (c n * u)) / (m + t * u) ^ (n + 2)).re))
    (g'' := fun t : ℝ => 1 / (2 * Real.pi) * (-(a 0) * (-(((1 : ℕ) : ℂ) * (u * u)) / (m + t * u) ^ 2).re +
      (∑ n ∈ Finset.range N, -(((n + 2 : ℕ) : ℂ) * (-(((n + 1 : ℕ) : ℂ) * (c n * u)) * u)) / (m + t * u) ^ (n + 3)).re))
    (S := laurentCurvature a b N ρ * ‖u‖ ^ 2) ?_ ?_ ?_
  · simpa [sub_eq_add_neg] using key
  · intro t ht
    unfold laurent
    refine ((((hasDerivAt_log_norm m u t (h0 t ht)).const_mul (-(a 0))).fun_add ?_).const_mul (1 / (2 * Real.pi)))
    have d := HasDerivAt.fun_sum (u := Finset.range N) (fun n _ => hasDerivAt_inv_pow m u t (h0 t ht) (c n) (n + 1))
    exact Complex.reCLM.hasFDerivAt.comp_hasDerivAt t d
  · intro t ht
    refine ((HasDerivAt.const_mul (-(a 0)) ?_).fun_add ?_).const_mul (1 / (2 * Real.pi))
    · have d := hasDerivAt_inv_pow m u t (h0 t ht) u 1
      simp only [pow_one] at d
      exact Complex.reCLM.hasFDerivAt.comp_hasDerivAt t d
    · have d := HasDerivAt.fun_sum (u := Finset.range N) (fun n _ => hasDerivAt_inv_pow m u t (h0 t ht)
        (-(((n + 1 : ℕ) : ℂ) * (c n * u))) (n + 2))
      exact Complex.reCLM.hasFDerivAt.comp_hasDerivAt t d
  · intro t ht
    have hz := h t ht
    have hzp : 0 < ‖m + t * u‖ := lt_of_lt_of_le hρ hz
    unfold laurentCurvature
    rw [abs_mul, abs_of_pos (by positivity : 0 < 1 / (2 * Real.pi)), mul_assoc]
    refine mul_le_mul_of_nonneg_left ?_ (by positivity)
    rw [add_mul, Finset.sum_mul]
    refine le_trans (abs_add_le _ _) (add_le_add ?_ ?_)
    · rw [abs_mul, abs_neg, div_mul_eq_mul_div, mul_div_assoc]
      refine mul_le_mul_of_nonneg_left ?_ (abs_nonneg _)
      refine le_trans (Complex.abs_re_le_norm _) ?_
      rw [norm_div, norm_neg, norm_mul, norm_mul, norm_pow]
      simp only [Nat.cast_one, norm_one, one_mul]
      rw [← pow_two]
      gcongr
    · refine le_trans (Complex.abs_re_le_norm _) (le_trans (norm_sum_le _ _) (Finset.sum_le_sum ?_))
      intro n _
      rw [norm_div, norm_neg, norm_mul, norm_mul, norm_neg, norm_mul, norm_mul, norm_pow, Complex.norm_natCast,
        Complex.norm_natCast]
      have e : ((n + 2 : ℕ) : ℝ) * (((n + 1 : ℕ) : ℝ) * (‖c n‖ * ‖u‖) * ‖u‖) / ‖m + t * u‖ ^ (n + 3) =
          ((n + 1) * (n + 2) * ‖c n‖) / ‖m + t * u‖ ^ (n + 3) * ‖u‖ ^ 2 := by
        push_cast; ring
      rw [e]
      gcongr

/-- The first differences of a truncated Laurent series away from its centre. -/
theorem laurent_first (a b : ℕ → ℝ) (N : ℕ) (m u : ℂ) (ρ : ℝ) (hρ : 0 < ρ)
    (h : ∀ t ∈ Set.Icc (0 : ℝ) 1, ρ ≤ ‖m + t * u‖) :
    |laurent a b N (m + u) - laurent a b N m| ≤ laurentSlope a b N ρ * ‖u‖ := by
  have h0 : ∀ t ∈ Set.Icc (0 : ℝ) 1, m + t * u ≠ 0 := by
    intro t ht e
    have := h t ht
    rw [e, norm_zero] at this
    linarith
  let c : ℕ → ℂ := fun n => (a (n + 1) : ℂ) + (b (n + 1) : ℂ) * Complex.I
  have key := (convex_Icc (0 : ℝ) 1).norm_image_sub_le_of_norm_hasDerivWithin_le
    (f := fun t : ℝ => laurent a b N (m + t * u))
    (f' := fun t : ℝ => 1 / (2 * Real.pi) * (-(a 0) * (u / (m + t * u)).re +
      (∑ n ∈ Finset.range N, -(((n + 1 : ℕ) : ℂ) * (c n * u)) / (m + t * u) ^ (n + 2)).re))
    (C := laurentSlope a b N ρ * ‖u‖) ?_ ?_ (x := 0) (y := 1) (by simp) (by simp)
  · simpa using key
  · intro t ht
    refine HasDerivAt.hasDerivWithinAt ?_
    unfold laurent
    refine ((((hasDerivAt_log_norm m u t (h0 t ht)).const_mul (-(a 0))).fun_add ?_).const_mul (1 / (2 * Real.pi)))
    have d := HasDerivAt.fun_sum (u := Finset.range N) (fun n _ => hasDerivAt_inv_pow m u t (h0 t ht) (c n) (n + 1))
    exact Complex.reCLM.hasFDerivAt.comp_hasDerivAt t d
  · intro t ht
    have hz := h t ht
    have hzp : 0 < ‖m + t * u‖ := lt_of_lt_of_le hρ hz
    unfold laurentSlope
    rw [Real.norm_eq_abs, abs_mul, abs_of_pos (by positivity : 0 < 1 / (2 * Real.pi)), mul_assoc]
    refine mul_le_mul_of_nonneg_left ?_ (by positivity)
    rw [add_mul, Finset.sum_mul]
    refine le_trans (abs_add_le _ _) (add_le_add ?_ ?_)
    · rw [abs_mul, abs_neg, div_mul_eq_mul_div, mul_div_assoc]
      refine mul_le_mul_of_nonneg_left ?_ (abs_nonneg _)
      refine le_trans (Complex.abs_re_le_norm _) ?_
      rw [norm_div]
      gcongr
    · refine le_trans (Complex.abs_re_le_norm _) (le_trans (norm_sum_le _ _) (Finset.sum_le_sum ?_))
      intro n _
      rw [norm_div, norm_neg, norm_mul, norm_mul, norm_pow, Complex.norm_natCast]
      have e : ((n + 1 : ℕ) : ℝ) * (‖c n‖ * ‖u‖) / ‖m + t * u‖ ^ (n + 2) =
          ((n + 1) * ‖c n‖) / ‖m + t * u‖ ^ (n + 2) * ‖u‖ := by
        push_cast; ring
      rw [e]
      gcongr

end Tulip.Accuracy
