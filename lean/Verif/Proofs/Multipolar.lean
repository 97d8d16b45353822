import Verif.Model.Multipolar
import Verif.Spec.Multipolar
import Mathlib.Tactic.FieldSimp
import Mathlib.Tactic.Linarith
import Mathlib.Tactic.Ring

/-! Auxiliary facts for C52–C54. -/

namespace Tulip.Multipolar
open Tulip.Spec

theorem norml2_eq (v : ℝ × ℝ) : norml2 v = ‖toC v‖ := by
  rw [Complex.norm_def]
  rfl

theorem toC_sub2 (v w : ℝ × ℝ) : toC (sub2 v w) = toC v - toC w := by
  apply Complex.ext <;> simp [toC, sub2]

theorem sqrt_split {x : ℝ} (y : ℝ) (hx : x ≠ 0) : Real.sqrt (x * x + y * y) = |x| * Real.sqrt (1 + (y / x) ^ 2) := by
  rw [← Real.sqrt_sq_eq_abs, ← Real.sqrt_mul (sq_nonneg x)]
  congr 1
  field_simp

theorem polar (v : ℝ × ℝ) : norml2 v * Real.cos (atan2 v.2 v.1) = v.1 ∧ norml2 v * Real.sin (atan2 v.2 v.1) = v.2 := by
  obtain ⟨x, y⟩ := v
  unfold norml2 atan2
  simp only
  have hs : ∀ t : ℝ, Real.sqrt (1 + t ^ 2) ≠ 0 := fun t => by positivity
  rcases lt_trichotomy x 0 with hx | hx | hx
  · rw [if_neg (not_lt.mpr hx.le), if_pos hx, sqrt_split y hx.ne, abs_of_neg hx]
    have h := hs (y / x)
    have hx' := hx.ne
    split
    · rw [Real.cos_add_pi, Real.sin_add_pi, Real.cos_arctan, Real.sin_arctan]
      constructor
      · field_simp
      · field_simp
    · rw [Real.cos_sub_pi, Real.sin_sub_pi, Real.cos_arctan, Real.sin_arctan]
      constructor
      · field_simp
      · field_simp
  · subst hx
    simp only [lt_irrefl, if_false]
    rcases lt_trichotomy y 0 with hy | hy | hy
    · rw [if_neg (not_lt.mpr hy.le), if_pos hy]
      simp only [mul_zero, zero_add, Real.cos_neg, Real.cos_pi_div_two, Real.sin_neg, Real.sin_pi_div_two, true_and]
      rw [Real.sqrt_mul_self_eq_abs, abs_of_neg hy]; ring
    · subst hy; simp
    · rw [if_pos hy]
      simp only [mul_zero, zero_add, Real.cos_pi_div_two, Real.sin_pi_div_two, true_and]
      rw [Real.sqrt_mul_self_eq_abs, abs_of_pos hy]; ring
  · rw [if_pos hx, sqrt_split y hx.ne', abs_of_pos hx]
    have h := hs (y / x)
    rw [Real.cos_arctan, Real.sin_arctan]
    constructor
    · field_simp
    · field_simp

/-- de Moivre for the polar form the code uses -/
theorem pow_polar (v : ℝ × ℝ) (n : ℕ) : toC v ^ n =
    ((norml2 v ^ n : ℝ) : ℂ) * (Complex.cos ((n * atan2 v.2 v.1 : ℝ) : ℂ) + Complex.sin ((n * atan2 v.2 v.1 : ℝ) : ℂ) * Complex.I) := by
  have h : toC v = (norml2 v : ℂ) * (Complex.cos (atan2 v.2 v.1 : ℝ) + Complex.sin (atan2 v.2 v.1 : ℝ) * Complex.I) := by
    obtain ⟨h1, h2⟩ := polar v
    rw [← Complex.ofReal_cos, ← Complex.ofReal_sin]
    apply Complex.ext
    · simp [toC, h1, -Complex.ofReal_cos, -Complex.ofReal_sin]
    · simp [toC, h2, -Complex.ofReal_cos, -Complex.ofReal_sin]
  conv_lhs => rw [h]
  rw [mul_pow, Complex.cos_add_sin_mul_I_pow]
  push_cast
  rfl

theorem pow_re (v : ℝ × ℝ) (n : ℕ) : (toC v ^ n).re = norml2 v ^ n * Real.cos (n * atan2 v.2 v.1) := by
  rw [pow_polar, ← Complex.ofReal_cos, ← Complex.ofReal_sin]
  simp [-Complex.ofReal_pow, -Complex.ofReal_cos, -Complex.ofReal_sin]

theorem pow_im (v : ℝ × ℝ) (n : ℕ) : (toC v ^ n).im = norml2 v ^ n * Real.sin (n * atan2 v.2 v.1) := by
  rw [pow_polar, ← Complex.ofReal_cos, ← Complex.ofReal_sin]
  simp [-Complex.ofReal_pow, -Complex.ofReal_cos, -Complex.ofReal_sin]

theorem norml2_ne {v : ℝ × ℝ} (h : toC v ≠ 0) : norml2 v ≠ 0 := by
  rw [norml2_eq]; exact norm_ne_zero_iff.mpr h

/-- One term of the expansion. -/
theorem term_re {v : ℝ × ℝ} (h : toC v ≠ 0) (a b : ℝ) (n : ℕ) :
    (a * Real.cos (n * atan2 v.2 v.1) + b * Real.sin (n * atan2 v.2 v.1)) / norml2 v ^ n =
      (((a : ℂ) + (b : ℂ) * Complex.I) / toC v ^ n).re := by
  have hr := norml2_ne h
  have hre := pow_re v n
  have him := pow_im v n
  have hn : Complex.normSq (toC v ^ n) = (norml2 v ^ n) ^ 2 := by
    rw [map_pow, Complex.normSq_eq_norm_sq, ← norml2_eq, ← pow_mul, ← pow_mul, mul_comm]
  rw [Complex.div_re, hn, hre, him]
  simp only [Complex.add_re, Complex.ofReal_re, Complex.mul_re, Complex.I_re, Complex.I_im, Complex.ofReal_im,
    Complex.add_im, Complex.mul_im]
  have hp : norml2 v ^ n ≠ 0 := pow_ne_zero _ hr
  field_simp
  ring

/-- Coefficients of a list, zero beyond its end. -/
def coefA (ab : List (ℝ × ℝ)) (n : ℕ) : ℝ := (ab.getD n (0, 0)).1

/-- Coefficients of a list, zero beyond its end. -/
def coefB (ab : List (ℝ × ℝ)) (n : ℕ) : ℝ := (ab.getD n (0, 0)).2

theorem loop_tail {v : ℝ × ℝ} (h : toC v ≠ 0) : ∀ (ab : List (ℝ × ℝ)) (n : ℕ) (res : ℝ),
    expansionLoop (norml2 v) (atan2 v.2 v.1) (n + 1) ab res =
      .ok (res + (∑ k ∈ Finset.range ab.length,
        ((coefA ab k : ℂ) + (coefB ab k : ℂ) * Complex.I) / toC v ^ (n + 1 + k)).re)
  | [], n, res => by simp [expansionLoop]
  | (a, b) :: ab, n, res => by
    rw [expansionLoop, if_neg (norml2_ne h), if_neg (Nat.succ_ne_zero n), loop_tail h ab (n + 1)]
    congr 1
    rw [term_re h, List.length_cons, Finset.sum_range_succ', Complex.add_re]
    have e : ∀ k, coefA ((a, b) :: ab) (k + 1) = coefA ab k ∧ coefB ((a, b) :: ab) (k + 1) = coefB ab k := by
      intro k; constructor <;> simp [coefA, coefB]
    have e0 : coefA ((a, b) :: ab) 0 = a ∧ coefB ((a, b) :: ab) 0 = b := by
      constructor <;> simp [coefA, coefB]
    simp only [(e _).1, (e _).2, e0.1, e0.2, add_zero]
    have e2 : (∑ k ∈ Finset.range ab.length,
        ((coefA ab k : ℂ) + (coefB ab k : ℂ) * Complex.I) / toC v ^ (n + 1 + (k + 1))) =
        ∑ k ∈ Finset.range ab.length,
        ((coefA ab k : ℂ) + (coefB ab k : ℂ) * Complex.I) / toC v ^ (n + 1 + 1 + k) := by
      apply Finset.sum_congr rfl
      intro k _
      have : n + 1 + (k + 1) = n + 1 + 1 + k := by omega
      rw [this]
    rw [e2]
    ring

theorem expansion_eq (p c : ℝ × ℝ) (hne : toC p - toC c ≠ 0) (ab : List (ℝ × ℝ)) (hab : ab ≠ []) :
    multipolarExpansion p ab c = .ok (laurent (coefA ab) (coefB ab) (ab.length - 1) (toC p - toC c)) := by
  have h : toC (sub2 p c) ≠ 0 := by rw [toC_sub2]; exact hne
  unfold multipolarExpansion
  cases ab with
  | nil => exact absurd rfl hab
  | cons x ab =>
    obtain ⟨a, b⟩ := x
    simp only
    rw [expansionLoop, if_neg (norml2_ne h), if_pos rfl, loop_tail h ab 0, Outcome.ok_bind]
    congr 1
    unfold laurent
    rw [← toC_sub2, ← norml2_eq]
    have e : ∀ k, coefA ((a, b) :: ab) (k + 1) = coefA ab k ∧ coefB ((a, b) :: ab) (k + 1) = coefB ab k := by
      intro k; constructor <;> simp [coefA, coefB]
    have e0 : coefA ((a, b) :: ab) 0 = a := by simp [coefA]
    simp only [(e _).1, (e _).2, e0, List.length_cons, Nat.add_sub_cancel]
    have : ∀ k, 0 + 1 + k = k + 1 := by intro k; omega
    simp only [this]
    ring

end Tulip.Multipolar
