import Verif.Spec.Library
import Verif.Proofs.RoundedSum
import Verif.Proofs.Multipolar
import Mathlib.Analysis.Real.Pi.Bounds
import Mathlib.Algebra.Order.Ring.Pow
import Mathlib.Analysis.SpecialFunctions.Trigonometric.Bounds
import Mathlib.Tactic

/-!
# Rounding errors of the multipolar expansion
-/

noncomputable section

namespace Tulip.RoundedExpansion
open Tulip Tulip.Spec Tulip.RoundedGrid

/-- The growth factor is at least `1 + k u`. -/
theorem growth_linear {rnd : ℝ → ℝ} {u : ℝ} (R : Rounding rnd u) (k : ℕ) : k * u ≤ growth u k - 1 := by
  have h0 := R.pos
  have h := one_le_inv R
  have h1 := one_add_le R
  have hb : 1 + (k : ℝ) * u ≤ (1 + u) ^ k := one_add_mul_le_pow (by linarith) k
  have : (1 + u) ^ k ≤ growth u k := by
    unfold growth at h1 ⊢
    rw [pow_one] at h1
    exact pow_le_pow_left₀ (by linarith) h1 k
  linarith

/-- A number with relative error `u` within a factor. -/
theorem growth_of_err {rnd : ℝ → ℝ} {u : ℝ} (R : Rounding rnd u) {x y : ℝ} (hx : 0 ≤ x) (h : |y - x| ≤ u * x) :
    x ≤ growth u 1 * y ∧ y ≤ growth u 1 * x := by
  have h0 := R.pos
  have h1 := R.small
  obtain ⟨a, b⟩ := abs_le.mp h
  constructor
  · unfold growth
    rw [pow_one, inv_mul_eq_div, le_div_iff₀ (by linarith)]
    linarith
  · have := mul_le_mul_of_nonneg_right (one_add_le R) hx
    linarith

theorem growth_trans {u x y z : ℝ} {n m : ℕ} (R : 1 ≤ (1 - u)⁻¹) (h1 : x ≤ growth u n * y ∧ y ≤ growth u n * x)
    (h2 : y ≤ growth u m * z ∧ z ≤ growth u m * y) : x ≤ growth u (n + m) * z ∧ z ≤ growth u (n + m) * x := by
  have gn : 0 ≤ growth u n := pow_nonneg (by linarith) n
  have gm : 0 ≤ growth u m := pow_nonneg (by linarith) m
  rw [growth_add]
  constructor
  · calc x ≤ growth u n * y := h1.1
      _ ≤ growth u n * (growth u m * z) := mul_le_mul_of_nonneg_left h2.1 gn
      _ = _ := by ring
  · calc z ≤ growth u m * y := h2.2
      _ ≤ growth u m * (growth u n * x) := mul_le_mul_of_nonneg_left h1.2 gm
      _ = _ := by ring

theorem growth_pow' {u x y : ℝ} {n : ℕ} (hx : 0 ≤ x) (hy : 0 ≤ y)
    (h : x ≤ growth u n * y ∧ y ≤ growth u n * x) (k : ℕ) :
    x ^ k ≤ growth u (n * k) * y ^ k ∧ y ^ k ≤ growth u (n * k) * x ^ k := by
  have e : growth u (n * k) = growth u n ^ k := by unfold growth; rw [pow_mul]
  rw [e, ← mul_pow, ← mul_pow]
  exact ⟨pow_le_pow_left₀ hx h.1 k, pow_le_pow_left₀ hy h.2 k⟩

variable {rnd : ℝ → ℝ} {lib : Library} {u : ℝ}

/-- Rounding of the coordinates. -/
theorem sub2_err (R : Rounding rnd u) (p c : ℝ × ℝ) :
    ‖toC (sub2 rnd p c) - toC (Multipolar.sub2 p c)‖ ≤ u * ‖toC (Multipolar.sub2 p c)‖ := by
  have h0 := R.pos
  set x := p.1 - c.1 with hx
  set y := p.2 - c.2 with hy
  have e1 := R.err x
  have e2 := R.err y
  have n1 : ‖toC (sub2 rnd p c) - toC (Multipolar.sub2 p c)‖ ^ 2 = (rnd x - x) ^ 2 + (rnd y - y) ^ 2 := by
    rw [← Complex.normSq_eq_norm_sq, Complex.normSq_apply]
    simp only [toC, sub2, Multipolar.sub2, Complex.sub_re, Complex.sub_im, ← hx, ← hy]
    ring
  have n2 : ‖toC (Multipolar.sub2 p c)‖ ^ 2 = x ^ 2 + y ^ 2 := by
    rw [← Complex.normSq_eq_norm_sq, Complex.normSq_apply]
    simp only [toC, Multipolar.sub2, ← hx, ← hy]
    ring
  apply le_of_sq_le_sq _ (mul_nonneg h0 (norm_nonneg _))
  rw [n1, mul_pow, n2]
  have s1 : (rnd x - x) ^ 2 ≤ u ^ 2 * x ^ 2 := by
    have := pow_le_pow_left₀ (abs_nonneg _) e1 2
    rwa [sq_abs, mul_pow, sq_abs] at this
  have s2 : (rnd y - y) ^ 2 ≤ u ^ 2 * y ^ 2 := by
    have := pow_le_pow_left₀ (abs_nonneg _) e2 2
    rwa [sq_abs, mul_pow, sq_abs] at this
  linarith

/-- The computed distance is the exact one within two roundings. -/
theorem norm_growth (R : Rounding rnd u) (A : AccurateLibrary lib u) (p c : ℝ × ℝ) :
    ‖toC (Multipolar.sub2 p c)‖ ≤ growth u 2 * lib.norml2 (sub2 rnd p c) ∧
      lib.norml2 (sub2 rnd p c) ≤ growth u 2 * ‖toC (Multipolar.sub2 p c)‖ := by
  have h1 := sub2_err R p c
  have h2 : |‖toC (sub2 rnd p c)‖ - ‖toC (Multipolar.sub2 p c)‖| ≤ u * ‖toC (Multipolar.sub2 p c)‖ :=
    le_trans (abs_norm_sub_norm_le _ _) h1
  have h3 := A.norml2 (sub2 rnd p c)
  have e : Real.sqrt ((sub2 rnd p c).1 * (sub2 rnd p c).1 + (sub2 rnd p c).2 * (sub2 rnd p c).2) = ‖toC (sub2 rnd p c)‖ :=
    Multipolar.norml2_eq (sub2 rnd p c)
  rw [e] at h3
  exact growth_trans (one_le_inv R) (growth_of_err R (norm_nonneg _) h2) (growth_of_err R (norm_nonneg _) h3)

theorem norm_positive (R : Rounding rnd u) (A : AccurateLibrary lib u) {p c : ℝ × ℝ} (h : toC (Multipolar.sub2 p c) ≠ 0) :
    0 < lib.norml2 (sub2 rnd p c) ∧ toC (sub2 rnd p c) ≠ 0 := by
  have hp : 0 < ‖toC (Multipolar.sub2 p c)‖ := norm_pos_iff.mpr h
  constructor
  · have h1 := (norm_growth R A p c).1
    have g := growth_ge R 2
    by_contra hn
    have : growth u 2 * lib.norml2 (sub2 rnd p c) ≤ 0 :=
      mul_nonpos_of_nonneg_of_nonpos (by linarith) (not_lt.mp hn)
    linarith
  · intro e
    have h1 := sub2_err R p c
    rw [e, zero_sub, norm_neg] at h1
    have := R.small
    nlinarith

/-- The unit vector of a point other than the origin, to the power `n`. -/
theorem unit_pow {v : ℝ × ℝ} (h : toC v ≠ 0) (n : ℕ) :
    ((toC v / (‖toC v‖ : ℂ)) ^ n).re = Real.cos (n * Multipolar.atan2 v.2 v.1) ∧
    ((toC v / (‖toC v‖ : ℂ)) ^ n).im = Real.sin (n * Multipolar.atan2 v.2 v.1) := by
  have hn : ‖toC v‖ ^ n ≠ 0 := pow_ne_zero n (norm_ne_zero_iff.mpr h)
  have hr := Multipolar.pow_re v n
  have hi := Multipolar.pow_im v n
  rw [Multipolar.norml2_eq] at hr hi
  rw [div_pow, ← Complex.ofReal_pow]
  constructor
  · rw [Complex.div_ofReal_re, hr]
    field_simp
  · rw [Complex.div_ofReal_im, hi]
    field_simp

theorem unit_norm {z : ℂ} (h : z ≠ 0) : ‖z / (‖z‖ : ℂ)‖ = 1 := by
  rw [norm_div, Complex.norm_real, norm_norm, div_self (norm_ne_zero_iff.mpr h)]

/-- Powers of unit vectors. -/
theorem pow_sub_pow {a b : ℂ} (ha : ‖a‖ = 1) (hb : ‖b‖ = 1) (n : ℕ) : ‖a ^ n - b ^ n‖ ≤ n * ‖a - b‖ := by
  induction n with
  | zero => simp
  | succ n ih =>
    rw [show a ^ (n + 1) - b ^ (n + 1) = (a ^ n - b ^ n) * a + b ^ n * (a - b) by ring]
    refine le_trans (norm_add_le _ _) ?_
    rw [norm_mul, norm_mul, norm_pow, ha, hb, one_pow, mul_one, one_mul]
    push_cast
    linarith

/-- Unit vectors of points close to each other, relative to their distance from the origin. -/
theorem unit_close {z w : ℂ} (hz : z ≠ 0) (hw : w ≠ 0) {u : ℝ} (h : ‖w - z‖ ≤ u * ‖z‖) :
    ‖w / (‖w‖ : ℂ) - z / (‖z‖ : ℂ)‖ ≤ 2 * u := by
  have hzp : 0 < ‖z‖ := norm_pos_iff.mpr hz
  have hwp : 0 < ‖w‖ := norm_pos_iff.mpr hw
  have hz' : (‖z‖ : ℂ) ≠ 0 := by exact_mod_cast hzp.ne'
  have hw' : (‖w‖ : ℂ) ≠ 0 := by exact_mod_cast hwp.ne'
  have e : w / (‖w‖ : ℂ) - z / (‖z‖ : ℂ) = (w - z) / (‖z‖ : ℂ) + w / (‖w‖ : ℂ) * (((‖z‖ - ‖w‖ : ℝ) : ℂ) / (‖z‖ : ℂ)) := by
    push_cast
    field_simp
    ring
  rw [e]
  refine le_trans (norm_add_le _ _) ?_
  rw [norm_mul, unit_norm hw, one_mul, norm_div, norm_div, Complex.norm_real, Complex.norm_real, norm_norm, Real.norm_eq_abs]
  have h1 : ‖w - z‖ / ‖z‖ ≤ u := by rw [div_le_iff₀ hzp]; exact h
  have h2 : |‖z‖ - ‖w‖| / ‖z‖ ≤ u := by
    rw [div_le_iff₀ hzp]
    refine le_trans (abs_norm_sub_norm_le z w) ?_
    rw [norm_sub_rev]
    exact h
  linarith

theorem atan2_bound (y x : ℝ) : |Multipolar.atan2 y x| ≤ Real.pi := by
  have hp := Real.pi_pos
  have h1 := Real.neg_pi_div_two_lt_arctan (y / x)
  have h2 := Real.arctan_lt_pi_div_two (y / x)
  unfold Multipolar.atan2
  rw [abs_le]
  split
  · constructor <;> linarith
  · split
    · rename_i hx0 hx
      split
      · rename_i hy
        have : Real.arctan (y / x) ≤ 0 := by
          have := Real.arctan_mono (div_nonpos_of_nonneg_of_nonpos hy hx.le)
          rwa [Real.arctan_zero] at this
        constructor <;> linarith
      · rename_i hy
        have : 0 ≤ Real.arctan (y / x) := by
          have := Real.arctan_mono (div_nonneg_of_nonpos (by linarith : y ≤ 0) hx.le)
          rwa [Real.arctan_zero] at this
        constructor <;> linarith
    · split
      · constructor <;> linarith
      · split <;> constructor <;> linarith

/-- The computed multiples of the computed angle: their cosines and sines. -/
theorem angle_near (R : Rounding rnd u) (A : AccurateLibrary lib u) {p c : ℝ × ℝ} (h : toC (Multipolar.sub2 p c) ≠ 0) (n : ℕ) :
    Near u (9 * n + 1) (Real.cos (n * Multipolar.atan2 (Multipolar.sub2 p c).2 (Multipolar.sub2 p c).1)) 1
      (lib.cos (rnd (n * lib.atan2 (sub2 rnd p c).2 (sub2 rnd p c).1))) ∧
    Near u (9 * n + 1) (Real.sin (n * Multipolar.atan2 (Multipolar.sub2 p c).2 (Multipolar.sub2 p c).1)) 1
      (lib.sin (rnd (n * lib.atan2 (sub2 rnd p c).2 (sub2 rnd p c).1))) := by
  have h0 := R.pos
  have hs := R.small
  obtain ⟨-, hne⟩ := norm_positive R A h
  have hclose := unit_close h hne (sub2_err R p c)
  have hpow := pow_sub_pow (unit_norm hne) (unit_norm h) n
  obtain ⟨c1, s1⟩ := unit_pow hne n
  obtain ⟨c2, s2⟩ := unit_pow h n
  set θ := lib.atan2 (sub2 rnd p c).2 (sub2 rnd p c).1 with hθ
  set ψ := Multipolar.atan2 (sub2 rnd p c).2 (sub2 rnd p c).1 with hψ
  set φ := Multipolar.atan2 (Multipolar.sub2 p c).2 (Multipolar.sub2 p c).1 with hφ
  have hψb : |ψ| ≤ Real.pi := atan2_bound _ _
  have hθψ : |θ - ψ| ≤ u * Real.pi := le_trans (A.atan2 _ _) (mul_le_mul_of_nonneg_left hψb h0)
  have hpi := Real.pi_lt_d2
  have hθb : |θ| ≤ (1 + u) * Real.pi := by
    have := abs_sub_abs_le_abs_sub θ ψ
    linarith
  have hn0 : (0 : ℝ) ≤ n := Nat.cast_nonneg n
  have hround : |rnd (n * θ) - n * ψ| ≤ 7 * n * u := by
    have a1 := R.err (n * θ)
    have a2 := abs_sub_le (rnd (n * θ)) (n * θ) (n * ψ)
    rw [← mul_sub, abs_mul, abs_of_nonneg hn0] at a2
    rw [abs_mul, abs_of_nonneg hn0] at a1
    have b1 : u * (n * |θ|) ≤ u * (n * ((1 + u) * Real.pi)) := by gcongr
    have b2 : n * |θ - ψ| ≤ n * (u * Real.pi) := by gcongr
    have b3 : u * (n * ((1 + u) * Real.pi)) + n * (u * Real.pi) = (n * u) * ((2 + u) * Real.pi) := by ring
    have b4 : (2 + u) * Real.pi ≤ 7 := by nlinarith [Real.pi_pos]
    have b5 := mul_le_mul_of_nonneg_left b4 (mul_nonneg hn0 h0)
    linarith
  have hlin := growth_linear R (9 * n + 1)
  push_cast at hlin
  have hun : n * ‖toC (sub2 rnd p c) / (‖toC (sub2 rnd p c)‖ : ℂ) - toC (Multipolar.sub2 p c) / (‖toC (Multipolar.sub2 p c)‖ : ℂ)‖ ≤
      n * (2 * u) := by gcongr
  constructor
  · refine ⟨Real.abs_cos_le_one _, ?_⟩
    rw [mul_one]
    have d1 : |lib.cos (rnd (n * θ)) - Real.cos (rnd (n * θ))| ≤ u := by
      refine le_trans (A.cos _) ?_
      have := mul_le_mul_of_nonneg_left (Real.abs_cos_le_one (rnd (n * θ))) h0
      linarith
    have d2 : |Real.cos (rnd (n * θ)) - Real.cos (n * ψ)| ≤ |rnd (n * θ) - n * ψ| := Real.abs_cos_sub_cos_le _ _
    have d3 : |Real.cos (n * ψ) - Real.cos (n * φ)| ≤ n * (2 * u) := by
      rw [← c1, ← c2, ← Complex.sub_re]
      exact le_trans (Complex.abs_re_le_norm _) (le_trans hpow hun)
    have t1 := abs_sub_le (lib.cos (rnd (n * θ))) (Real.cos (rnd (n * θ))) (Real.cos (n * ψ))
    have t2 := abs_sub_le (lib.cos (rnd (n * θ))) (Real.cos (n * ψ)) (Real.cos (n * φ))
    linarith
  · refine ⟨Real.abs_sin_le_one _, ?_⟩
    rw [mul_one]
    have d1 : |lib.sin (rnd (n * θ)) - Real.sin (rnd (n * θ))| ≤ u := by
      refine le_trans (A.sin _) ?_
      have := mul_le_mul_of_nonneg_left (Real.abs_sin_le_one (rnd (n * θ))) h0
      linarith
    have d2 : |Real.sin (rnd (n * θ)) - Real.sin (n * ψ)| ≤ |rnd (n * θ) - n * ψ| := Real.abs_sin_sub_sin_le _ _
    have d3 : |Real.sin (n * ψ) - Real.sin (n * φ)| ≤ n * (2 * u) := by
      rw [← s1, ← s2, ← Complex.sub_im]
      exact le_trans (Complex.abs_im_le_norm _) (le_trans hpow hun)
    have t1 := abs_sub_le (lib.sin (rnd (n * θ))) (Real.sin (rnd (n * θ))) (Real.sin (n * ψ))
    have t2 := abs_sub_le (lib.sin (rnd (n * θ))) (Real.sin (n * ψ)) (Real.sin (n * φ))
    linarith

/-- The computed logarithm of the computed distance. -/
theorem log_near (R : Rounding rnd u) (A : AccurateLibrary lib u) {r s : ℝ} (hr : 0 < r) (hs : 0 < s)
    (h : r ≤ growth u 2 * s ∧ s ≤ growth u 2 * r) : Near u 3 (Real.log r) (|Real.log r| + 1) (lib.log s) := by
  have h0 := R.pos
  have hsm := R.small
  have hw := one_add_le R
  have g1 := one_le_inv R
  set w := (1 - u)⁻¹ - 1 with hwdef
  have hw0 : 0 ≤ w := by linarith
  have huw : u ≤ w := by
    unfold growth at hw
    rw [pow_one] at hw
    linarith
  have hgr : growth u 2 = (1 + w) ^ 2 := by unfold growth; rw [hwdef]; ring
  have hg3 : growth u 3 = (1 + w) ^ 3 := by unfold growth; rw [hwdef]; ring
  have hlog : Real.log (growth u 2) ≤ 2 * w := by
    rw [hgr, Real.log_pow]
    have := Real.log_le_sub_one_of_pos (by linarith : 0 < 1 + w)
    push_cast
    linarith
  have gp : 0 < growth u 2 := by rw [hgr]; positivity
  have hd : |Real.log s - Real.log r| ≤ 2 * w := by
    rw [abs_le]
    constructor
    · have := Real.log_le_log hr h.1
      rw [Real.log_mul gp.ne' hs.ne'] at this
      linarith
    · have := Real.log_le_log hs h.2
      rw [Real.log_mul gp.ne' hr.ne'] at this
      linarith
  refine ⟨by linarith, ?_⟩
  have a1 := A.log s hs
  have a2 : |Real.log s| ≤ |Real.log r| + 2 * w := by
    have := abs_sub_abs_le_abs_sub (Real.log s) (Real.log r)
    linarith
  have a3 := abs_sub_le (lib.log s) (Real.log s) (Real.log r)
  have a4 := mul_le_mul_of_nonneg_left a2 h0
  have a5 : u * |Real.log r| ≤ 3 * w * |Real.log r| := mul_le_mul_of_nonneg_right (by linarith) (abs_nonneg _)
  have a6 : u * (2 * w) ≤ w := by nlinarith
  have a7 : 3 * w ≤ growth u 3 - 1 := by rw [hg3]; nlinarith [pow_nonneg hw0 3, sq_nonneg w]
  have a8 := mul_le_mul_of_nonneg_right a7 (by positivity : 0 ≤ |Real.log r| + 1)
  nlinarith

/-- The computed power of the computed distance. -/
theorem pow_growth (R : Rounding rnd u) (A : AccurateLibrary lib u) {r s : ℝ} (hr : 0 < r) (hs : 0 < s)
    (h : r ≤ growth u 2 * s ∧ s ≤ growth u 2 * r) (n : ℕ) :
    r ^ n ≤ growth u (2 * n + 1) * lib.pow s n ∧ lib.pow s n ≤ growth u (2 * n + 1) * r ^ n :=
  growth_trans (one_le_inv R) (growth_pow' hr.le hs.le h n) (growth_of_err R (pow_nonneg hs.le n) (A.pow s n hs.le))

/-- One term. -/
theorem term_near (R : Rounding rnd u) (A : AccurateLibrary lib u) {p c : ℝ × ℝ} (h : toC (Multipolar.sub2 p c) ≠ 0)
    (n : ℕ) (a b : ℝ) :
    Near u (11 * n + 5)
      ((a * Real.cos (n * Multipolar.atan2 (Multipolar.sub2 p c).2 (Multipolar.sub2 p c).1) +
        b * Real.sin (n * Multipolar.atan2 (Multipolar.sub2 p c).2 (Multipolar.sub2 p c).1)) /
          Multipolar.norml2 (Multipolar.sub2 p c) ^ n)
      ((|a| + |b|) / Multipolar.norml2 (Multipolar.sub2 p c) ^ n)
      (term rnd lib (lib.norml2 (sub2 rnd p c)) (lib.atan2 (sub2 rnd p c).2 (sub2 rnd p c).1) n a b) := by
  obtain ⟨hc, hs⟩ := angle_near R A h n
  have hr : 0 < ‖toC (Multipolar.sub2 p c)‖ := norm_pos_iff.mpr h
  have hp := pow_growth R A hr (norm_positive R A h).1 (norm_growth R A p c) n
  rw [Multipolar.norml2_eq]
  have hi := Near.inv R (pow_pos hr n) hp.1 hp.2
  have h1 := (((Near.self R 0 a).mul R hc).round R).add (((Near.self R 0 b).mul R hs).round R)
  have h2 := ((h1.round R).mul R hi).round R
  rw [mul_one, mul_one, ← div_eq_mul_inv, ← div_eq_mul_inv, ← div_eq_mul_inv] at h2
  exact h2.up R (by omega)

/-- Sum of the sizes of the terms from index `n` on. -/
def tailSize (r : ℝ) : ℕ → List (ℝ × ℝ) → ℝ
  | _, [] => 0
  | n, (a, b) :: ab => (|a| + |b|) / r ^ n + tailSize r (n + 1) ab

theorem tailSize_eq (r : ℝ) : ∀ (ab : List (ℝ × ℝ)) (n : ℕ), tailSize r n ab =
    ∑ k ∈ Finset.range ab.length, (|(ab.getD k (0, 0)).1| + |(ab.getD k (0, 0)).2|) / r ^ (n + k)
  | [], n => by simp [tailSize]
  | (a, b) :: ab, n => by
    rw [tailSize, tailSize_eq r ab (n + 1), List.length_cons, Finset.sum_range_succ']
    simp only [List.getD_cons_succ, List.getD_cons_zero, add_zero]
    rw [add_comm]
    congr 1
    apply Finset.sum_congr rfl
    intro k _
    rw [show n + 1 + k = n + (k + 1) by omega]

/-- The loop from index `n ≥ 1` on. -/
theorem loop_near (R : Rounding rnd u) (A : AccurateLibrary lib u) {p c : ℝ × ℝ} (h : toC (Multipolar.sub2 p c) ≠ 0) :
    ∀ (ab : List (ℝ × ℝ)) (n : ℕ) (S T s : ℝ), 1 ≤ n → Near u (11 * n - 5) S T s →
      ∃ S' s', Multipolar.expansionLoop (Multipolar.norml2 (Multipolar.sub2 p c))
          (Multipolar.atan2 (Multipolar.sub2 p c).2 (Multipolar.sub2 p c).1) n ab S = .ok S' ∧
        expansionLoop rnd lib (lib.norml2 (sub2 rnd p c)) (lib.atan2 (sub2 rnd p c).2 (sub2 rnd p c).1) n ab s = .ok s' ∧
        Near u (11 * (n + ab.length) - 5) S' (T + tailSize (Multipolar.norml2 (Multipolar.sub2 p c)) n ab) s'
  | [], n, S, T, s, _, hs => ⟨S, s, rfl, rfl, by simpa [tailSize] using hs⟩
  | (a, b) :: ab, n, S, T, s, hn, hs => by
    have ht := (hs.up R (by omega : 11 * n - 5 ≤ 11 * n + 5)).add (term_near R A h n a b)
    have hr := (ht.round R).up R (by omega : 11 * n + 5 + 1 ≤ 11 * (n + 1) - 5)
    obtain ⟨S', s', e1, e2, hN⟩ := loop_near R A h ab (n + 1) _ _ _ (by omega) hr
    refine ⟨S', s', ?_, ?_, ?_⟩
    · rw [Multipolar.expansionLoop, if_neg (Multipolar.norml2_ne h), if_neg (by omega)]
      exact e1
    · rw [expansionLoop, if_neg (norm_positive R A h).1.ne', if_neg (by omega)]
      exact e2
    · rw [List.length_cons, tailSize, ← add_assoc T, show n + (ab.length + 1) = n + 1 + ab.length by omega]
      exact hN

/-- The whole sum. -/
theorem expansion_near (R : Rounding rnd u) (A : AccurateLibrary lib u) {p c : ℝ × ℝ}
    (h : toC (Multipolar.sub2 p c) ≠ 0) (a b : ℝ) (ab : List (ℝ × ℝ)) :
    ∃ x y, Multipolar.multipolarExpansion p ((a, b) :: ab) c = .ok x ∧
      multipolarExpansion rnd lib p ((a, b) :: ab) c = .ok y ∧
      Near u (11 * ab.length + 9) x
        ((|a| * (|Real.log (Multipolar.norml2 (Multipolar.sub2 p c))| + 1) +
          tailSize (Multipolar.norml2 (Multipolar.sub2 p c)) 1 ab) / (2 * Real.pi)) y := by
  have hr : 0 < ‖toC (Multipolar.sub2 p c)‖ := norm_pos_iff.mpr h
  obtain ⟨hs, -⟩ := norm_positive R A h
  have hl := log_near R A hr hs (norm_growth R A p c)
  rw [← Multipolar.norml2_eq] at hl
  have h1 := ((Near.self R 0 a).mul R hl).round R
  have h2 : Near u 5 (0 - a * Real.log (Multipolar.norml2 (Multipolar.sub2 p c)))
      (|a| * (|Real.log (Multipolar.norml2 (Multipolar.sub2 p c))| + 1))
      (rnd (0 - rnd (a * lib.log (lib.norml2 (sub2 rnd p c))))) := by
    have h3 : Near u 4 (0 - a * Real.log (Multipolar.norml2 (Multipolar.sub2 p c)))
        (|a| * (|Real.log (Multipolar.norml2 (Multipolar.sub2 p c))| + 1))
        (0 - rnd (a * lib.log (lib.norml2 (sub2 rnd p c)))) := by
      refine ⟨by rw [zero_sub, abs_neg]; exact h1.1, ?_⟩
      rw [zero_sub, zero_sub, show ∀ x y : ℝ, -x - -y = -(x - y) by intro x y; ring, abs_neg]
      exact h1.2
    exact h3.round R
  obtain ⟨S', s', e1, e2, hN⟩ := loop_near R A h ab 1 _ _ _ (le_refl _) (h2.up R (by norm_num : 5 ≤ 11 * 1 - 5))
  have hpi : 0 < Real.pi := Real.pi_pos
  have hpl : |2 * lib.pi - 2 * Real.pi| ≤ u * (2 * Real.pi) := by
    rw [← mul_sub, abs_mul, abs_of_pos (by norm_num : (0 : ℝ) < 2)]
    have := A.pi
    linarith
  have g1 := growth_of_err R (by positivity : 0 ≤ 2 * Real.pi) hpl
  have hpl0 : 0 ≤ 2 * lib.pi := by
    have := (abs_le.mp hpl).1
    have := R.small
    nlinarith
  have g2 := growth_trans (one_le_inv R) g1 (rnd_growth R hpl0)
  have hinv := Near.inv R (by positivity : 0 < 2 * Real.pi) g2.1 g2.2
  have hfin := ((hN.mul R hinv).round R).up R (by omega : 11 * (1 + ab.length) - 5 + (1 + 1) + 1 ≤ 11 * ab.length + 9)
  rw [← div_eq_mul_inv, ← div_eq_mul_inv, ← div_eq_mul_inv] at hfin
  refine ⟨_, _, ?_, ?_, hfin⟩
  · unfold Multipolar.multipolarExpansion
    simp only
    rw [Multipolar.expansionLoop, if_neg (Multipolar.norml2_ne h), if_pos rfl, e1]
    rfl
  · unfold multipolarExpansion
    simp only
    rw [expansionLoop, if_neg hs.ne', if_pos rfl, e2]
    rfl

end Tulip.RoundedExpansion
