import Verif.Proofs.Multipolar
import Verif.Props.Charge
import Mathlib.Analysis.SpecialFunctions.Log.Deriv
import Mathlib.Analysis.SpecificLimits.Basic
import Mathlib.Tactic.NormNum
import Mathlib.Tactic.Positivity

/-!
# C52–C54, C68: moments, multipolar expansion, absorbing boundary condition
-/

noncomputable section

namespace Tulip.Props
open Tulip Tulip.Spec Tulip.Multipolar

/-- **C52.** The moment components are the real and imaginary part of `(p - c)^n / n`, for all orders
`n ≥ 1` and all points; at order 0 the component is 1. -/
theorem C52_moments (p c : ℝ × ℝ) (n : ℕ) (hn : 1 ≤ n) :
    momentComponent p n 0 c = ((toC p - toC c) ^ n / n).re ∧
    momentComponent p n 1 c = ((toC p - toC c) ^ n / n).im ∧
    momentComponent p 0 0 c = 1 := by
  have h0 : n ≠ 0 := by omega
  unfold momentComponent
  simp only [if_neg h0, if_true, one_ne_zero, if_false]
  rw [← pow_re, ← pow_im, toC_sub2]
  refine ⟨?_, ?_, trivial⟩
  · rw [← Complex.ofReal_natCast, Complex.div_ofReal_re]
  · rw [← Complex.ofReal_natCast, Complex.div_ofReal_im]

/-- The order-2 moments of the point (3, 1) about (1, 0): `(2 + i)^2 / 2 = 3/2 + 2 i`. -/
example : momentComponent (3, 1) 2 0 (1, 0) = 3 / 2 ∧ momentComponent (3, 1) 2 1 (1, 0) = 2 := by
  obtain ⟨h1, h2, -⟩ := C52_moments (3, 1) (1, 0) 2 (by norm_num)
  rw [h1, h2]
  constructor <;> simp [toC, pow_two] <;> norm_num

/-- The order-1 moments are the coordinates, as C55 requires. -/
def realAnalytic : Analytic ℝ := ⟨firstOrderABC, momentComponent⟩

theorem realAnalytic_firstMoments : FirstMoments realAnalytic := by
  intro x c
  obtain ⟨h1, h2, -⟩ := C52_moments x c 1 (le_refl 1)
  constructor
  · show momentComponent x 1 0 c = _
    rw [h1]; simp [toC]
  · show momentComponent x 1 1 c = _
    rw [h2]; simp [toC]

/-! ## C53 -/

/-- **C53.** Away from the centre the expansion is the truncated Laurent series of its coefficients, it is
linear in them, and it is invariant under translating position and centre together; at the centre it is not
finite unless there are no coefficients. -/
theorem C53_laurent (p c : ℝ × ℝ) (ab : List (ℝ × ℝ)) :
    (p ≠ c → ab ≠ [] → multipolarExpansion p ab c =
      .ok (laurent (fun n => (ab.getD n (0, 0)).1) (fun n => (ab.getD n (0, 0)).2) (ab.length - 1)
        (toC p - toC c))) ∧
    (p ≠ c → ∀ ab', ab'.length = ab.length → ∀ s t : ℝ, ∃ x y,
      multipolarExpansion p ab c = .ok x ∧ multipolarExpansion p ab' c = .ok y ∧
      multipolarExpansion p (List.zipWith (fun u v => (s * u.1 + t * v.1, s * u.2 + t * v.2)) ab ab') c =
        .ok (s * x + t * y)) ∧
    (∀ d : ℝ × ℝ, multipolarExpansion (p.1 + d.1, p.2 + d.2) ab (c.1 + d.1, c.2 + d.2) = multipolarExpansion p ab c) ∧
    (multipolarExpansion p [] c = .ok 0) ∧
    (ab ≠ [] → multipolarExpansion c ab c = .nonfinite) := by
  have hz : p ≠ c → toC p - toC c ≠ 0 := by
    intro h e
    apply h
    have := sub_eq_zero.mp e
    unfold toC at this
    injection this with e1 e2
    exact Prod.ext e1 e2
  have hnil : ∀ p c, multipolarExpansion p [] c = .ok 0 := by
    intro p c; unfold multipolarExpansion; simp [expansionLoop]
  refine ⟨fun h hab => expansion_eq p c (hz h) ab hab, ?_, ?_, hnil p c, ?_⟩
  · intro h ab' hl s t
    by_cases hab : ab = []
    · subst hab
      have : ab' = [] := List.length_eq_zero_iff.mp hl
      subst this
      exact ⟨0, 0, hnil _ _, hnil _ _, by simp [hnil]⟩
    · have hab' : ab' ≠ [] := by
        intro e; subst e; exact hab (List.length_eq_zero_iff.mp hl.symm)
      refine ⟨_, _, expansion_eq p c (hz h) ab hab, expansion_eq p c (hz h) ab' hab', ?_⟩
      have hzip : List.zipWith (fun u v : ℝ × ℝ => (s * u.1 + t * v.1, s * u.2 + t * v.2)) ab ab' ≠ [] := by
        intro e
        have := congrArg List.length e
        rw [List.length_zipWith, hl, Nat.min_self] at this
        exact hab (List.length_eq_zero_iff.mp this)
      rw [expansion_eq p c (hz h) _ hzip]
      congr 1
      have hc : ∀ n, coefA (List.zipWith (fun u v : ℝ × ℝ => (s * u.1 + t * v.1, s * u.2 + t * v.2)) ab ab') n =
            s * coefA ab n + t * coefA ab' n ∧
          coefB (List.zipWith (fun u v : ℝ × ℝ => (s * u.1 + t * v.1, s * u.2 + t * v.2)) ab ab') n =
            s * coefB ab n + t * coefB ab' n := by
        intro n
        unfold coefA coefB
        rw [List.getD_eq_getElem?_getD, List.getD_eq_getElem?_getD, List.getD_eq_getElem?_getD,
          List.getElem?_zipWith]
        by_cases hn : n < ab.length
        · rw [List.getElem?_eq_getElem hn, List.getElem?_eq_getElem (by omega)]
          simp
        · rw [List.getElem?_eq_none (by omega), List.getElem?_eq_none (by omega)]
          simp
      unfold laurent
      simp only [(hc _).1, (hc _).2, List.length_zipWith, hl, Nat.min_self]
      have hsum : (∑ n ∈ Finset.range (ab.length - 1),
          (((s * coefA ab (n + 1) + t * coefA ab' (n + 1) : ℝ) : ℂ) +
            ((s * coefB ab (n + 1) + t * coefB ab' (n + 1) : ℝ) : ℂ) * Complex.I) / (toC p - toC c) ^ (n + 1)) =
          (s : ℂ) * (∑ n ∈ Finset.range (ab.length - 1),
            ((coefA ab (n + 1) : ℂ) + (coefB ab (n + 1) : ℂ) * Complex.I) / (toC p - toC c) ^ (n + 1)) +
          (t : ℂ) * (∑ n ∈ Finset.range (ab.length - 1),
            ((coefA ab' (n + 1) : ℂ) + (coefB ab' (n + 1) : ℂ) * Complex.I) / (toC p - toC c) ^ (n + 1)) := by
        rw [Finset.mul_sum, Finset.mul_sum, ← Finset.sum_add_distrib]
        apply Finset.sum_congr rfl
        intro n _
        push_cast
        ring
      rw [hsum]
      simp only [Complex.add_re, Complex.re_ofReal_mul]
      ring
  · intro d
    unfold multipolarExpansion sub2
    simp only [add_sub_add_right_eq_sub]
  · intro hab
    unfold multipolarExpansion
    cases ab with
    | nil => exact absurd rfl hab
    | cons x ab =>
      have : norml2 (sub2 c c) = 0 := by
        rw [norml2_eq, toC_sub2, sub_self, norm_zero]
      obtain ⟨a, b⟩ := x
      simp [expansionLoop, this]

/-- A dipole along x at distance 2 on the axis: `(1/2π) · 1/2`. -/
example : multipolarExpansion (2, 0) [(0, 0), (1, 0)] (0, 0) = .ok (1 / (2 * Real.pi) * (1 / 2)) := by
  rw [(C53_laurent (2, 0) (0, 0) [(0, 0), (1, 0)]).1 (by simp) (by simp)]
  congr 1
  simp [laurent, toC, Complex.normSq]

/-! ## C54 -/

/-- The coefficients of line charges, computed with the code's moment functions and, as the solver does, with
a zero second component at order 0. -/
def lineCoefficients (charges : List (ℝ × (ℝ × ℝ))) (c : ℝ × ℝ) (order : ℕ) : List (ℝ × ℝ) :=
  (List.range (order + 1)).map (fun n =>
    ((charges.map (fun q => q.1 * momentComponent q.2 n 0 c)).sum,
      if n = 0 then 0 else (charges.map (fun q => q.1 * momentComponent q.2 n 1 c)).sum))

theorem single_charge (z w : ℂ) (R : ℝ) (hw : ‖w‖ ≤ R) (hR : R < ‖z‖) (N : ℕ) :
    |-Real.log ‖z - w‖ - (-Real.log ‖z‖ +
      (∑ n ∈ Finset.range N, w ^ (n + 1) / (n + 1 : ℕ) / z ^ (n + 1)).re)| ≤
      (R / ‖z‖) ^ (N + 1) / ((N + 1) * (1 - R / ‖z‖)) := by
  have hR0 : 0 ≤ R := le_trans (norm_nonneg w) hw
  have hz : 0 < ‖z‖ := lt_of_le_of_lt hR0 hR
  have hz0 : z ≠ 0 := norm_pos_iff.mp hz
  have ht : ‖w / z‖ ≤ R / ‖z‖ := by rw [norm_div]; gcongr
  have hρ : R / ‖z‖ < 1 := (div_lt_one hz).mpr hR
  have ht1 : ‖w / z‖ < 1 := lt_of_le_of_lt ht hρ
  have htn : ‖-(w / z)‖ < 1 := by rw [norm_neg]; exact ht1
  have key := Complex.norm_log_sub_logTaylor_le N htn
  have hT : Complex.logTaylor (N + 1) (-(w / z)) =
      -∑ n ∈ Finset.range N, w ^ (n + 1) / (n + 1 : ℕ) / z ^ (n + 1) := by
    unfold Complex.logTaylor
    rw [Finset.sum_range_succ', ← Finset.sum_neg_distrib]
    simp only [Nat.cast_zero, div_zero, add_zero]
    apply Finset.sum_congr rfl
    intro n _
    have h1 : (-(w / z)) ^ (n + 1) = (-1) ^ (n + 1) * (w / z) ^ (n + 1) := by
      rw [← mul_pow]; congr 1; ring
    have h2 : ((-1 : ℂ) ^ (n + 1 + 1)) * (-1) ^ (n + 1) = -1 := by
      rw [← pow_add]
      exact Odd.neg_one_pow ⟨n + 1, by ring⟩
    rw [h1, ← mul_assoc, h2, div_pow]
    ring
  have hsub : z - w = z * (1 + -(w / z)) := by field_simp; ring
  have hne : (1 + -(w / z)) ≠ 0 := by
    intro e
    have : w / z = 1 := by linear_combination -e
    rw [this, norm_one] at ht1
    exact lt_irrefl _ ht1
  have hlog : Real.log ‖z - w‖ = Real.log ‖z‖ + (Complex.log (1 + -(w / z))).re := by
    rw [hsub, norm_mul, Real.log_mul hz.ne' (norm_ne_zero_iff.mpr hne), Complex.log_re]
  rw [hlog]
  have : -(Real.log ‖z‖ + (Complex.log (1 + -(w / z))).re) - (-Real.log ‖z‖ +
      (∑ n ∈ Finset.range N, w ^ (n + 1) / (n + 1 : ℕ) / z ^ (n + 1)).re) =
      -(Complex.log (1 + -(w / z)) - Complex.logTaylor (N + 1) (-(w / z))).re := by
    rw [hT, Complex.sub_re, Complex.neg_re]; ring
  rw [this, abs_neg]
  refine le_trans (Complex.abs_re_le_norm _) (le_trans key ?_)
  have h1 : 0 < 1 - R / ‖z‖ := sub_pos.mpr hρ
  have h2 : 1 - R / ‖z‖ ≤ 1 - ‖w / z‖ := by linarith
  have e : ‖-(w / z)‖ ^ (N + 1) * (1 - ‖-(w / z)‖)⁻¹ / ((N : ℝ) + 1) =
      ‖w / z‖ ^ (N + 1) / (((N : ℝ) + 1) * (1 - ‖w / z‖)) := by
    rw [norm_neg]
    generalize ‖w / z‖ = u
    rw [div_eq_mul_inv, div_eq_mul_inv, mul_inv]; ring
  rw [e]
  gcongr

theorem lineCoefficients_getD (charges : List (ℝ × (ℝ × ℝ))) (c : ℝ × ℝ) (N n : ℕ) (hn : n ≤ N) :
    ((coefA (lineCoefficients charges c N) n : ℂ) + (coefB (lineCoefficients charges c N) n : ℂ) * Complex.I) =
      lineMoment charges c n := by
  have hlen : n < (lineCoefficients charges c N).length := by simp [lineCoefficients]; omega
  unfold coefA coefB
  rw [List.getD_eq_getElem?_getD, List.getElem?_eq_getElem hlen]
  simp only [lineCoefficients, List.getElem_map, List.getElem_range, Option.getD_some]
  unfold lineMoment
  by_cases h0 : n = 0
  · subst h0
    simp only [if_true, Complex.ofReal_zero, zero_mul, add_zero, mul_one]
    have h1 : ∀ q : ℝ × ℝ × ℝ, momentComponent q.2 0 0 c = 1 := fun q => rfl
    simp only [h1, mul_one]
    induction charges with
    | nil => simp
    | cons q l ih =>
      have ih := ih (by simp [lineCoefficients])
      simp only [List.map_cons, List.sum_cons, Complex.ofReal_add, ih]
  · simp only [if_neg h0]
    have hm := fun q : ℝ × ℝ × ℝ => C52_moments q.2 c n (by omega)
    simp only [fun q => (hm q).1, fun q => (hm q).2.1]
    induction charges with
    | nil => simp
    | cons q l ih =>
      have ih := ih (by simp [lineCoefficients]; omega)
      simp only [List.map_cons, List.sum_cons, Complex.ofReal_add]
      rw [← ih]
      have : ((q.1 : ℂ)) * ((toC q.2 - toC c) ^ n / n) = ((q.1 * (((toC q.2 - toC c) ^ n / n)).re : ℝ) : ℂ) +
          ((q.1 * (((toC q.2 - toC c) ^ n / n)).im : ℝ) : ℂ) * Complex.I := by
        conv_lhs => rw [← Complex.re_add_im ((toC q.2 - toC c) ^ n / n)]
        push_cast; ring
      rw [this]
      ring

/-- **C54.** For line charges within distance `R` of the centre and a point farther away, the expansion of
order `N` with their moments differs from their exact potential by at most
`(Σ|q| / 2π) ρ^(N+1) / ((N+1)(1-ρ))` with `ρ = R / |p - c|`; in particular it converges to it. -/
theorem C54_expansion (charges : List (ℝ × (ℝ × ℝ))) (c p : ℝ × ℝ) (R : ℝ)
    (hR : ∀ q ∈ charges, ‖toC q.2 - toC c‖ ≤ R) (h0 : 0 ≤ R) (hp : R < ‖toC p - toC c‖) :
    (∀ N, ∃ x, multipolarExpansion p (lineCoefficients charges c N) c = .ok x ∧
      |linePotential charges p - x| ≤ (charges.map (fun q => |q.1|)).sum / (2 * Real.pi) *
        ((R / ‖toC p - toC c‖) ^ (N + 1) / ((N + 1) * (1 - R / ‖toC p - toC c‖)))) ∧
    ∃ X : ℕ → ℝ, (∀ N, multipolarExpansion p (lineCoefficients charges c N) c = .ok (X N)) ∧
      Filter.Tendsto X Filter.atTop (nhds (linePotential charges p)) := by
  have hz : 0 < ‖toC p - toC c‖ := lt_of_le_of_lt h0 hp
  have hz0 : toC p - toC c ≠ 0 := norm_pos_iff.mp hz
  set z := toC p - toC c with hzdef
  let ρ := R / ‖z‖
  have hρ0 : 0 ≤ ρ := div_nonneg h0 hz.le
  have hρ1 : ρ < 1 := (div_lt_one hz).mpr hp
  -- the expansion as a sum over the charges
  have hform : ∀ N, multipolarExpansion p (lineCoefficients charges c N) c = .ok (1 / (2 * Real.pi) *
      (charges.map (fun q => q.1 * (-Real.log ‖z‖ + (∑ n ∈ Finset.range N,
        (toC q.2 - toC c) ^ (n + 1) / (n + 1 : ℕ) / z ^ (n + 1)).re))).sum) := by
    intro N
    have hlen : (lineCoefficients charges c N).length = N + 1 := by simp [lineCoefficients]
    rw [expansion_eq p c hz0 _ (by intro e; rw [e] at hlen; simp at hlen), hlen]
    congr 1
    unfold laurent
    congr 1
    have h1 : coefA (lineCoefficients charges c N) 0 = (charges.map (fun q => q.1)).sum := by
      have := congrArg Complex.re (lineCoefficients_getD charges c N 0 (Nat.zero_le _))
      simp only [Complex.add_re, Complex.ofReal_re, Complex.mul_re, Complex.I_re, Complex.I_im, Complex.ofReal_im,
        mul_zero, zero_mul, sub_zero, add_zero] at this
      rw [this]
      unfold lineMoment
      simp only [if_true, mul_one]
      clear hR this hlen
      induction charges with
      | nil => simp
      | cons q l ih => simp only [List.map_cons, List.sum_cons, Complex.add_re, Complex.ofReal_re, ih]
    have h2 : (∑ n ∈ Finset.range (N + 1 - 1), ((coefA (lineCoefficients charges c N) (n + 1) : ℂ) +
        (coefB (lineCoefficients charges c N) (n + 1) : ℂ) * Complex.I) / z ^ (n + 1)) =
        ∑ n ∈ Finset.range N, lineMoment charges c (n + 1) / z ^ (n + 1) := by
      rw [Nat.add_sub_cancel]
      apply Finset.sum_congr rfl
      intro n hn
      rw [lineCoefficients_getD _ _ _ _ (by have := Finset.mem_range.mp hn; omega)]
    rw [h1, h2]
    clear h1 h2 hR hlen
    unfold lineMoment
    induction charges with
    | nil => simp
    | cons q l ih =>
      simp only [List.map_cons, List.sum_cons, add_mul, add_div, Finset.sum_add_distrib, Complex.add_re, neg_add]
      rw [← ih]
      have : (∑ n ∈ Finset.range N, (q.1 : ℂ) * (if n + 1 = 0 then 1 else (toC q.2 - toC c) ^ (n + 1) / ((n + 1 : ℕ) : ℂ)) /
          z ^ (n + 1)).re = q.1 * (∑ n ∈ Finset.range N, (toC q.2 - toC c) ^ (n + 1) / ((n + 1 : ℕ) : ℂ) / z ^ (n + 1)).re := by
        rw [← Complex.re_ofReal_mul, Finset.mul_sum]
        congr 1
        apply Finset.sum_congr rfl
        intro n _
        rw [if_neg (Nat.succ_ne_zero n)]
        ring
      rw [this]
      ring
  have hbound : ∀ N, |linePotential charges p - 1 / (2 * Real.pi) *
      (charges.map (fun q => q.1 * (-Real.log ‖z‖ + (∑ n ∈ Finset.range N,
        (toC q.2 - toC c) ^ (n + 1) / (n + 1 : ℕ) / z ^ (n + 1)).re))).sum| ≤
      (charges.map (fun q => |q.1|)).sum / (2 * Real.pi) * (ρ ^ (N + 1) / ((N + 1) * (1 - ρ))) := by
    intro N
    have hpi : 0 < 2 * Real.pi := by positivity
    have hlist : |-(charges.map (fun q => q.1 * Real.log ‖toC p - toC q.2‖)).sum -
        (charges.map (fun q => q.1 * (-Real.log ‖z‖ + (∑ n ∈ Finset.range N,
        (toC q.2 - toC c) ^ (n + 1) / (n + 1 : ℕ) / z ^ (n + 1)).re))).sum| ≤
        (charges.map (fun q => |q.1|)).sum * (ρ ^ (N + 1) / ((N + 1) * (1 - ρ))) := by
      clear hform
      induction charges with
      | nil => simp
      | cons q l ih =>
        have ih := ih (fun x hx => hR x (by simp [hx]))
        simp only [List.map_cons, List.sum_cons]
        have h1 := single_charge z (toC q.2 - toC c) R (hR q (by simp)) hp N
        have hzw : z - (toC q.2 - toC c) = toC p - toC q.2 := by rw [hzdef]; ring
        rw [hzw] at h1
        rw [add_mul]
        have h2 : |q.1 * (-Real.log ‖toC p - toC q.2‖ - (-Real.log ‖z‖ + (∑ n ∈ Finset.range N,
            (toC q.2 - toC c) ^ (n + 1) / (n + 1 : ℕ) / z ^ (n + 1)).re))| ≤
            |q.1| * (ρ ^ (N + 1) / ((N + 1) * (1 - ρ))) := by
          rw [abs_mul]
          exact mul_le_mul_of_nonneg_left h1 (abs_nonneg _)
        refine le_trans ?_ (add_le_add h2 ih)
        refine le_trans (le_of_eq ?_) (abs_add_le _ _)
        congr 1
        ring
    unfold linePotential
    have : -(1 / (2 * Real.pi)) * (charges.map (fun q => q.1 * Real.log ‖toC p - toC q.2‖)).sum - 1 / (2 * Real.pi) *
      (charges.map (fun q => q.1 * (-Real.log ‖z‖ + (∑ n ∈ Finset.range N,
        (toC q.2 - toC c) ^ (n + 1) / (n + 1 : ℕ) / z ^ (n + 1)).re))).sum =
        (1 / (2 * Real.pi)) * (-(charges.map (fun q => q.1 * Real.log ‖toC p - toC q.2‖)).sum -
        (charges.map (fun q => q.1 * (-Real.log ‖z‖ + (∑ n ∈ Finset.range N,
        (toC q.2 - toC c) ^ (n + 1) / (n + 1 : ℕ) / z ^ (n + 1)).re))).sum) := by ring
    rw [this, abs_mul, abs_of_pos (by positivity)]
    calc _ ≤ 1 / (2 * Real.pi) * ((charges.map (fun q => |q.1|)).sum * (ρ ^ (N + 1) / ((N + 1) * (1 - ρ)))) :=
          mul_le_mul_of_nonneg_left hlist (by positivity)
      _ = _ := by ring
  refine ⟨fun N => ⟨_, hform N, hbound N⟩, _, hform, ?_⟩
  rw [tendsto_iff_norm_sub_tendsto_zero]
  refine squeeze_zero (fun _ => norm_nonneg _) (fun N => ?_) ?_ (g := fun N : ℕ =>
    (charges.map (fun q => |q.1|)).sum / (2 * Real.pi) / (1 - ρ) * ρ ^ (N + 1))
  · rw [Real.norm_eq_abs, abs_sub_comm]
    refine le_trans (hbound N) ?_
    have hS : 0 ≤ (charges.map (fun q => |q.1|)).sum := by
      apply List.sum_nonneg
      intro x hx
      obtain ⟨q, -, rfl⟩ := List.mem_map.mp hx
      exact abs_nonneg _
    have h1 : 0 < 1 - ρ := sub_pos.mpr hρ1
    have h2 : ρ ^ (N + 1) / ((N + 1) * (1 - ρ)) ≤ ρ ^ (N + 1) / (1 - ρ) := by
      apply div_le_div_of_nonneg_left (pow_nonneg hρ0 _) h1
      have : (1 : ℝ) ≤ (N : ℝ) + 1 := by have := Nat.cast_nonneg (α := ℝ) N; linarith
      nlinarith
    calc _ ≤ (charges.map (fun q => |q.1|)).sum / (2 * Real.pi) * (ρ ^ (N + 1) / (1 - ρ)) :=
          mul_le_mul_of_nonneg_left h2 (by positivity)
      _ = _ := by ring
  · have h := (tendsto_pow_atTop_nhds_zero_of_lt_one hρ0 hρ1).comp (Filter.tendsto_add_atTop_nat 1)
    have := h.const_mul ((charges.map (fun q => |q.1|)).sum / (2 * Real.pi) / (1 - ρ))
    simpa using this

/-- a pair of opposite charges seen from outside: the hypotheses of C54 -/
example : (∀ q ∈ [((1 : ℝ), ((0 : ℝ), (1 : ℝ))), (-1, (0, -1))], ‖toC q.2 - toC (0, 0)‖ ≤ 1) ∧
    (1 : ℝ) < ‖toC (3, 0) - toC (0, 0)‖ := by
  have h : ∀ x y : ℝ, ‖toC (x, y) - toC (0, 0)‖ = Real.sqrt (x * x + y * y) := by
    intro x y
    rw [Complex.norm_def]
    simp [toC, Complex.normSq_apply]
  refine ⟨?_, ?_⟩
  · intro q hq
    simp only [List.mem_cons, List.not_mem_nil, or_false] at hq
    rcases hq with rfl | rfl <;> rw [h] <;> norm_num
  · rw [h]
    have : (3 : ℝ) * 3 + 0 * 0 = 3 ^ 2 := by norm_num
    rw [this, Real.sqrt_sq (by norm_num)]
    norm_num

/-- The charges the discrete field puts on the prescribed boundaries: one line charge at each of their
quadrature points, equal to the outward flux there with opposite sign. -/
def solverCharges {F : FEM ℝ} (s : Solver F) : List (ℝ × (ℝ × ℝ)) :=
  (F.bdr.filter (fun q => s.chargedBoundaries.contains q.attr)).map
    (fun q => (-∑ k, q.fl k * s.sol.d k, q.pos))

/-- Proof of C54 for the solver. If no boundary is prescribed twice, `getMultipolarCoefficients` returns the
coefficients, about the centre of charge, of the line charges that the discrete field puts on the prescribed
boundaries; so the expansion approximates their potential with the bound of C54 at every point farther from
the centre than all of these boundaries. -/
theorem solver_state {F : FEM ℝ} (s : Solver F) (hnd : s.chargedBoundaries.Nodup) (c p : ℝ × ℝ)
    (hc : s.getCenterOfCharge realAnalytic = .ok c) (R : ℝ) (h0 : 0 ≤ R)
    (hR : ∀ q ∈ F.bdr, q.attr ∈ s.chargedBoundaries → ‖toC q.pos - toC c‖ ≤ R)
    (hp : R < ‖toC p - toC c‖) (N : ℕ) :
    ∃ ab x, s.getMultipolarCoefficients realAnalytic N = .ok ab ∧ multipolarExpansion p ab c = .ok x ∧
      |linePotential (solverCharges s) p - x| ≤
        ((solverCharges s).map (fun q => |q.1|)).sum / (2 * Real.pi) *
          ((R / ‖toC p - toC c‖) ^ (N + 1) / ((N + 1) * (1 - R / ‖toC p - toC c‖))) := by
  have hR' : ∀ q ∈ solverCharges s, ‖toC q.2 - toC c‖ ≤ R := by
    intro q hq
    unfold solverCharges at hq
    obtain ⟨b, hb, rfl⟩ := List.mem_map.mp hq
    obtain ⟨hb1, hb2⟩ := List.mem_filter.mp hb
    exact hR b hb1 (by simpa using hb2)
  obtain ⟨x, hx, hb⟩ := (C54_expansion (solverCharges s) c p R hR' h0 hp).1 N
  refine ⟨lineCoefficients (solverCharges s) c N, x, ?_, hx, hb⟩
  unfold Solver.getMultipolarCoefficients
  rw [hc, Outcome.ok_bind, if_neg (by omega)]
  congr 1
  have e1 : ((N : Int) + 1).toNat = N + 1 := by omega
  rw [e1]
  unfold lineCoefficients
  apply List.map_congr_left
  intro n _
  have hm : ∀ (d : ℕ), n ≠ 0 → s.getChargeMomentComponent realAnalytic n d c =
      ((solverCharges s).map (fun q => q.1 * momentComponent q.2 n d c)).sum := by
    intro d hn
    unfold Solver.getChargeMomentComponent solverCharges
    rw [if_neg hn, flux_eq, List.map_map]
    congr 1
    apply List.map_congr_left
    intro q _
    simp only [Function.comp, pointFlux, realAnalytic]
    ring
  by_cases hn : n = 0
  · subst hn
    simp only [if_true]
    have : s.getChargeMomentComponent realAnalytic 0 0 c = netCharge s := by
      unfold Solver.getChargeMomentComponent netCharge
      rw [if_pos rfl, if_pos rfl, foldl_add_eq_sum, zero_add]
    rw [this, netCharge_eq s hnd, flux_eq]
    refine congrArg₂ Prod.mk ?_ ?_
    · unfold solverCharges
      rw [List.map_map]
      congr 1
      apply List.map_congr_left
      intro q _
      have : momentComponent q.pos 0 0 c = 1 := rfl
      simp only [Function.comp, pointFlux, this]
      ring
    · unfold Solver.getChargeMomentComponent
      simp
  · rw [if_neg hn, hm 0 hn, hm 1 hn]

/-- A discretisation over the reals with a charged boundary at (3, 1) and an open one. -/
def realFEM : FEM ℝ where
  n := 1
  ne := 1
  nd := 1
  bdrAttrs := [1, 2]
  domAttrs := [1]
  bdrElems := [(1, [0])]
  node := fun _ => (0, 0)
  dom := []
  bdr := [{ attr := 1, w := 1, pos := (3, 1), N := fun _ => 1, fl := fun _ => 1 },
          { attr := 2, w := 1, pos := (9, 9), N := fun _ => 1, fl := fun _ => -1 }]
  grad := 0

/-- A solver state on it. -/
def realSolver : Solver realFEM where
  params := { dirichletBoundaries := [(1, 1)], openBoundaries := [2] }
  essBdr := [1, 0]
  eps := fun _ => 1
  K := 1
  elim := none
  sigma := fun _ => 0
  sol := { phi := fun _ => 1, e := fun _ => 0, d := fun _ => 5 }

/-- the hypotheses of C54 hold there: the centre is (3, 1), with `R = 0` -/
example : realSolver.getCenterOfCharge realAnalytic = .ok (3, 1) ∧ realSolver.chargedBoundaries.Nodup ∧
    (∀ q ∈ realFEM.bdr, q.attr ∈ realSolver.chargedBoundaries → ‖toC q.pos - toC (3, 1)‖ ≤ 0) := by
  have hch : realSolver.chargedBoundaries = [1] := rfl
  refine ⟨?_, by rw [hch]; simp, ?_⟩
  · have hm := realAnalytic_firstMoments (3, 1) (0, 0)
    have e : realSolver.params.openBoundaries = [2] := rfl
    have h1 : realSolver.getTotalCharge = 0 := by
      unfold Solver.getTotalCharge
      rw [flux_eq]
      simp [realFEM, realSolver, pointFlux]
    have hpf : ∀ q : BdrPt ℝ realFEM.n realFEM.nd, pointFlux q realSolver.sol.d = q.fl (0 : Fin 1) * 5 := by
      intro q
      show ∑ k : Fin 1, q.fl k * 5 = _
      simp
    have h2 : realSolver.getChargeInBoundary 2 = 5 := by
      unfold Solver.getChargeInBoundary
      rw [flux_eq]
      simp only [hpf]
      simp [realFEM]
    have h3 : ∀ d, realSolver.getChargeMomentComponent realAnalytic 1 d (0, 0) =
        -5 * realAnalytic.moment (3, 1) 1 d (0, 0) := by
      intro d
      unfold Solver.getChargeMomentComponent
      rw [if_neg one_ne_zero, flux_eq, hch]
      simp only [hpf]
      simp [realFEM]
      ring
    unfold Solver.getCenterOfCharge
    rw [e]
    simp only [h1, h2, h3, hm.1, hm.2]
    unfold divide
    rw [if_neg (by norm_num)]
    simp only [Outcome.ok_bind]
    norm_num
  · intro q hq hqa
    rcases List.mem_cons.mp hq with rfl | hq
    · simp
    · rcases List.mem_cons.mp hq with rfl | hq
      · rw [hch] at hqa; simp at hqa
      · cases hq

/-! ## C68 -/

/-- **C68.** Let `u` be the potential of a line charge `q` at the origin. At every point at a distance from
the origin other than 0 and 1, its outward radial derivative plus the coefficient of the open boundary
condition times its value is zero; the coefficient is positive for distances below 1 and negative above. -/
theorem C68_open_boundary (q : ℝ) (p : ℝ × ℝ) (h0 : ‖toC p‖ ≠ 0) (h1 : ‖toC p‖ ≠ 1) :
    (∃ du, HasDerivAt (fun t : ℝ => linePotential [(q, (0, 0))] (t * p.1 / ‖toC p‖, t * p.2 / ‖toC p‖)) du ‖toC p‖ ∧
      du + firstOrderABC p * linePotential [(q, (0, 0))] p = 0) ∧
    (‖toC p‖ < 1 → 0 < firstOrderABC p) ∧ (1 < ‖toC p‖ → firstOrderABC p < 0) := by
  have hr : 0 < ‖toC p‖ := lt_of_le_of_ne (norm_nonneg _) (Ne.symm h0)
  have hlog : Real.log ‖toC p‖ ≠ 0 := by
    intro e
    rcases Real.log_eq_zero.mp e with h | h | h
    · exact h0 h
    · exact h1 h
    · linarith
  have hpot : ∀ x : ℝ × ℝ, linePotential [(q, (0, 0))] x = -(1 / (2 * Real.pi)) * (q * Real.log ‖toC x‖) := by
    intro x
    unfold linePotential
    have : toC (0, 0) = 0 := rfl
    simp [this]
  have habc : firstOrderABC p = -1 / (‖toC p‖ * Real.log ‖toC p‖) := by
    unfold firstOrderABC EPSILON0_NATURAL
    rw [norml2_eq]
  refine ⟨⟨-(1 / (2 * Real.pi)) * (q * (1 / ‖toC p‖)), ?_, ?_⟩, ?_, ?_⟩
  · have hd : HasDerivAt (fun t : ℝ => -(1 / (2 * Real.pi)) * (q * Real.log t))
        (-(1 / (2 * Real.pi)) * (q * (1 / ‖toC p‖))) ‖toC p‖ := by
      have := (Real.hasDerivAt_log h0).const_mul q |>.const_mul (-(1 / (2 * Real.pi)))
      simpa [one_div] using this
    apply hd.congr_of_eventuallyEq
    filter_upwards [lt_mem_nhds hr] with t ht
    rw [hpot]
    congr 3
    have : toC (t * p.1 / ‖toC p‖, t * p.2 / ‖toC p‖) = ((t / ‖toC p‖ : ℝ) : ℂ) * toC p := by
      apply Complex.ext
      · rw [Complex.re_ofReal_mul]; show t * p.1 / ‖toC p‖ = t / ‖toC p‖ * p.1; ring
      · rw [Complex.im_ofReal_mul]; show t * p.2 / ‖toC p‖ = t / ‖toC p‖ * p.2; ring
    rw [this, norm_mul, Complex.norm_real, Real.norm_eq_abs, abs_of_pos (by positivity)]
    field_simp
  · rw [hpot, habc]
    field_simp
    ring
  · intro h
    rw [habc]
    have : Real.log ‖toC p‖ < 0 := Real.log_neg hr h
    exact div_pos_of_neg_of_neg (by norm_num) (mul_neg_of_pos_of_neg hr this)
  · intro h
    rw [habc]
    have : 0 < Real.log ‖toC p‖ := Real.log_pos h
    exact div_neg_of_neg_of_pos (by norm_num) (mul_pos hr this)

/-- a point at distance 5 -/
example : ‖toC (3, 4)‖ = 5 := by
  rw [Complex.norm_def]
  have : Complex.normSq (toC (3, 4)) = 5 ^ 2 := by simp [toC, Complex.normSq_apply]; norm_num
  rw [this, Real.sqrt_sq (by norm_num)]

end Tulip.Props
