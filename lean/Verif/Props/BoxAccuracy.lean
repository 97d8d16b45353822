import Verif.Proofs.BoxIntegral
import Verif.Proofs.SecondDifference
import Verif.Props.Multipolar

/-!
# C113: how accurate the averages over a box are
-/

noncomputable section

namespace Tulip.Props
open Tulip Tulip.Spec Tulip.Multipolar Tulip.Accuracy Tulip.InCellPotentials MeasureTheory

/-- Error bound of the average over a box for an outer potential whose second derivatives are at most `M`: the squares of
the sides, divided by 240000, times `M` and times the fraction of the box outside the inner region. -/
def averageError (inner box : Box ℝ) (M : ℝ) : ℝ :=
  ((box.max.1 - box.min.1) ^ 2 + (box.max.2 - box.min.2) ^ 2) / 240000 * M *
    (1 - (inner.max.1 - inner.min.1) * (inner.max.2 - inner.min.2) / ((box.max.1 - box.min.1) * (box.max.2 - box.min.2)))

/-- **C113, for any outer potential.** -/
theorem C113_general (e : Expansion ℝ) (f : FieldReconstruction ℝ) (box inner : Box ℝ)
    (hc : BoxContains box inner) (hv : BoxValid inner) (h1 : box.min.1 < box.max.1) (h2 : box.min.2 < box.max.2)
    (v : ℝ × ℝ → ℝ) (hev : ∀ p ∈ outsideRegion box inner, e p f.ab f.expansionCenter = .ok (v p))
    (M : ℝ) (hM : 0 ≤ M) (hi : IntegrableOn v (outsideRegion box inner))
    (hd : SecondDifferences v (outsideRegion box inner) M) :
    ∃ y, getAveragePotential e f inner box = .ok y ∧
      |y - exactMean f.innerRegionAveragePotential inner box v| ≤ averageError inner box M := by
  have hA : 0 < box.area := by
    unfold Box.area
    exact mul_pos (sub_pos.mpr h1) (sub_pos.mpr h2)
  have h := outer_sum e f box inner hc hv v (fun p hp hq => hev p ((mem_outside box inner p).mpr ⟨hp, hq⟩))
  have hg := grid_error box inner hc hv h1 h2 v M hM hi hd
  refine ⟨_, by rw [h]; unfold divide; rw [if_neg (ne_of_gt hA)], ?_⟩
  unfold exactMean averageError
  change |_ / box.area - (f.innerRegionAveragePotential * inner.area + _) / box.area| ≤ _ * (1 - inner.area / box.area)
  rw [← sub_div, abs_div, abs_of_pos hA, div_le_iff₀ hA, add_sub_add_left_eq_sub]
  refine le_trans hg (le_of_eq ?_)
  field_simp

theorem toC_line (m u c : ℝ × ℝ) (t : ℝ) :
    toC (m.1 + t * u.1, m.2 + t * u.2) - toC c = (toC m - toC c) + t * toC u := by
  apply Complex.ext <;> simp [toC] <;> ring

theorem continuous_toC : Continuous toC := by
  have : toC = fun p : ℝ × ℝ => (p.1 : ℂ) + (p.2 : ℂ) * Complex.I := by
    funext p
    apply Complex.ext <;> simp [toC]
  rw [this]
  fun_prop

theorem norm_toC_sq (u : ℝ × ℝ) : ‖toC u‖ ^ 2 = u.1 ^ 2 + u.2 ^ 2 := by
  rw [← Complex.normSq_eq_norm_sq, Complex.normSq_apply]
  simp only [toC]
  ring

theorem laurentCurvature_nonneg (a b : ℕ → ℝ) (N : ℕ) (ρ : ℝ) (hρ : 0 < ρ) : 0 ≤ laurentCurvature a b N ρ := by
  unfold laurentCurvature
  have : 0 ≤ ∑ n ∈ Finset.range N, ((n : ℝ) + 1) * (n + 2) * ‖(a (n + 1) : ℂ) + (b (n + 1) : ℂ) * Complex.I‖ / ρ ^ (n + 3) :=
    Finset.sum_nonneg (fun n _ => by positivity)
  positivity

/-- The potential of the expansion is continuous away from its centre. -/
theorem laurent_continuousOn (a b : ℕ → ℝ) (N : ℕ) (c : ℝ × ℝ) :
    ContinuousOn (fun p => laurent a b N (toC p - toC c)) {p | toC p - toC c ≠ 0} := by
  unfold laurent
  have hz : ContinuousOn (fun p => toC p - toC c) {p | toC p - toC c ≠ 0} :=
    (continuous_toC.sub continuous_const).continuousOn
  refine ContinuousOn.mul continuousOn_const (ContinuousOn.add (ContinuousOn.mul continuousOn_const ?_) ?_)
  · exact hz.norm.log (fun p hp => norm_ne_zero_iff.mpr hp)
  · refine Complex.continuous_re.comp_continuousOn (continuousOn_finsetSum _ (fun n _ => ?_))
    exact continuousOn_const.div (hz.pow _) (fun p hp => pow_ne_zero _ hp)

theorem laurent_facts (a b : ℕ → ℝ) (N : ℕ) (c : ℝ × ℝ) (box inner : Box ℝ) (ρ : ℝ) (hρ : 0 < ρ)
    (hdist : ∀ p ∈ outsideRegion box inner, ρ ≤ ‖toC p - toC c‖) :
    IntegrableOn (fun p => laurent a b N (toC p - toC c)) (outsideRegion box inner) ∧
    SecondDifferences (fun p => laurent a b N (toC p - toC c)) (outsideRegion box inner) (laurentCurvature a b N ρ) := by
  constructor
  · have hK : IsCompact ((Set.Icc box.min.1 box.max.1 ×ˢ Set.Icc box.min.2 box.max.2) ∩ {p : ℝ × ℝ | ρ ≤ ‖toC p - toC c‖}) :=
      (isCompact_Icc.prod isCompact_Icc).inter_right
        (isClosed_le continuous_const (continuous_toC.sub continuous_const).norm)
    have : ContinuousOn (fun p => laurent a b N (toC p - toC c))
        ((Set.Icc box.min.1 box.max.1 ×ˢ Set.Icc box.min.2 box.max.2) ∩ {p : ℝ × ℝ | ρ ≤ ‖toC p - toC c‖}) :=
      (laurent_continuousOn a b N c).mono (fun p hp => norm_pos_iff.mp (lt_of_lt_of_le hρ hp.2))
    exact (this.integrableOn_compact hK).mono_set (fun p hp => ⟨hp.1, hdist p hp⟩)
  · intro m u hseg
    have key := laurent_second a b N (toC m - toC c) (toC u) ρ hρ (by
      intro t ht
      have := hdist _ (hseg t ht)
      rwa [toC_line] at this)
    have e1 := toC_line m u c 1
    have e2 := toC_line m u c (-1)
    simp only [one_mul, Complex.ofReal_one, neg_mul, Complex.ofReal_neg, ← sub_eq_add_neg] at e1 e2
    rw [norm_toC_sq] at key
    simp only
    rw [e1, e2]
    exact key

/-- **C113.** For every box with positive sides that contains the inner region, and every expansion whose centre is at
distance at least `ρ` from all points of the box outside the inner region, the average potential over the box differs
from the exact mean — the integral of the expansion over the part of the box outside the inner region, plus the mean over
the inner region times its area, over the area of the box — by at most `(W² + H²)/240000` times the bound of the second
derivatives of the expansion, times the fraction of the box outside the inner region. -/
theorem C113_average (f : FieldReconstruction ℝ) (hab : f.ab ≠ []) (box inner : Box ℝ)
    (hc : BoxContains box inner) (hv : BoxValid inner) (h1 : box.min.1 < box.max.1) (h2 : box.min.2 < box.max.2)
    (ρ : ℝ) (hρ : 0 < ρ) (hdist : ∀ p ∈ outsideRegion box inner, ρ ≤ ‖toC p - toC f.expansionCenter‖) :
    let a := fun n => (f.ab.getD n (0, 0)).1
    let b := fun n => (f.ab.getD n (0, 0)).2
    ∃ y, getAveragePotential multipolarExpansion f inner box = .ok y ∧
      |y - exactMean f.innerRegionAveragePotential inner box
        (fun p => laurent a b (f.ab.length - 1) (toC p - toC f.expansionCenter))| ≤
        averageError inner box (laurentCurvature a b (f.ab.length - 1) ρ) := by
  intro a b
  obtain ⟨hi, hd⟩ := laurent_facts a b (f.ab.length - 1) f.expansionCenter box inner ρ hρ hdist
  refine C113_general multipolarExpansion f box inner hc hv h1 h2 _ ?_ _ (laurentCurvature_nonneg _ _ _ _ hρ) hi hd
  intro p hp
  refine (C53_laurent p f.expansionCenter f.ab).1 ?_ hab
  intro e
  have := hdist p hp
  rw [e, sub_self, norm_zero] at this
  linarith

/-! ## Against the potential of line charges -/

theorem sum_weighted_pow (x : ℝ) (h0 : 0 ≤ x) (h1 : x < 1) (N : ℕ) :
    1 + ∑ n ∈ Finset.range N, ((n : ℝ) + 2) * x ^ (n + 1) ≤ 1 / (1 - x) ^ 2 := by
  have e : ∀ N : ℕ, (1 + ∑ n ∈ Finset.range N, ((n : ℝ) + 2) * x ^ (n + 1)) * (1 - x) ^ 2 =
      1 - ((N : ℝ) + 2) * x ^ (N + 1) + ((N : ℝ) + 1) * x ^ (N + 2) := by
    intro N
    induction N with
    | zero => simp; ring
    | succ N ih =>
      rw [Finset.sum_range_succ, ← add_assoc, add_mul, ih]
      push_cast
      ring
  have hp : 0 < (1 - x) ^ 2 := by have : 0 < 1 - x := by linarith
                                  positivity
  rw [le_div_iff₀ hp, e]
  have hx : 0 ≤ x ^ (N + 1) := pow_nonneg h0 _
  have : x ^ (N + 2) ≤ x ^ (N + 1) := by rw [pow_succ]; exact mul_le_of_le_one_right hx h1.le
  nlinarith [Nat.cast_nonneg (α := ℝ) N]

/-- The moments of line charges are bounded by their distance from the centre. -/
theorem lineMoment_bound (charges : List (ℝ × (ℝ × ℝ))) (c : ℝ × ℝ) (R : ℝ)
    (hR : ∀ q ∈ charges, ‖toC q.2 - toC c‖ ≤ R) (n : ℕ) :
    ‖lineMoment charges c (n + 1)‖ ≤ (charges.map (fun q => |q.1|)).sum * (R ^ (n + 1) / (n + 1)) := by
  unfold lineMoment
  induction charges with
  | nil => simp
  | cons q l ih =>
    simp only [List.map_cons, List.sum_cons]
    rw [add_mul]
    refine le_trans (norm_add_le _ _) (add_le_add ?_ (ih (fun x hx => hR x (by simp [hx]))))
    rw [if_neg (Nat.succ_ne_zero n), norm_mul, Complex.norm_real, Real.norm_eq_abs, norm_div, norm_pow, Complex.norm_natCast]
    push_cast
    have := hR q (by simp)
    gcongr

theorem lineCurvature (charges : List (ℝ × (ℝ × ℝ))) (c : ℝ × ℝ) (N : ℕ) (R ρ : ℝ) (h0 : 0 ≤ R) (hRρ : R < ρ)
    (hR : ∀ q ∈ charges, ‖toC q.2 - toC c‖ ≤ R) :
    laurentCurvature (coefA (lineCoefficients charges c N)) (coefB (lineCoefficients charges c N)) N ρ ≤
      (charges.map (fun q => |q.1|)).sum / (2 * Real.pi) * (1 / (ρ - R) ^ 2) := by
  set Q := (charges.map (fun q => |q.1|)).sum with hQ
  have hρ : 0 < ρ := lt_of_le_of_lt h0 hRρ
  have hQ0 : 0 ≤ Q := by
    apply List.sum_nonneg
    intro x hx
    obtain ⟨q, -, rfl⟩ := List.mem_map.mp hx
    exact abs_nonneg _
  have hx0 : 0 ≤ R / ρ := div_nonneg h0 hρ.le
  have hx1 : R / ρ < 1 := (div_lt_one hρ).mpr hRρ
  have ha : |coefA (lineCoefficients charges c N) 0| ≤ Q := by
    have h := congrArg Complex.re (lineCoefficients_getD charges c N 0 (Nat.zero_le _))
    simp only [Complex.add_re, Complex.ofReal_re, Complex.mul_re, Complex.I_re, Complex.I_im, Complex.ofReal_im,
      mul_zero, zero_mul, sub_zero, add_zero] at h
    rw [h]
    refine le_trans (Complex.abs_re_le_norm _) ?_
    unfold lineMoment
    rw [hQ]
    clear hR h hQ0 hQ
    clear_value Q
    clear Q
    induction charges with
    | nil => simp
    | cons q l ih =>
      simp only [if_true, mul_one, List.map_cons, List.sum_cons] at ih ⊢
      exact le_trans (norm_add_le _ _) (add_le_add (by rw [Complex.norm_real, Real.norm_eq_abs]) ih)
  have hs : ∑ n ∈ Finset.range N, ((n : ℝ) + 1) * (n + 2) * ‖(coefA (lineCoefficients charges c N) (n + 1) : ℂ) +
      (coefB (lineCoefficients charges c N) (n + 1) : ℂ) * Complex.I‖ / ρ ^ (n + 3) ≤
      ∑ n ∈ Finset.range N, Q / ρ ^ 2 * (((n : ℝ) + 2) * (R / ρ) ^ (n + 1)) := by
    refine Finset.sum_le_sum (fun n hn => ?_)
    rw [lineCoefficients_getD _ _ _ _ (by have := Finset.mem_range.mp hn; omega)]
    have hb := lineMoment_bound charges c R hR n
    rw [div_le_iff₀ (by positivity)]
    have e : Q / ρ ^ 2 * (((n : ℝ) + 2) * (R / ρ) ^ (n + 1)) * ρ ^ (n + 3) =
        ((n : ℝ) + 1) * (n + 2) * (Q * (R ^ (n + 1) / (n + 1))) := by
      rw [div_pow]
      field_simp
      ring
    rw [e]
    exact mul_le_mul_of_nonneg_left hb (by positivity)
  unfold laurentCurvature
  rw [← Finset.mul_sum] at hs
  have hw := mul_le_mul_of_nonneg_left (sum_weighted_pow (R / ρ) hx0 hx1 N) (by positivity : 0 ≤ Q / ρ ^ 2)
  have e2 : Q / ρ ^ 2 * (1 / (1 - R / ρ) ^ 2) = Q * (1 / (ρ - R) ^ 2) := by
    have : 1 - R / ρ = (ρ - R) / ρ := by field_simp
    rw [this, div_pow]
    have : ρ - R ≠ 0 := by linarith
    field_simp
  rw [e2, mul_add, mul_one] at hw
  have ha' : |coefA (lineCoefficients charges c N) 0| / ρ ^ 2 ≤ Q / ρ ^ 2 := by gcongr
  calc _ ≤ 1 / (2 * Real.pi) * (Q * (1 / (ρ - R) ^ 2)) :=
        mul_le_mul_of_nonneg_left (by linarith) (by positivity)
    _ = _ := by ring

theorem averageError_mono (inner box : Box ℝ) (hc : BoxContains box inner) (hv : BoxValid inner)
    (h1 : box.min.1 < box.max.1) (h2 : box.min.2 < box.max.2) {M M' : ℝ} (h : M ≤ M') :
    averageError inner box M ≤ averageError inner box M' := by
  have hA : 0 < (box.max.1 - box.min.1) * (box.max.2 - box.min.2) := mul_pos (sub_pos.mpr h1) (sub_pos.mpr h2)
  have hfr : 0 ≤ 1 - (inner.max.1 - inner.min.1) * (inner.max.2 - inner.min.2) /
      ((box.max.1 - box.min.1) * (box.max.2 - box.min.2)) := by
    rw [sub_nonneg, div_le_one hA]
    exact mul_le_mul (by linarith [hc.1, hc.2.1]) (by linarith [hc.2.2.1, hc.2.2.2]) (by linarith [hv.2]) (by linarith)
  unfold averageError
  exact mul_le_mul_of_nonneg_right (mul_le_mul_of_nonneg_left h (by positivity)) hfr

theorem linePotential_integrable (charges : List (ℝ × (ℝ × ℝ))) (c : ℝ × ℝ) (box inner : Box ℝ) (R ρ : ℝ) (hRρ : R < ρ)
    (hR : ∀ q ∈ charges, ‖toC q.2 - toC c‖ ≤ R)
    (hdist : ∀ p ∈ outsideRegion box inner, ρ ≤ ‖toC p - toC c‖) :
    IntegrableOn (linePotential charges) (outsideRegion box inner) := by
  have hK : IsCompact ((Set.Icc box.min.1 box.max.1 ×ˢ Set.Icc box.min.2 box.max.2) ∩ {p : ℝ × ℝ | ρ ≤ ‖toC p - toC c‖}) :=
    (isCompact_Icc.prod isCompact_Icc).inter_right
      (isClosed_le continuous_const (continuous_toC.sub continuous_const).norm)
  have : ContinuousOn (linePotential charges)
      ((Set.Icc box.min.1 box.max.1 ×ˢ Set.Icc box.min.2 box.max.2) ∩ {p : ℝ × ℝ | ρ ≤ ‖toC p - toC c‖}) := by
    unfold linePotential
    refine ContinuousOn.mul continuousOn_const ?_
    induction charges with
    | nil => simpa using continuousOn_const
    | cons q l ih =>
      simp only [List.map_cons, List.sum_cons]
      refine ContinuousOn.add (ContinuousOn.mul continuousOn_const ?_) (ih (fun x hx => hR x (by simp [hx])))
      refine ((continuous_toC.sub continuous_const).continuousOn.norm).log ?_
      intro p hp
      have hp2 : ρ ≤ ‖toC p - toC c‖ := hp.2
      have hq := hR q (by simp)
      have tri : ‖toC p - toC c‖ ≤ ‖toC p - toC q.2‖ + ‖toC q.2 - toC c‖ := by
        have := norm_add_le (toC p - toC q.2) (toC q.2 - toC c)
        rwa [sub_add_sub_cancel] at this
      have hpos : 0 < ‖toC p - toC q.2‖ := by linarith
      exact hpos.ne'
  exact (this.integrableOn_compact hK).mono_set (fun p hp => ⟨hp.1, hdist p hp⟩)

/-- **C113, against the field of line charges.** If the coefficients are the moments up to order `N` of line charges within
distance `R` of the centre, and all points of the box outside the inner region are at distance at least `ρ > R`, the average
over the box differs from the mean of the exact potential of the charges by at most
`(Σ|q|/2π) ((R/ρ)^(N+1)/((N+1)(1 - R/ρ)) + (W² + H²)/(240000 (ρ - R)²))` times the fraction of the box outside the inner
region. -/
theorem C113_charges (charges : List (ℝ × (ℝ × ℝ))) (N : ℕ) (f : FieldReconstruction ℝ)
    (hf : f.ab = lineCoefficients charges f.expansionCenter N) (box inner : Box ℝ)
    (hc : BoxContains box inner) (hv : BoxValid inner) (h1 : box.min.1 < box.max.1) (h2 : box.min.2 < box.max.2)
    (R ρ : ℝ) (h0 : 0 ≤ R) (hRρ : R < ρ) (hR : ∀ q ∈ charges, ‖toC q.2 - toC f.expansionCenter‖ ≤ R)
    (hdist : ∀ p ∈ outsideRegion box inner, ρ ≤ ‖toC p - toC f.expansionCenter‖) :
    ∃ y, getAveragePotential multipolarExpansion f inner box = .ok y ∧
      |y - exactMean f.innerRegionAveragePotential inner box (linePotential charges)| ≤
        (charges.map (fun q => |q.1|)).sum / (2 * Real.pi) *
          ((R / ρ) ^ (N + 1) / ((N + 1) * (1 - R / ρ)) +
            ((box.max.1 - box.min.1) ^ 2 + (box.max.2 - box.min.2) ^ 2) / (240000 * (ρ - R) ^ 2)) *
          (1 - (inner.max.1 - inner.min.1) * (inner.max.2 - inner.min.2) /
            ((box.max.1 - box.min.1) * (box.max.2 - box.min.2))) := by
  have hρ : 0 < ρ := lt_of_le_of_lt h0 hRρ
  have hA : 0 < box.area := by
    unfold Box.area
    exact mul_pos (sub_pos.mpr h1) (sub_pos.mpr h2)
  set Q := (charges.map (fun q => |q.1|)).sum with hQ
  have hQ0 : 0 ≤ Q := by
    apply List.sum_nonneg
    intro x hx
    obtain ⟨q, -, rfl⟩ := List.mem_map.mp hx
    exact abs_nonneg _
  have hlen : f.ab.length - 1 = N := by rw [hf]; simp [lineCoefficients]
  have hab : f.ab ≠ [] := by
    intro e
    rw [hf] at e
    have := congrArg List.length e
    simp [lineCoefficients] at this
  obtain ⟨y, hy, hb⟩ := C113_average f hab box inner hc hv h1 h2 ρ hρ hdist
  simp only [hlen] at hb
  refine ⟨y, hy, ?_⟩
  have hcurv := lineCurvature charges f.expansionCenter N R ρ h0 hRρ hR
  have hfa : coefA (lineCoefficients charges f.expansionCenter N) = fun n => (f.ab.getD n (0, 0)).1 := by rw [← hf]; rfl
  have hfb : coefB (lineCoefficients charges f.expansionCenter N) = fun n => (f.ab.getD n (0, 0)).2 := by rw [← hf]; rfl
  rw [hfa, hfb] at hcurv
  have hb2 := le_trans hb (averageError_mono inner box hc hv h1 h2 hcurv)
  set v : ℝ × ℝ → ℝ := fun p => laurent (fun n => (f.ab.getD n (0, 0)).1) (fun n => (f.ab.getD n (0, 0)).2) N
    (toC p - toC f.expansionCenter) with hvdef
  -- truncation
  have hvi := (laurent_facts (fun n => (f.ab.getD n (0, 0)).1) (fun n => (f.ab.getD n (0, 0)).2) N f.expansionCenter box inner
    ρ hρ hdist).1
  have hli := linePotential_integrable charges f.expansionCenter box inner R ρ hRρ hR hdist
  set T := Q / (2 * Real.pi) * ((R / ρ) ^ (N + 1) / ((N + 1) * (1 - R / ρ))) with hT
  have hpt : ∀ p ∈ outsideRegion box inner, ‖v p - linePotential charges p‖ ≤ T := by
    intro p hp
    have hd := hdist p hp
    obtain ⟨x, hx, hxb⟩ := (C54_expansion charges f.expansionCenter p R hR h0 (lt_of_lt_of_le hRρ hd)).1 N
    have hne : p ≠ f.expansionCenter := by
      intro e
      rw [e, sub_self, norm_zero] at hd
      linarith
    have hvx := (C53_laurent p f.expansionCenter f.ab).1 hne hab
    rw [hf, hx, ← hf, hlen] at hvx
    injection hvx with hvx
    rw [Real.norm_eq_abs, abs_sub_comm, hvdef]
    simp only
    rw [← hvx]
    refine le_trans hxb ?_
    have q1 : R / ‖toC p - toC f.expansionCenter‖ ≤ R / ρ := by gcongr
    have q2 : R / ρ < 1 := (div_lt_one hρ).mpr hRρ
    have q3 : 0 < 1 - R / ρ := by linarith
    have q4 : 0 ≤ R / ‖toC p - toC f.expansionCenter‖ := by positivity
    rw [hT]
    gcongr
  have harea : volume.real (outsideRegion box inner) = box.area - inner.area := by
    have hsub : (Set.Icc inner.min.1 inner.max.1 ×ˢ Set.Icc inner.min.2 inner.max.2 : Set (ℝ × ℝ)) ⊆
        Set.Icc box.min.1 box.max.1 ×ˢ Set.Icc box.min.2 box.max.2 :=
      Set.prod_mono (Set.Icc_subset_Icc hc.1 hc.2.1) (Set.Icc_subset_Icc hc.2.2.1 hc.2.2.2)
    unfold outsideRegion
    rw [measureReal_sdiff hsub (measurableSet_Icc.prod measurableSet_Icc)
      (by rw [Measure.volume_eq_prod, Measure.prod_prod]; exact ENNReal.mul_ne_top (by simp) (by simp)),
      Measure.volume_eq_prod, measureReal_prod_prod, measureReal_prod_prod]
    simp [h1.le, h2.le, hv.1, hv.2, Box.area]
  have hOm : MeasurableSet (outsideRegion box inner) :=
    (measurableSet_Icc.prod measurableSet_Icc).diff (measurableSet_Icc.prod measurableSet_Icc)
  have hfin : volume (outsideRegion box inner) < ⊤ := by
    refine lt_of_le_of_lt (measure_mono Set.sdiff_subset) ?_
    rw [Measure.volume_eq_prod, Measure.prod_prod]
    exact ENNReal.mul_lt_top (by simp) (by simp)
  have hint : |(∫ p in outsideRegion box inner, v p) - ∫ p in outsideRegion box inner, linePotential charges p| ≤
      T * (box.area - inner.area) := by
    rw [← integral_sub hvi hli, ← harea]
    exact norm_setIntegral_le_of_norm_le_const hfin hpt
  have hmean : |exactMean f.innerRegionAveragePotential inner box v -
      exactMean f.innerRegionAveragePotential inner box (linePotential charges)| ≤ T * (1 - inner.area / box.area) := by
    unfold exactMean
    change |(_ + _) / box.area - (_ + _) / box.area| ≤ _
    rw [← sub_div, abs_div, abs_of_pos hA, div_le_iff₀ hA, add_sub_add_left_eq_sub]
    refine le_trans hint (le_of_eq ?_)
    field_simp
  have htri := abs_sub_le y (exactMean f.innerRegionAveragePotential inner box v)
    (exactMean f.innerRegionAveragePotential inner box (linePotential charges))
  refine le_trans htri (le_trans (add_le_add hb2 hmean) (le_of_eq ?_))
  rw [hT]
  unfold averageError Box.area
  have : ρ - R ≠ 0 := by linarith
  field_simp
  ring

/-- **C113, capacitances.** Let `d` be the difference of the potential of conductor `i` and the exact mean, and `E` the error
bound of the average. If `E < |d|`, the capacitance computed on the box differs from the exact quotient of charge and `d`,
times the permittivity, by at most the factor `E / (|d| (|d| - E))` of the charge times the permittivity. -/
theorem C113_capacitance (eps0 : ℝ) (P : InCellPotentials ℝ) (i j : Int) (f : FieldReconstruction ℝ)
    (hj : P.electric.find? j = some f) (V : ℝ) (hV : f.conductorPotentials.find? i = some V) (hab : f.ab ≠ [])
    (box : Box ℝ) (hc : BoxContains box P.innerRegionBox) (hv : BoxValid P.innerRegionBox)
    (h1 : box.min.1 < box.max.1) (h2 : box.min.2 < box.max.2) (ρ : ℝ) (hρ : 0 < ρ)
    (hdist : ∀ p ∈ outsideRegion box P.innerRegionBox, ρ ≤ ‖toC p - toC f.expansionCenter‖) :
    let a := fun n => (f.ab.getD n (0, 0)).1
    let b := fun n => (f.ab.getD n (0, 0)).2
    let d := V - exactMean f.innerRegionAveragePotential P.innerRegionBox box
      (fun p => laurent a b (f.ab.length - 1) (toC p - toC f.expansionCenter))
    let E := averageError P.innerRegionBox box (laurentCurvature a b (f.ab.length - 1) ρ)
    E < |d| → ∃ C, getCapacitanceOnBox multipolarExpansion eps0 P i j box = .ok C ∧
      |C - a 0 / d * eps0| ≤ |a 0 * eps0| * (E / (|d| * (|d| - E))) := by
  intro a b d E hE
  obtain ⟨y, hy, hb⟩ := C113_average f hab box P.innerRegionBox hc hv h1 h2 ρ hρ hdist
  change |y - exactMean f.innerRegionAveragePotential P.innerRegionBox box
    (fun p => laurent a b (f.ab.length - 1) (toC p - toC f.expansionCenter))| ≤ E at hb
  have hmono : monopole f.ab = .ok (a 0) := by
    simp only [a]
    cases h : f.ab with
    | nil => exact absurd h hab
    | cons x l => simp [monopole]
  have hδ : |(-y + V) - d| ≤ E := by
    refine le_trans (le_of_eq ?_) hb
    rw [← abs_neg]
    congr 1
    simp only [d]
    ring
  have hE0 : 0 ≤ E := le_trans (abs_nonneg _) hδ
  have hd0 : 0 < |d| := lt_of_le_of_lt hE0 hE
  have hlow : |d| - E ≤ |-y + V| := by
    have := abs_sub_abs_le_abs_sub d (-y + V)
    rw [abs_sub_comm d (-y + V)] at this
    linarith
  have hw0 : 0 < |-y + V| := by linarith
  refine ⟨a 0 / (-y + V) * eps0, ?_, ?_⟩
  · unfold getCapacitanceOnBox mapAt
    rw [hj]
    simp only [Outcome.ofOption, Outcome.ok_bind, hmono, hy, hV]
    unfold divide
    rw [if_neg (abs_pos.mp hw0), Outcome.ok_bind]
  · have e : a 0 / (-y + V) * eps0 - a 0 / d * eps0 = a 0 * eps0 * ((d - (-y + V)) / (d * (-y + V))) := by
      have u1 : d ≠ 0 := abs_pos.mp hd0
      have u2 : -y + V ≠ 0 := abs_pos.mp hw0
      rw [div_mul_eq_mul_div, div_mul_eq_mul_div, div_sub_div _ _ u2 u1, ← mul_div_assoc, mul_comm (-y + V) d]
      congr 1
      ring
    rw [e, abs_mul, abs_div, abs_mul d, abs_sub_comm d]
    have : 0 < |d| - E := by linarith
    gcongr

/-- All points outside the square of half side 1 about the origin are at distance at least 1 from the origin. -/
theorem square_distance (box : Box ℝ) : ∀ p ∈ outsideRegion box ⟨(-1, -1), (1, 1)⟩, (1 : ℝ) ≤ ‖toC p - toC (0, 0)‖ := by
  intro p hp
  have hn := ((mem_outside _ _ p).mp hp).2
  have e : toC p - toC (0, 0) = toC p := by apply Complex.ext <;> simp [toC]
  rw [e]
  by_contra hlt
  rw [not_le] at hlt
  apply hn
  have h1 := abs_le.mp (le_trans (Complex.abs_re_le_norm (toC p)) hlt.le)
  have h2 := abs_le.mp (le_trans (Complex.abs_im_le_norm (toC p)) hlt.le)
  exact ⟨h1.1, h1.2, h2.1, h2.2⟩

/-- A line charge and a dipole in the middle of a box of sides 4 and 6: the average is within `(52/240000)(3/2π)(5/6)` of the
exact mean. -/
example : ∃ y, getAveragePotential multipolarExpansion ⟨5, (0, 0), [(1, 0), (0, 1)], []⟩ ⟨(-1, -1), (1, 1)⟩
      (⟨(-2, -3), (2, 3)⟩ : Box ℝ) = .ok y ∧
    |y - exactMean 5 ⟨(-1, -1), (1, 1)⟩ ⟨(-2, -3), (2, 3)⟩
      (fun p => laurent (fun n => ([(1, 0), (0, 1)].getD n ((0 : ℝ), (0 : ℝ))).1)
        (fun n => ([(1, 0), (0, 1)].getD n ((0 : ℝ), (0 : ℝ))).2) 1 (toC p - toC (0, 0)))| ≤
      52 / 240000 * (3 / (2 * Real.pi)) * (5 / 6) := by
  obtain ⟨y, hy, hb⟩ := C113_average ⟨5, (0, 0), [(1, 0), (0, 1)], []⟩ (by simp) ⟨(-2, -3), (2, 3)⟩ ⟨(-1, -1), (1, 1)⟩
    (by unfold BoxContains; norm_num) (by unfold BoxValid; norm_num) (by norm_num) (by norm_num) 1 one_pos
    (square_distance _)
  refine ⟨y, hy, le_trans hb (le_of_eq ?_)⟩
  unfold averageError laurentCurvature
  simp
  ring

/-- Two opposite line charges at distance 1/2 from the centre, moments up to order 6: the hypotheses of `C113_charges`. -/
example : ∃ y, getAveragePotential multipolarExpansion
      ⟨0, (0, 0), lineCoefficients [(1, (1 / 2, 0)), (-1, (-1 / 2, 0))] (0, 0) 6, []⟩ ⟨(-1, -1), (1, 1)⟩
      (⟨(-2, -2), (2, 2)⟩ : Box ℝ) = .ok y ∧
    |y - exactMean 0 ⟨(-1, -1), (1, 1)⟩ ⟨(-2, -2), (2, 2)⟩ (linePotential [(1, (1 / 2, 0)), (-1, (-1 / 2, 0))])| ≤ 1 / 1000 := by
  obtain ⟨y, hy, hb⟩ := C113_charges [(1, (1 / 2, 0)), (-1, (-1 / 2, 0))] 6
    ⟨0, (0, 0), lineCoefficients [(1, (1 / 2, 0)), (-1, (-1 / 2, 0))] (0, 0) 6, []⟩ rfl ⟨(-2, -2), (2, 2)⟩ ⟨(-1, -1), (1, 1)⟩
    (by unfold BoxContains; norm_num) (by unfold BoxValid; norm_num) (by norm_num) (by norm_num) (1 / 2) 1 (by norm_num)
    (by norm_num) (by
      intro q hq
      have h : ∀ x : ℝ, ‖toC (x, 0) - toC (0, 0)‖ = |x| := by
        intro x
        have : toC (x, 0) - toC (0, 0) = (x : ℂ) := by apply Complex.ext <;> simp [toC]
        rw [this, Complex.norm_real, Real.norm_eq_abs]
      simp only [List.mem_cons, List.not_mem_nil, or_false] at hq
      rcases hq with rfl | rfl <;> rw [h] <;> rw [abs_le] <;> norm_num)
    (square_distance _)
  refine ⟨y, hy, le_trans hb ?_⟩
  have hpi := Real.pi_gt_three
  simp only [List.map_cons, List.map_nil, List.sum_cons, List.sum_nil]
  norm_num
  rw [div_mul_eq_mul_div, div_mul_eq_mul_div, div_le_iff₀ (by positivity)]
  linarith

end Tulip.Props
