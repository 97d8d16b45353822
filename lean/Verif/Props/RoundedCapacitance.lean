import Verif.Props.RoundedExpansion

/-!
# C116: the capacitances and inductances on a box, as computed
-/

noncomputable section

namespace Tulip.Props
open Tulip Tulip.Spec Tulip.Multipolar Tulip.Accuracy Tulip.InCellPotentials Tulip.RoundedGrid MeasureTheory

/-- Rounding stays within the factor `1 / (1 - u)` in size. -/
theorem round_factor {rnd : ℝ → ℝ} {u : ℝ} (R : Rounding rnd u) (x : ℝ) :
    ∃ t, rnd x = t * x ∧ 1 - u ≤ t ∧ t ≤ (1 - u)⁻¹ := by
  have h0 := R.pos
  have hs := R.small
  have h1 := R.err x
  have hg : 1 + u ≤ (1 - u)⁻¹ := by
    have := one_add_le R
    unfold growth at this
    rwa [pow_one] at this
  by_cases hx : x = 0
  · refine ⟨1, ?_, by linarith, by linarith⟩
    rw [hx, abs_zero, mul_zero, sub_zero] at h1
    rw [hx, mul_zero]
    exact abs_nonpos_iff.mp h1
  · refine ⟨rnd x / x, by field_simp, ?_, ?_⟩
    all_goals
      have e : rnd x / x - 1 = (rnd x - x) / x := by field_simp
      have b : |rnd x / x - 1| ≤ u := by
        rw [e, abs_div, div_le_iff₀ (abs_pos.mpr hx)]
        exact h1
      obtain ⟨b1, b2⟩ := abs_le.mp b
      linarith

/-- A product of factors close to one, relative to the exact value. -/
theorem factor_error {F t x y : ℝ} (hF : 1 ≤ F) (h1 : F⁻¹ ≤ t) (h2 : t ≤ F) (e : y = t * x) : |y - x| ≤ (F - 1) * |x| := by
  have hp : 0 < F := by linarith
  have : 2 - F ≤ F⁻¹ := by
    rw [inv_eq_one_div, le_div_iff₀ hp]
    nlinarith [sq_nonneg (F - 1)]
  have : |t - 1| ≤ F - 1 := abs_le.mpr ⟨by linarith, by linarith⟩
  rw [e, show t * x - x = (t - 1) * x by ring, abs_mul]
  exact mul_le_mul_of_nonneg_right this (abs_nonneg x)

theorem factor_mul {F G s t : ℝ} (hF : 1 ≤ F) (hG : 1 ≤ G) (h1 : F⁻¹ ≤ s ∧ s ≤ F) (h2 : G⁻¹ ≤ t ∧ t ≤ G) :
    (F * G)⁻¹ ≤ s * t ∧ s * t ≤ F * G := by
  have f0 : 0 < F⁻¹ := inv_pos.mpr (by linarith)
  have g0 : 0 < G⁻¹ := inv_pos.mpr (by linarith)
  rw [mul_inv]
  exact ⟨mul_le_mul h1.1 h2.1 g0.le (by linarith), mul_le_mul h1.2 h2.2 (by linarith) (by linarith)⟩

theorem factor_inv {F t : ℝ} (hF : 1 ≤ F) (h : F⁻¹ ≤ t ∧ t ≤ F) : F⁻¹ ≤ t⁻¹ ∧ t⁻¹ ≤ F := by
  have f0 : 0 < F⁻¹ := inv_pos.mpr (by linarith)
  have t0 : 0 < t := by linarith
  exact ⟨inv_anti₀ t0 h.2, by rw [inv_le_comm₀ t0 (by linarith)]; exact h.1⟩

/-- Two numbers closer to each other than the first to zero. -/
theorem factor_near {d w E : ℝ} (hE : E < |d|) (h : |w - d| ≤ E) :
    ∃ t, w = t * d ∧ (|d| / (|d| - E))⁻¹ ≤ t ∧ t ≤ |d| / (|d| - E) ∧ 1 ≤ |d| / (|d| - E) := by
  have hE0 : 0 ≤ E := le_trans (abs_nonneg _) h
  have hd : 0 < |d| := by linarith
  have hd0 : d ≠ 0 := abs_pos.mp hd
  have hp : 0 < |d| - E := by linarith
  have e : w / d - 1 = (w - d) / d := by field_simp
  have b : |w / d - 1| ≤ E / |d| := by
    rw [e, abs_div]
    exact div_le_div_of_nonneg_right h hd.le
  obtain ⟨b1, b2⟩ := abs_le.mp b
  have hF : 1 ≤ |d| / (|d| - E) := by rw [le_div_iff₀ hp]; linarith
  refine ⟨w / d, by field_simp, ?_, ?_, hF⟩
  · rw [inv_div, sub_div, div_self hd.ne']
    linarith
  · have : 1 + E / |d| ≤ |d| / (|d| - E) := by
      rw [le_div_iff₀ hp, show (1 + E / |d|) * (|d| - E) = |d| - E * (E / |d|) by field_simp; ring]
      have : 0 ≤ E * (E / |d|) := by positivity
      linarith
    linarith

/-- **C116, capacitances.** If the computed average over the box is `m` up to `E`, and the potential `V` of conductor `i`
differs from `m` by more than `E`, the computed capacitance exists and differs from the exact quotient
`Q / (V - m) · ε₀` by at most the fraction `|V - m| / (|V - m| - E) · (1 - u)⁻³ - 1` of it. -/
theorem C116_capacitance {rnd : ℝ → ℝ} {u : ℝ} (R : Rounding rnd u) (e : Expansion ℝ) (eps0 : ℝ) (P : InCellPotentials ℝ)
    (i j : Int) (f : FieldReconstruction ℝ) (hj : P.electric.find? j = some f) (V : ℝ)
    (hV : f.conductorPotentials.find? i = some V) (hab : f.ab ≠ []) (box : Box ℝ) (m E : ℝ)
    (hav : ∃ r, RoundedGrid.getAveragePotential rnd e f P.innerRegionBox box = .ok r ∧ |r - m| ≤ E) (hE : E < |V - m|) :
    ∃ C, RoundedGrid.getCapacitanceOnBox rnd e eps0 P i j box = .ok C ∧
      |C - (f.ab.getD 0 (0, 0)).1 / (V - m) * eps0| ≤
        (|V - m| / (|V - m| - E) * ((1 - u)⁻¹) ^ 3 - 1) * |(f.ab.getD 0 (0, 0)).1 / (V - m) * eps0| := by
  obtain ⟨r, er, hr⟩ := hav
  have g1 := one_le_inv R
  have hu : 1 - u = ((1 - u)⁻¹)⁻¹ := (inv_inv _).symm
  set Q := (f.ab.getD 0 (0, 0)).1 with hQ
  have hmono : monopole f.ab = .ok Q := by
    cases h : f.ab with
    | nil => exact absurd h hab
    | cons x l => simp [hQ, h, monopole]
  obtain ⟨t0, e0, l0, u0, f0⟩ := factor_near hE (w := -r + V) (by
    rw [show -r + V - (V - m) = -(r - m) by ring, abs_neg]
    exact hr)
  obtain ⟨t1, e1, l1, u1⟩ := round_factor R (-r + V)
  set F := |V - m| / (|V - m| - E) with hF
  set g := (1 - u)⁻¹ with hg
  have hd : V - m ≠ 0 := by
    intro h
    rw [h, abs_zero] at hE
    linarith [abs_nonneg (r - m)]
  have k1 := factor_mul g1 f0 ⟨by rw [← hu]; exact l1, u1⟩ ⟨l0, u0⟩
  have hgF : 1 ≤ g * F := one_le_mul_of_one_le_of_one_le g1 f0
  have k2 := factor_inv hgF k1
  have hw : rnd (-r + V) = t1 * t0 * (V - m) := by rw [e1, e0]; ring
  have ht : t1 * t0 ≠ 0 := by
    have : 0 < (g * F)⁻¹ := inv_pos.mpr (by linarith)
    linarith [k1.1]
  have hw0 : rnd (-r + V) ≠ 0 := by rw [hw]; exact mul_ne_zero ht hd
  obtain ⟨t2, e2, l2, u2⟩ := round_factor R (Q / rnd (-r + V))
  obtain ⟨t3, e3, l3, u3⟩ := round_factor R (rnd (Q / rnd (-r + V)) * eps0)
  refine ⟨rnd (rnd (Q / rnd (-r + V)) * eps0), ?_, ?_⟩
  · unfold RoundedGrid.getCapacitanceOnBox mapAt
    rw [hj]
    simp only [Outcome.ofOption, Outcome.ok_bind, hmono, er, hV]
    unfold divide
    rw [if_neg hw0, Outcome.ok_bind]
  · have k3 := factor_mul hgF g1 k2 ⟨by rw [← hu]; exact l2, u2⟩
    have hgF2 : 1 ≤ g * F * g := one_le_mul_of_one_le_of_one_le hgF g1
    have k4 := factor_mul hgF2 g1 k3 ⟨by rw [← hu]; exact l3, u3⟩
    have k5 := factor_error (x := Q / (V - m) * eps0) (one_le_mul_of_one_le_of_one_le hgF2 g1) k4.1 k4.2 rfl
    rw [show F * g ^ 3 - 1 = g * F * g * g - 1 by ring]
    refine le_trans (le_of_eq ?_) k5
    congr 2
    rw [e3, e2, hw]
    field_simp

/-- **C116, inductances.** The inductance the code computes on a box, with the current `I` of the magnetic field of conductor
`j`, the average `m` (up to `E`) of that field, and the potential `A` the *electric* field of `j` has at conductor `i`:
`(A - m) / I · μ₀` up to `((1 - u)⁻³ (|A - m| + E) - |A - m|) |μ₀ / I|`. -/
theorem C116_inductance {rnd : ℝ → ℝ} {u : ℝ} (R : Rounding rnd u) (e : Expansion ℝ) (mu0 : ℝ) (P : InCellPotentials ℝ)
    (i j : Int) (f fe : FieldReconstruction ℝ) (hj : P.magnetic.find? j = some f) (hje : P.electric.find? j = some fe) (V : ℝ)
    (hV : fe.conductorPotentials.find? i = some V) (hab : f.ab ≠ []) (hI : (f.ab.getD 0 (0, 0)).1 ≠ 0) (box : Box ℝ) (m E : ℝ)
    (hav : ∃ r, RoundedGrid.getAveragePotential rnd e f P.innerRegionBox box = .ok r ∧ |r - m| ≤ E) :
    ∃ L, RoundedGrid.getInductanceOnBox rnd e mu0 P i j box = .ok L ∧
      |L - (V - m) / (f.ab.getD 0 (0, 0)).1 * mu0| ≤
        (((1 - u)⁻¹) ^ 3 * (|V - m| + E) - |V - m|) * |mu0 / (f.ab.getD 0 (0, 0)).1| := by
  obtain ⟨r, er, hr⟩ := hav
  have g1 := one_le_inv R
  have hu : 1 - u = ((1 - u)⁻¹)⁻¹ := (inv_inv _).symm
  set I := (f.ab.getD 0 (0, 0)).1 with hIdef
  have hmono : monopole f.ab = .ok I := by
    cases h : f.ab with
    | nil => exact absurd h hab
    | cons x l => simp [hIdef, h, monopole]
  obtain ⟨t1, e1, l1, u1⟩ := round_factor R (-r + V)
  obtain ⟨t2, e2, l2, u2⟩ := round_factor R (rnd (-r + V) / I)
  obtain ⟨t3, e3, l3, u3⟩ := round_factor R (rnd (rnd (-r + V) / I) * mu0)
  set g := (1 - u)⁻¹ with hg
  refine ⟨rnd (rnd (rnd (-r + V) / I) * mu0), ?_, ?_⟩
  · unfold RoundedGrid.getInductanceOnBox mapAt
    rw [hj, hje]
    simp only [Outcome.ofOption, Outcome.ok_bind, hmono, er, hV]
    unfold divide
    rw [if_neg hI, Outcome.ok_bind]
  · have gg : 1 ≤ g * g := one_le_mul_of_one_le_of_one_le g1 g1
    have k1 := factor_mul g1 g1 ⟨by rw [← hu]; exact l1, u1⟩ ⟨by rw [← hu]; exact l2, u2⟩
    have k2 := factor_mul gg g1 k1 ⟨by rw [← hu]; exact l3, u3⟩
    have k3 := factor_error (x := -r + V) (one_le_mul_of_one_le_of_one_le gg g1) k2.1 k2.2 rfl
    have ew : rnd (rnd (rnd (-r + V) / I) * mu0) - (V - m) / I * mu0 =
        (t1 * t2 * t3 * (-r + V) - (V - m)) * (mu0 / I) := by
      rw [e3, e2, e1]
      field_simp
    rw [ew, abs_mul]
    refine mul_le_mul_of_nonneg_right ?_ (abs_nonneg _)
    have hd : |-r + V - (V - m)| ≤ E := by
      rw [show -r + V - (V - m) = -(r - m) by ring, abs_neg]
      exact hr
    have tri := abs_sub_le (t1 * t2 * t3 * (-r + V)) (-r + V) (V - m)
    have tri2 : |-r + V| ≤ |V - m| + E := by
      have := abs_sub_abs_le_abs_sub (-r + V) (V - m)
      linarith
    have ge : g ^ 3 = g * g * g := by ring
    rw [ge]
    have := mul_le_mul_of_nonneg_left tri2 (by linarith [one_le_mul_of_one_le_of_one_le gg g1] : 0 ≤ g * g * g - 1)
    nlinarith

/-- A mean is at most as large as the values. -/
theorem exactMean_le (m K : ℝ) (inner box : Box ℝ) (v : ℝ × ℝ → ℝ) (hc : BoxContains box inner) (hv : BoxValid inner)
    (h1 : box.min.1 < box.max.1) (h2 : box.min.2 < box.max.2) (hm : |m| ≤ K)
    (hK : ∀ p ∈ outsideRegion box inner, |v p| ≤ K) : |exactMean m inner box v| ≤ K := by
  have harea : volume.real (outsideRegion box inner) = box.area - inner.area := by
    have hsub : (Set.Icc inner.min.1 inner.max.1 ×ˢ Set.Icc inner.min.2 inner.max.2 : Set (ℝ × ℝ)) ⊆
        Set.Icc box.min.1 box.max.1 ×ˢ Set.Icc box.min.2 box.max.2 :=
      Set.prod_mono (Set.Icc_subset_Icc hc.1 hc.2.1) (Set.Icc_subset_Icc hc.2.2.1 hc.2.2.2)
    unfold outsideRegion
    rw [measureReal_sdiff hsub (measurableSet_Icc.prod measurableSet_Icc)
      (by rw [Measure.volume_eq_prod, Measure.prod_prod]; exact ENNReal.mul_ne_top (by simp) (by simp)),
      Measure.volume_eq_prod, measureReal_prod_prod, measureReal_prod_prod]
    simp [h1.le, h2.le, hv.1, hv.2, Box.area]
  have hfin : volume (outsideRegion box inner) < ⊤ := by
    refine lt_of_le_of_lt (measure_mono Set.sdiff_subset) ?_
    rw [Measure.volume_eq_prod, Measure.prod_prod]
    exact ENNReal.mul_lt_top (by simp) (by simp)
  have hint : |∫ p in outsideRegion box inner, v p| ≤ K * (box.area - inner.area) := by
    rw [← harea]
    exact norm_setIntegral_le_of_norm_le_const (f := v) (C := K) hfin hK
  have hA : 0 < box.area := mul_pos (sub_pos.mpr h1) (sub_pos.mpr h2)
  have hI : 0 ≤ inner.area := mul_nonneg (sub_nonneg.mpr hv.1) (sub_nonneg.mpr hv.2)
  unfold exactMean
  change |(m * inner.area + _) / box.area| ≤ K
  rw [abs_div, abs_of_pos hA, div_le_iff₀ hA]
  refine le_trans (abs_add_le _ _) ?_
  rw [abs_mul, abs_of_nonneg hI]
  have := mul_le_mul_of_nonneg_right hm hI
  linarith

/-- **C116, line charges.** Under the hypotheses of `C115_average`, the capacitance of the box computed with every operation
rounded is the exact one, `Σ q / (V - mean) · ε₀`, up to the fraction `|d| / (|d| - B) · (1 - u)⁻³ - 1` of it, where `d` is the
difference of the potential of conductor `i` and the exact mean, and `B < |d|` the bound of `C115_average`. -/
theorem C116_charges {rnd : ℝ → ℝ} {u M : ℝ} (Rd : Rounding rnd u) {lib : RoundedExpansion.Library}
    (A : AccurateLibrary lib u) (eps0 : ℝ) (P : InCellPotentials ℝ) (i j : Int) (f : FieldReconstruction ℝ)
    (hj : P.electric.find? j = some f) (V : ℝ) (hV : f.conductorPotentials.find? i = some V)
    (charges : List (ℝ × (ℝ × ℝ))) (N : ℕ)
    (hf : f.ab = lineCoefficients charges f.expansionCenter N) (box : Box ℝ)
    (hc : BoxContains box P.innerRegionBox) (hv : BoxValid P.innerRegionBox) (h1 : box.min.1 < box.max.1)
    (h2 : box.min.2 < box.max.2)
    (hrb : RepresentableBox rnd box) (hri : RepresentableBox rnd P.innerRegionBox) (hM : BoundedBox M box)
    (hd : SidesApart (1000 * (u * M)) box P.innerRegionBox) (R ρ : ℝ) (h0 : 0 ≤ R) (hRρ : R < ρ)
    (hR : ∀ q ∈ charges, ‖toC q.2 - toC f.expansionCenter‖ ≤ R)
    (hdist : ∀ p ∈ outsideRegion box P.innerRegionBox, ρ ≤ ‖toC p - toC f.expansionCenter‖) (E K : ℝ) (hE0 : 0 ≤ E)
    (hE : ∀ p ∈ outsideRegion box P.innerRegionBox, expansionSize f.ab ‖toC p - toC f.expansionCenter‖ ≤ E)
    (hK : |f.innerRegionAveragePotential| ≤ K) (hEK : ((1 - u)⁻¹) ^ (11 * N + 9) * E ≤ K) :
    let B := (((1 - u)⁻¹) ^ (11 * N + 9) - 1) * E + (charges.map (fun q => |q.1|)).sum / (2 * Real.pi) *
          ((R / ρ) ^ (N + 1) / ((N + 1) * (1 - R / ρ)) + 2 * (u * M) / (ρ - R) +
            ((box.max.1 - box.min.1 + 1600 * (u * M)) ^ 2 + (box.max.2 - box.min.2 + 1600 * (u * M)) ^ 2) /
              (240000 * (ρ - R) ^ 2)) +
          (((1 - u)⁻¹) ^ 100000 - 1) * K
    let d := V - exactMean f.innerRegionAveragePotential P.innerRegionBox box (linePotential charges)
    B < |d| →
    ∃ C, RoundedGrid.getCapacitanceOnBox rnd (RoundedExpansion.multipolarExpansion rnd lib) eps0 P i j box = .ok C ∧
      |C - (charges.map (fun q => q.1)).sum / d * eps0| ≤
        (|d| / (|d| - B) * ((1 - u)⁻¹) ^ 3 - 1) * |(charges.map (fun q => q.1)).sum / d * eps0| := by
  intro B d hB
  have hav := C115_average Rd A charges N f hf box P.innerRegionBox hc hv h1 h2 hrb hri hM hd R ρ h0 hRρ hR hdist E K hE0 hE
    hK hEK
  have hq : (f.ab.getD 0 (0, 0)).1 = (charges.map (fun q => q.1)).sum := by
    rw [hf]
    unfold lineCoefficients
    rw [List.range_succ_eq_map, List.map_cons, List.getD_cons_zero]
    simp [Multipolar.momentComponent]
  have hab : f.ab ≠ [] := by
    rw [hf]
    simp [lineCoefficients]
  have key := C116_capacitance Rd (RoundedExpansion.multipolarExpansion rnd lib) eps0 P i j f hj V hV hab box _ B hav hB
  rw [hq] at key
  exact key

/-- **C116, without rounding.** With exact arithmetic these are the functions of the other properties. -/
theorem C116_exact (e : Expansion ℝ) (k : ℝ) (P : InCellPotentials ℝ) (i j : Int) (box : Box ℝ) :
    RoundedGrid.getCapacitanceOnBox (fun x => x) e k P i j box = InCellPotentials.getCapacitanceOnBox e k P i j box ∧
    RoundedGrid.getInductanceOnBox (fun x => x) e k P i j box = InCellPotentials.getInductanceOnBox e k P i j box := by
  have av : ∀ f : FieldReconstruction ℝ, ∀ inner : Box ℝ, RoundedGrid.getAveragePotential (fun x => x) e f inner box =
      InCellPotentials.getAveragePotential e f inner box := fun f inner => by
    exact (C111_exact e f inner box).2
  unfold RoundedGrid.getCapacitanceOnBox InCellPotentials.getCapacitanceOnBox RoundedGrid.getInductanceOnBox
    InCellPotentials.getInductanceOnBox
  simp only [av, and_self]

/-- A unit charge in the middle of the inner region `[1, 2]²` of average potential 1/2, the box `[0, 4] × [0, 3]`, conductor 0 at
potential 10, everything in `double` with correctly rounded functions, `ε₀ = 1`: the hypotheses of `C116_charges` hold, and the
computed capacitance is the exact one up to `2·10⁻⁵` of it. -/
example : ∃ C, RoundedGrid.getCapacitanceOnBox (Nearest.nearest 52)
      (RoundedExpansion.multipolarExpansion (Nearest.nearest 52) (roundedLibrary (Nearest.nearest 52))) 1
      ⟨⟨(1, 1), (2, 2)⟩, [(0, ⟨1 / 2, (3 / 2, 3 / 2), lineCoefficients [(1, (3 / 2, 3 / 2))] (3 / 2, 3 / 2) 3, [(0, 10)]⟩)], []⟩
      0 0 (⟨(0, 0), (4, 3)⟩ : Box ℝ) = .ok C ∧
    |C - 1 / (10 - exactMean (1 / 2) ⟨(1, 1), (2, 2)⟩ ⟨(0, 0), (4, 3)⟩ (linePotential [(1, (3 / 2, 3 / 2))]))| ≤
      2 / 10 ^ 5 * (1 / (10 - exactMean (1 / 2) ⟨(1, 1), (2, 2)⟩ ⟨(0, 0), (4, 3)⟩ (linePotential [(1, (3 / 2, 3 / 2))]))) := by
  have Rd := Nearest.rounding (𝕜 := ℝ) (p := 52) (by norm_num)
  have hu : (2 : ℝ) ^ (-((52 : ℕ) + 1 : ℤ)) = 1 / 2 ^ 53 := by norm_num
  rw [hu] at Rd
  have r0 : Nearest.nearest 52 (0 : ℝ) = 0 := Nearest.nearest_zero 52
  have r1 : Nearest.nearest 52 (1 : ℝ) = 1 := by simpa using nearest_small (𝕜 := ℝ) 1 (by norm_num)
  have r2 : Nearest.nearest 52 (2 : ℝ) = 2 := by simpa using nearest_small (𝕜 := ℝ) 2 (by norm_num)
  have r3 : Nearest.nearest 52 (3 : ℝ) = 3 := by simpa using nearest_small (𝕜 := ℝ) 3 (by norm_num)
  have r4 : Nearest.nearest 52 (4 : ℝ) = 4 := by simpa using nearest_small (𝕜 := ℝ) 4 (by norm_num)
  have hdist : ∀ p ∈ outsideRegion ⟨(0, 0), (4, 3)⟩ ⟨(1, 1), (2, 2)⟩,
      (1 / 2 : ℝ) ≤ ‖toC p - toC (3 / 2, 3 / 2)‖ ∧ |Real.log ‖toC p - toC (3 / 2, 3 / 2)‖| ≤ 3 := by
    intro p hp
    have hre := Complex.abs_re_le_norm (toC p - toC (3 / 2, 3 / 2))
    have him := Complex.abs_im_le_norm (toC p - toC (3 / 2, 3 / 2))
    have hno := Complex.norm_le_abs_re_add_abs_im (toC p - toC (3 / 2, 3 / 2))
    simp only [toC, Complex.sub_re, Complex.sub_im] at hre him hno ⊢
    obtain ⟨⟨⟨p1, p2⟩, p3, p4⟩, hn⟩ := hp
    simp only at p1 p2 p3 p4
    have d1 : (1 / 2 : ℝ) ≤ ‖({ re := p.1, im := p.2 } : ℂ) - { re := 3 / 2, im := 3 / 2 }‖ := by
      by_contra hcon
      rw [not_le] at hcon
      apply hn
      have a1 := abs_lt.mp (lt_of_le_of_lt hre hcon)
      have a2 := abs_lt.mp (lt_of_le_of_lt him hcon)
      exact ⟨⟨by simp only; linarith, by simp only; linarith⟩, by simp only; linarith, by simp only; linarith⟩
    refine ⟨d1, ?_⟩
    have b1 : |p.1 - 3 / 2| ≤ 5 / 2 := abs_le.mpr ⟨by linarith, by linarith⟩
    have b2 : |p.2 - 3 / 2| ≤ 3 / 2 := abs_le.mpr ⟨by linarith, by linarith⟩
    have l1 := Real.log_le_sub_one_of_pos (lt_of_lt_of_le (by norm_num) d1)
    have l2 := Real.one_sub_inv_le_log_of_pos (lt_of_lt_of_le (by norm_num) d1)
    have hinv : ‖({ re := p.1, im := p.2 } : ℂ) - { re := 3 / 2, im := 3 / 2 }‖⁻¹ ≤ 2 := by
      rw [inv_le_comm₀ (lt_of_lt_of_le (by norm_num) d1) (by norm_num)]
      linarith
    exact abs_le.mpr ⟨by linarith, by linarith⟩
  have hpi : (3 : ℝ) < Real.pi := Real.pi_gt_three
  have hab : lineCoefficients [(1, (3 / 2, 3 / 2))] (3 / 2, 3 / 2) 3 = [(1, 0), (0, 0), (0, 0), (0, 0)] := by
    simp [lineCoefficients, List.range_succ, Multipolar.momentComponent, Multipolar.sub2, Multipolar.norml2]
  have hmean : |exactMean (1 / 2) ⟨(1, 1), (2, 2)⟩ ⟨(0, 0), (4, 3)⟩ (linePotential [(1, (3 / 2, 3 / 2))])| ≤ 1 := by
    apply exactMean_le
    · unfold BoxContains; norm_num
    · unfold BoxValid; norm_num
    · norm_num
    · norm_num
    · rw [abs_of_pos] <;> norm_num
    · intro p hp
      have hl := (hdist p hp).2
      unfold linePotential
      simp only [List.map_cons, List.map_nil, List.sum_cons, List.sum_nil, add_zero, one_mul]
      rw [abs_mul, abs_neg, abs_of_pos (by positivity), div_mul_eq_mul_div, one_mul, div_le_one (by positivity)]
      linarith
  have g42 : (((1 - 1 / 2 ^ 53 : ℝ))⁻¹) ^ (11 * 3 + 9) - 1 ≤ 1 / 10 ^ 13 := by
    refine le_trans (growth_le Rd (11 * 3 + 9) (by norm_num)) (by norm_num)
  have key := C116_charges (M := 4) Rd (roundedLibrary_accurate Rd) 1
    ⟨⟨(1, 1), (2, 2)⟩, [(0, ⟨1 / 2, (3 / 2, 3 / 2), lineCoefficients [(1, (3 / 2, 3 / 2))] (3 / 2, 3 / 2) 3, [(0, 10)]⟩)], []⟩
    0 0 ⟨1 / 2, (3 / 2, 3 / 2), lineCoefficients [(1, (3 / 2, 3 / 2))] (3 / 2, 3 / 2) 3, [(0, 10)]⟩ rfl 10 rfl
    [(1, (3 / 2, 3 / 2))] 3 rfl ⟨(0, 0), (4, 3)⟩
    (by unfold BoxContains; norm_num) (by unfold BoxValid; norm_num) (by norm_num) (by norm_num) ⟨r0, r4, r0, r3⟩
    ⟨r1, r2, r1, r2⟩ (by unfold BoundedBox; norm_num)
    (by
      refine ⟨?_, ?_⟩ <;> intro x hx y hy hxy <;> simp only [List.mem_cons, List.not_mem_nil, or_false] at hx hy <;>
      rcases hx with rfl | rfl | rfl | rfl <;> rcases hy with rfl | rfl | rfl | rfl <;> revert hxy <;> norm_num)
    0 (1 / 2) (le_refl _) (by norm_num) (by
      intro q hq
      rw [List.mem_singleton.mp hq]
      simp) (fun p hp => (hdist p hp).1) 1 2 (by norm_num) (by
      intro p hp
      have hl := (hdist p hp).2
      rw [hab]
      unfold expansionSize
      simp only [List.length_cons, List.length_nil, List.getD_cons_zero, List.getD_cons_succ, Finset.sum_range_succ,
        Finset.sum_range_zero, abs_one, abs_zero, show 0 + 1 + 1 + 1 + 1 - 1 = 3 from rfl]
      rw [div_le_one (by positivity)]
      simp only [add_zero, zero_div]
      linarith)
    (by rw [abs_of_pos] <;> norm_num) (by linarith)
  set m := exactMean (1 / 2) ⟨(1, 1), (2, 2)⟩ ⟨(0, 0), (4, 3)⟩ (linePotential [(1, (3 / 2, 3 / 2))]) with hm
  obtain ⟨m1, m2⟩ := abs_le.mp hmean
  have g5 : (((1 - 1 / 2 ^ 53 : ℝ))⁻¹) ^ 100000 - 1 ≤ 3 / 10 ^ 11 := le_trans (growth_le Rd 100000 (by norm_num)) (by norm_num)
  have g3 : (((1 - 1 / 2 ^ 53 : ℝ))⁻¹) ^ 3 - 1 ≤ 1 / 10 ^ 13 := le_trans (growth_le Rd 3 (by norm_num)) (by norm_num)
  have g3' := one_le_pow₀ (n := 3) (one_le_inv Rd)
  have hQ : (1 : ℝ) / (2 * Real.pi) ≤ 1 / 6 := by
    apply div_le_div_of_nonneg_left (by norm_num) (by norm_num) (by linarith)
  generalize (((1 - 1 / 2 ^ 53 : ℝ))⁻¹) ^ 100000 = G at *
  generalize (((1 - 1 / 2 ^ 53 : ℝ))⁻¹) ^ (11 * 3 + 9) = G' at *
  generalize (((1 - 1 / 2 ^ 53 : ℝ))⁻¹) ^ 3 = G3 at *
  simp only [List.map_cons, List.map_nil, List.sum_cons, List.sum_nil, abs_one, add_zero, mul_one] at key
  have hd : |10 - m| = 10 - m := abs_of_pos (by linarith)
  have hB : (G' - 1) + 1 / (2 * Real.pi) * ((0 / (1 / 2)) ^ (3 + 1) / ((((3 : ℕ) : ℝ) + 1) * (1 - 0 / (1 / 2))) +
      2 * (1 / 2 ^ 53 * 4) / (1 / 2 - 0) + ((4 - 0 + 1600 * (1 / 2 ^ 53 * 4)) ^ 2 + (3 - 0 + 1600 * (1 / 2 ^ 53 * 4)) ^ 2) /
        (240000 * (1 / 2 - 0) ^ 2)) + (G - 1) * 2 ≤ 1 / 10 ^ 4 := by
    have t := mul_le_mul_of_nonneg_right hQ (by norm_num : (0 : ℝ) ≤ (0 / (1 / 2)) ^ (3 + 1) / ((((3 : ℕ) : ℝ) + 1) * (1 - 0 / (1 / 2))) +
      2 * (1 / 2 ^ 53 * 4) / (1 / 2 - 0) + ((4 - 0 + 1600 * (1 / 2 ^ 53 * 4)) ^ 2 + (3 - 0 + 1600 * (1 / 2 ^ 53 * 4)) ^ 2) /
        (240000 * (1 / 2 - 0) ^ 2))
    refine le_trans (add_le_add (add_le_add g42 t) (mul_le_mul_of_nonneg_right g5 (by norm_num))) ?_
    norm_num
  generalize (G' - 1) + 1 / (2 * Real.pi) * ((0 / (1 / 2)) ^ (3 + 1) / ((((3 : ℕ) : ℝ) + 1) * (1 - 0 / (1 / 2))) +
      2 * (1 / 2 ^ 53 * 4) / (1 / 2 - 0) + ((4 - 0 + 1600 * (1 / 2 ^ 53 * 4)) ^ 2 + (3 - 0 + 1600 * (1 / 2 ^ 53 * 4)) ^ 2) /
        (240000 * (1 / 2 - 0) ^ 2)) + (G - 1) * 2 = B at *
  obtain ⟨C, hC, hb⟩ := key (by rw [hd]; linarith)
  refine ⟨C, hC, le_trans hb ?_⟩
  rw [hd, abs_of_pos (by have : 0 < 10 - m := by linarith
                         positivity)]
  refine mul_le_mul_of_nonneg_right ?_ (by have : 0 < 10 - m := by linarith
                                           positivity)
  have hp : 0 < 10 - m - B := by linarith
  have hq : (10 - m) / (10 - m - B) ≤ 1 + 15 / 10 ^ 6 := by
    rw [div_le_iff₀ hp]
    linarith
  have := mul_le_mul hq (by linarith : G3 ≤ 1 + 1 / 10 ^ 13) (by linarith) (by norm_num)
  refine le_trans (sub_le_sub_right this 1) ?_
  norm_num

end Tulip.Props
