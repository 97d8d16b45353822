import Verif.Spec.Accuracy
import Verif.Props.Grid
import Mathlib.MeasureTheory.Integral.IntervalIntegral.FundThmCalculus
import Mathlib.Analysis.SpecialFunctions.Integrals.Basic
import Mathlib.MeasureTheory.Integral.Prod
import Mathlib.MeasureTheory.Group.Integral
import Mathlib.MeasureTheory.Measure.Lebesgue.Basic
import Mathlib.MeasureTheory.Measure.Haar.Unique
import Mathlib.MeasureTheory.Measure.Lebesgue.EqHaar
import Mathlib.Tactic

/-!
# The midpoint rule on the cells of an integration grid
-/

noncomputable section

namespace Tulip.Accuracy
open Tulip Tulip.Spec Tulip.Props Tulip.InCellPotentials MeasureTheory

/-- Splitting an integral along the gaps of a list, in the first coordinate. -/
theorem split_fst (S : Set ℝ) (hS : MeasurableSet S) (F : ℝ × ℝ → ℝ) : ∀ (l : List ℝ) (hne : l ≠ []), l.Pairwise (· < ·) →
    IntegrableOn F (Set.Ioc (l.head hne) (l.getLast hne) ×ˢ S) →
    ((gaps l).map (fun g => ∫ p in Set.Ioc g.1 g.2 ×ˢ S, F p)).sum = ∫ p in Set.Ioc (l.head hne) (l.getLast hne) ×ˢ S, F p
  | [], hne, _, _ => absurd rfl hne
  | [x], _, _, _ => by simp [gaps]
  | a :: b :: t, hne, hs, hi => by
    have hab : a < b := (List.pairwise_cons.mp hs).1 b (by simp)
    have ht := (List.pairwise_cons.mp hs).2
    have hbl : b ≤ (b :: t).getLast (by simp) := by
      rcases List.mem_cons.mp (List.getLast_mem (l := b :: t) (by simp)) with h | h
      · exact le_of_eq h.symm
      · exact le_of_lt ((List.pairwise_cons.mp ht).1 _ h)
    have hu : Set.Ioc a ((b :: t).getLast (by simp)) ×ˢ S = (Set.Ioc a b ×ˢ S) ∪ (Set.Ioc b ((b :: t).getLast (by simp)) ×ˢ S) := by
      rw [← Set.union_prod, Set.Ioc_union_Ioc_eq_Ioc (le_of_lt hab) hbl]
    have hl : (a :: b :: t).getLast hne = (b :: t).getLast (by simp) := List.getLast_cons _
    rw [List.head_cons, hl, hu] at hi
    have ih := split_fst S hS F (b :: t) (by simp) ht (hi.mono_set Set.subset_union_right)
    rw [gaps_cons, List.map_cons, List.sum_cons, ih, List.head_cons, List.head_cons, hl, hu,
      setIntegral_union _ (measurableSet_Ioc.prod hS) (hi.mono_set Set.subset_union_left) (hi.mono_set Set.subset_union_right)]
    · rw [Set.disjoint_prod]
      left
      exact Set.Ioc_disjoint_Ioc_of_le (le_refl _)

/-- Splitting an integral along the gaps of a list, in the second coordinate. -/
theorem split_snd (S : Set ℝ) (hS : MeasurableSet S) (F : ℝ × ℝ → ℝ) : ∀ (l : List ℝ) (hne : l ≠ []), l.Pairwise (· < ·) →
    IntegrableOn F (S ×ˢ Set.Ioc (l.head hne) (l.getLast hne)) →
    ((gaps l).map (fun g => ∫ p in S ×ˢ Set.Ioc g.1 g.2, F p)).sum = ∫ p in S ×ˢ Set.Ioc (l.head hne) (l.getLast hne), F p
  | [], hne, _, _ => absurd rfl hne
  | [x], _, _, _ => by simp [gaps]
  | a :: b :: t, hne, hs, hi => by
    have hab : a < b := (List.pairwise_cons.mp hs).1 b (by simp)
    have ht := (List.pairwise_cons.mp hs).2
    have hbl : b ≤ (b :: t).getLast (by simp) := by
      rcases List.mem_cons.mp (List.getLast_mem (l := b :: t) (by simp)) with h | h
      · exact le_of_eq h.symm
      · exact le_of_lt ((List.pairwise_cons.mp ht).1 _ h)
    have hu : S ×ˢ Set.Ioc a ((b :: t).getLast (by simp)) = (S ×ˢ Set.Ioc a b) ∪ (S ×ˢ Set.Ioc b ((b :: t).getLast (by simp))) := by
      rw [← Set.prod_union, Set.Ioc_union_Ioc_eq_Ioc (le_of_lt hab) hbl]
    have hl : (a :: b :: t).getLast hne = (b :: t).getLast (by simp) := List.getLast_cons _
    rw [List.head_cons, hl, hu] at hi
    have ih := split_snd S hS F (b :: t) (by simp) ht (hi.mono_set Set.subset_union_right)
    rw [gaps_cons, List.map_cons, List.sum_cons, ih, List.head_cons, List.head_cons, hl, hu,
      setIntegral_union _ (hS.prod measurableSet_Ioc) (hi.mono_set Set.subset_union_left) (hi.mono_set Set.subset_union_right)]
    · rw [Set.disjoint_prod]
      right
      exact Set.Ioc_disjoint_Ioc_of_le (le_refl _)

/-- The open and half-open cells differ by a null set. -/
theorem cell_ae (g k : ℝ × ℝ) : (Set.Ioc g.1 g.2 ×ˢ Set.Ioc k.1 k.2 : Set (ℝ × ℝ)) =ᵐ[volume] Set.Ioo g.1 g.2 ×ˢ Set.Ioo k.1 k.2 := by
  rw [Measure.volume_eq_prod]
  exact Measure.set_prod_ae_eq Ioo_ae_eq_Ioc.symm Ioo_ae_eq_Ioc.symm

/-- Second moment of an interval about its midpoint. -/
theorem moment_interval (a b : ℝ) (h : a < b) : ∫ x in Set.Ioo a b, (x - 1 / 2 * (a + b)) ^ 2 = (b - a) ^ 3 / 12 := by
  rw [← integral_Ioc_eq_integral_Ioo, ← intervalIntegral.integral_of_le (le_of_lt h),
    intervalIntegral.integral_comp_sub_right (fun x => x ^ 2), integral_pow]
  norm_num
  ring

/-- Second moment of a cell about its midpoint. -/
theorem moment_cell (g k : ℝ × ℝ) (hg : g.1 < g.2) (hk : k.1 < k.2) :
    ∫ p in Set.Ioo g.1 g.2 ×ˢ Set.Ioo k.1 k.2, ((p.1 - (cellMid g k).1) ^ 2 + (p.2 - (cellMid g k).2) ^ 2) =
      (g.2 - g.1) * (k.2 - k.1) * ((g.2 - g.1) ^ 2 + (k.2 - k.1) ^ 2) / 12 := by
  have hfin : ∀ F : ℝ × ℝ → ℝ, Continuous F → IntegrableOn F (Set.Ioo g.1 g.2 ×ˢ Set.Ioo k.1 k.2) := by
    intro F hF
    have : IntegrableOn F (Set.Icc g.1 g.2 ×ˢ Set.Icc k.1 k.2) :=
      hF.continuousOn.integrableOn_compact (isCompact_Icc.prod isCompact_Icc)
    exact this.mono_set (Set.prod_mono Set.Ioo_subset_Icc_self Set.Ioo_subset_Icc_self)
  rw [integral_add (hfin (fun p => (p.1 - (cellMid g k).1) ^ 2) (by fun_prop))
    (hfin (fun p => (p.2 - (cellMid g k).2) ^ 2) (by fun_prop))]
  have e1 := setIntegral_prod_mul (μ := volume) (ν := volume) (fun x : ℝ => (x - 1 / 2 * (g.1 + g.2)) ^ 2) (fun _ : ℝ => (1 : ℝ))
    (Set.Ioo g.1 g.2) (Set.Ioo k.1 k.2)
  have e2 := setIntegral_prod_mul (μ := volume) (ν := volume) (fun _ : ℝ => (1 : ℝ)) (fun x : ℝ => (x - 1 / 2 * (k.1 + k.2)) ^ 2)
    (Set.Ioo g.1 g.2) (Set.Ioo k.1 k.2)
  rw [← Measure.volume_eq_prod] at e1 e2
  simp only [mul_one, one_mul] at e1 e2
  rw [moment_interval _ _ hg] at e1
  rw [moment_interval _ _ hk] at e2
  have c1 : ∫ _ in Set.Ioo g.1 g.2, (1 : ℝ) = g.2 - g.1 := by
    rw [setIntegral_const]; simp [hg.le]
  have c2 : ∫ _ in Set.Ioo k.1 k.2, (1 : ℝ) = k.2 - k.1 := by
    rw [setIntegral_const]; simp [hk.le]
  rw [c2] at e1
  rw [c1] at e2
  unfold cellMid
  rw [e1, e2]
  ring

instance planeHaar : (volume : Measure (ℝ × ℝ)).IsAddHaarMeasure := by
  rw [Measure.volume_eq_prod]; infer_instance

/-- The midpoint rule on one cell, for a function with bounded second differences about the midpoint. -/
theorem cell_error (f : ℝ × ℝ → ℝ) (g k : ℝ × ℝ) (hg : g.1 < g.2) (hk : k.1 < k.2) (M : ℝ)
    (hi : IntegrableOn f (Set.Ioo g.1 g.2 ×ˢ Set.Ioo k.1 k.2))
    (hd : ∀ p ∈ Set.Ioo g.1 g.2 ×ˢ Set.Ioo k.1 k.2, |f p + f ((2 : ℝ) • cellMid g k - p) - 2 * f (cellMid g k)| ≤
      M * ((p.1 - (cellMid g k).1) ^ 2 + (p.2 - (cellMid g k).2) ^ 2)) :
    |(g.2 - g.1) * (k.2 - k.1) * f (cellMid g k) - ∫ p in Set.Ioo g.1 g.2 ×ˢ Set.Ioo k.1 k.2, f p| ≤
      M * ((g.2 - g.1) * (k.2 - k.1) * ((g.2 - g.1) ^ 2 + (k.2 - k.1) ^ 2)) / 24 := by
  set R : Set (ℝ × ℝ) := Set.Ioo g.1 g.2 ×ˢ Set.Ioo k.1 k.2 with hR
  set m := cellMid g k with hm
  have hRm : MeasurableSet R := measurableSet_Ioo.prod measurableSet_Ioo
  have hmem : ∀ p, (2 : ℝ) • m - p ∈ R ↔ p ∈ R := by
    intro p
    simp only [hR, hm, cellMid, Set.mem_prod, Set.mem_Ioo, Prod.fst_sub, Prod.snd_sub, Prod.smul_fst, Prod.smul_snd,
      smul_eq_mul]
    constructor <;> rintro ⟨⟨a, b⟩, c, d⟩ <;> refine ⟨⟨?_, ?_⟩, ?_, ?_⟩ <;> linarith
  have hind : ∀ p, R.indicator f ((2 : ℝ) • m - p) = R.indicator (fun p => f ((2 : ℝ) • m - p)) p := by
    intro p
    by_cases h : p ∈ R
    · rw [Set.indicator_of_mem h, Set.indicator_of_mem ((hmem p).mpr h)]
    · rw [Set.indicator_of_notMem h, Set.indicator_of_notMem (fun h' => h ((hmem p).mp h'))]
  have hrefl : ∫ p in R, f ((2 : ℝ) • m - p) = ∫ p in R, f p := by
    rw [← integral_indicator hRm, ← integral_indicator hRm, ← integral_sub_left_eq_self (R.indicator f) volume ((2 : ℝ) • m)]
    exact integral_congr_ae (Filter.Eventually.of_forall (fun p => (hind p).symm))
  have hi2 : IntegrableOn (fun p => f ((2 : ℝ) • m - p)) R := by
    rw [← integrable_indicator_iff hRm] at hi ⊢
    have := hi.comp_sub_left ((2 : ℝ) • m)
    exact this.congr (Filter.Eventually.of_forall hind)
  have hvol : volume.real R = (g.2 - g.1) * (k.2 - k.1) := by
    rw [hR, Measure.volume_eq_prod, measureReal_prod_prod]
    simp [hg.le, hk.le]
  have hfinR : volume R ≠ ⊤ := by
    rw [hR, Measure.volume_eq_prod, Measure.prod_prod]
    exact ENNReal.mul_ne_top (by simp) (by simp)
  have hi3 : IntegrableOn (fun _ : ℝ × ℝ => 2 * f m) R := integrableOn_const hfinR
  have e : ∫ p in R, (f p + f ((2 : ℝ) • m - p) - 2 * f m) =
      2 * (∫ p in R, f p) - 2 * ((g.2 - g.1) * (k.2 - k.1) * f m) := by
    have := integral_sub (hi.add hi2) hi3
    simp only [Pi.add_apply] at this
    rw [this, integral_add hi hi2, hrefl, setIntegral_const, hvol, smul_eq_mul]
    ring
  have hsq : IntegrableOn (fun p : ℝ × ℝ => M * ((p.1 - m.1) ^ 2 + (p.2 - m.2) ^ 2)) R := by
    have : IntegrableOn (fun p : ℝ × ℝ => M * ((p.1 - m.1) ^ 2 + (p.2 - m.2) ^ 2)) (Set.Icc g.1 g.2 ×ˢ Set.Icc k.1 k.2) :=
      (by fun_prop : Continuous _).continuousOn.integrableOn_compact (isCompact_Icc.prod isCompact_Icc)
    exact this.mono_set (Set.prod_mono Set.Ioo_subset_Icc_self Set.Ioo_subset_Icc_self)
  have hb : ‖∫ p in R, (f p + f ((2 : ℝ) • m - p) - 2 * f m)‖ ≤ ∫ p in R, M * ((p.1 - m.1) ^ 2 + (p.2 - m.2) ^ 2) :=
    norm_integral_le_of_norm_le hsq ((ae_restrict_iff' hRm).mpr (Filter.Eventually.of_forall hd))
  rw [integral_const_mul, moment_cell g k hg hk, e, Real.norm_eq_abs] at hb
  rw [abs_le] at hb ⊢
  constructor <;> linarith [hb.1, hb.2]

/-- The gaps of the planes in one direction: they lie between the sides, are at most a hundredth of the distance of the
sides wide, and do not cross the sides of the inner region. -/
theorem gap_facts {p q i j : ℝ} (hpq : p < q) (hi : p ≤ i) (hij : i ≤ j) (hj : j ≤ q) (g : ℝ × ℝ)
    (hg : g ∈ gaps (planesInDirection p q i j)) :
    g.1 < g.2 ∧ p ≤ g.1 ∧ g.2 ≤ q ∧ g.2 - g.1 ≤ (q - p) / 100 ∧ (g.2 ≤ i ∨ i ≤ g.1) ∧ (g.2 ≤ j ∨ j ≤ g.1) := by
  obtain ⟨k1, k2, k3, k4⟩ := gap_spec (planes_sorted p q i j) hg
  have hb : ∀ c ∈ [p, q, i, j], p ≤ c ∧ c ≤ q := by
    intro c hc
    simp only [List.mem_cons, List.not_mem_nil, or_false] at hc
    rcases hc with rfl | rfl | rfl | rfl
    · exact ⟨le_refl _, hpq.le⟩
    · exact ⟨hpq.le, le_refl _⟩
    · exact ⟨hi, le_trans hij hj⟩
    · exact ⟨le_trans hi hij, hj⟩
  have b1 := planes_between hb k1
  have b2 := planes_between hb k2
  have m := inner_mem (i := i) (j := j) hpq
  refine ⟨k3, b1.1, b2.2, ?_, (k4 i m.1).symm, (k4 j m.2).symm⟩
  obtain ⟨a, b, hab, k, hk, e⟩ := mem_planes.mp k1
  obtain ⟨h1, h2, h3, -⟩ := gap_spec (SSet.sorted_ofList _) hab
  have ha := hb a (SSet.mem_ofList.mp h1)
  have hb' := hb b (SSet.mem_ofList.mp h2)
  have hN : (samplingPoints : ℝ) = 100 := by unfold samplingPoints; norm_num
  rcases Nat.lt_or_ge k samplingPoints with hlt | hge
  · have hx : a + ((k + 1 : ℕ) : ℝ) * ((b - a) / samplingPoints) ∈ planesInDirection p q i j :=
      mem_planes.mpr ⟨a, b, hab, k + 1, hlt, rfl⟩
    have hpos : 0 < (b - a) / (samplingPoints : ℝ) := by rw [hN]; linarith
    rcases k4 _ hx with h | h
    · push_cast at h
      rw [e] at h
      nlinarith
    · push_cast at h
      rw [hN] at h e
      rw [e]
      linarith
  · have : k = samplingPoints := le_antisymm hk hge
    subst this
    rw [hN] at e
    have hb1 : g.1 = b := by rw [e]; ring
    obtain ⟨a', b', hab', k', hk', e'⟩ := mem_planes.mp k2
    obtain ⟨h1', h2', h3', -⟩ := gap_spec (SSet.sorted_ofList _) hab'
    have ha' := hb a' (SSet.mem_ofList.mp h1')
    have hb'' := hb b' (SSet.mem_ofList.mp h2')
    rcases Nat.eq_zero_or_pos k' with h0 | h0
    · -- both ends are control points
      subst h0
      have ha1 : g.2 = a' := by rw [e']; simp
      have hgap : (g.1, g.2) ∈ gaps (SSet.ofList [p, q, i, j]) := by
        refine gap_of (SSet.sorted_ofList _) (by rw [hb1]; exact h2) (by rw [ha1]; exact h1') k3 ?_
        intro c hc
        refine k4 c (control_mem (SSet.mem_ofList.mp hc) ?_)
        by_cases h : p = c
        · exact ⟨q, by simp, by rw [← h]; exact ne_of_gt hpq⟩
        · exact ⟨p, by simp, h⟩
      have hx : g.1 + ((1 : ℕ) : ℝ) * ((g.2 - g.1) / samplingPoints) ∈ planesInDirection p q i j :=
        mem_planes.mpr ⟨g.1, g.2, hgap, 1, by unfold samplingPoints; norm_num, rfl⟩
      rw [hN] at hx
      rcases k4 _ hx with h | h <;> push_cast at h <;> linarith
    · have hx : a' + ((k' - 1 : ℕ) : ℝ) * ((b' - a') / samplingPoints) ∈ planesInDirection p q i j :=
        mem_planes.mpr ⟨a', b', hab', k' - 1, by omega, rfl⟩
      have hpos : 0 < (b' - a') / (samplingPoints : ℝ) := by rw [hN]; linarith
      rw [Nat.cast_sub (by omega : 1 ≤ k')] at hx
      rcases k4 _ hx with h | h
      · rw [hN] at h e'
        push_cast at h
        linarith
      · rw [e'] at h
        push_cast at h
        nlinarith

theorem abs_sum_le {α : Type _} (l : List α) (F G E : α → ℝ) (h : ∀ x ∈ l, |F x - G x| ≤ E x) :
    |(l.map F).sum - (l.map G).sum| ≤ (l.map E).sum := by
  induction l with
  | nil => simp
  | cons x l ih =>
    simp only [List.map_cons, List.sum_cons]
    have a := h x (by simp)
    have b := ih (fun y hy => h y (by simp [hy]))
    rw [abs_le] at a b ⊢
    constructor <;> linarith [a.1, a.2, b.1, b.2]

theorem mem_outside (box inner : Box ℝ) (p : ℝ × ℝ) : p ∈ outsideRegion box inner ↔ InBox box p ∧ ¬ InBox inner p := by
  unfold outsideRegion InBox
  simp only [Set.mem_sdiff, Set.mem_prod, Set.mem_Icc]
  tauto

theorem mid_segment {a b x t : ℝ} (h1 : a < x) (h2 : x < b) (ht : t ∈ Set.Icc (-1 : ℝ) 1) :
    1 / 2 * (a + b) + t * (x - 1 / 2 * (a + b)) ∈ Set.Ioo a b := by
  have h : |t * (x - 1 / 2 * (a + b))| ≤ 1 * |x - 1 / 2 * (a + b)| := by
    rw [abs_mul]
    exact mul_le_mul_of_nonneg_right (abs_le.mpr ht) (abs_nonneg _)
  have h' : |x - 1 / 2 * (a + b)| < (b - a) / 2 := by rw [abs_lt]; constructor <;> linarith
  have := abs_lt.mp (lt_of_le_of_lt h (by linarith : 1 * |x - 1 / 2 * (a + b)| < (b - a) / 2))
  exact ⟨by linarith [this.1], by linarith [this.2]⟩

/-- The midpoint rule over any grid through the sides of the box and of the inner region, with cells of sides at most `wx`
and `wy`, approximates the integral over the box outside the inner region. -/
theorem lists_error (box inner : Box ℝ) (v : ℝ × ℝ → ℝ) (M wx wy : ℝ) (hM : 0 ≤ M)
    (hi : IntegrableOn v (outsideRegion box inner)) (hd : SecondDifferences v (outsideRegion box inner) M)
    (xs ys : List ℝ) (sx : xs.Pairwise (· < ·)) (sy : ys.Pairwise (· < ·)) (nx : xs ≠ []) (ny : ys ≠ [])
    (ax : xs.head nx = box.min.1) (bx : xs.getLast nx = box.max.1)
    (ay : ys.head ny = box.min.2) (bY : ys.getLast ny = box.max.2)
    (fx : ∀ g ∈ gaps xs, g.1 < g.2 ∧ box.min.1 ≤ g.1 ∧ g.2 ≤ box.max.1 ∧ g.2 - g.1 ≤ wx ∧
      (g.2 ≤ inner.min.1 ∨ inner.min.1 ≤ g.1) ∧ (g.2 ≤ inner.max.1 ∨ inner.max.1 ≤ g.1))
    (fy : ∀ g ∈ gaps ys, g.1 < g.2 ∧ box.min.2 ≤ g.1 ∧ g.2 ≤ box.max.2 ∧ g.2 - g.1 ≤ wy ∧
      (g.2 ≤ inner.min.2 ∨ inner.min.2 ≤ g.1) ∧ (g.2 ≤ inner.max.2 ∨ inner.max.2 ≤ g.1))
    (area : ((gaps xs).map (fun gx => ((gaps ys).map (fun gy => cellVal inner (fun _ => 1) gx gy)).sum)).sum =
      box.area - inner.area) :
    |((gaps xs).map (fun gx => ((gaps ys).map (fun gy => cellVal inner v gx gy)).sum)).sum -
        ∫ p in outsideRegion box inner, v p| ≤
      M * (wx ^ 2 + wy ^ 2) / 24 * (box.area - inner.area) := by
  set O := outsideRegion box inner with hO
  have hOm : MeasurableSet O :=
    (measurableSet_Icc.prod measurableSet_Icc).diff (measurableSet_Icc.prod measurableSet_Icc)
  set F : ℝ × ℝ → ℝ := O.indicator v with hF
  have hFi : Integrable F := (integrable_indicator_iff hOm).mpr hi
  -- the integral is the sum over the cells
  have hint : ∫ p in O, v p = ((gaps xs).map (fun gx => ((gaps ys).map (fun gy =>
      ∫ p in Set.Ioc gx.1 gx.2 ×ˢ Set.Ioc gy.1 gy.2, F p)).sum)).sum := by
    have e1 : ∫ p in O, v p = ∫ p in Set.Ioc box.min.1 box.max.1 ×ˢ Set.Ioc box.min.2 box.max.2, F p := by
      rw [← integral_indicator hOm, ← integral_indicator (measurableSet_Ioc.prod measurableSet_Ioc)]
      have hae : (Set.Ioc box.min.1 box.max.1 ×ˢ Set.Ioc box.min.2 box.max.2 : Set (ℝ × ℝ)) =ᵐ[volume]
          Set.Icc box.min.1 box.max.1 ×ˢ Set.Icc box.min.2 box.max.2 := by
        rw [Measure.volume_eq_prod]
        exact Measure.set_prod_ae_eq Ioc_ae_eq_Icc Ioc_ae_eq_Icc
      refine integral_congr_ae ((indicator_ae_eq_of_ae_eq_set hae).trans (Filter.Eventually.of_forall ?_)).symm
      intro p
      show (Set.Icc box.min.1 box.max.1 ×ˢ Set.Icc box.min.2 box.max.2).indicator F p = F p
      by_cases h : p ∈ Set.Icc box.min.1 box.max.1 ×ˢ Set.Icc box.min.2 box.max.2
      · rw [Set.indicator_of_mem h]
      · rw [Set.indicator_of_notMem h, hF, Set.indicator_of_notMem (fun h' => h h'.1)]
    rw [e1, ← ax, ← bx, ← split_fst _ measurableSet_Ioc F xs nx sx hFi.integrableOn]
    congr 1
    apply List.map_congr_left
    intro gx _
    rw [← ay, ← bY, ← split_snd _ measurableSet_Ioc F ys ny sy hFi.integrableOn]
  rw [hint, ← area, ← List.sum_map_mul_left]
  refine abs_sum_le _ _ _ _ (fun gx hgx => ?_)
  rw [← List.sum_map_mul_left]
  refine abs_sum_le _ _ _ _ (fun gy hgy => ?_)
  obtain ⟨x1, x2, x3, x4, x5, x6⟩ := fx gx hgx
  obtain ⟨y1, y2, y3, y4, y5, y6⟩ := fy gy hgy
  rw [setIntegral_congr_set (cell_ae gx gy)]
  unfold cellVal
  by_cases hin : InBox inner (cellMid gx gy)
  · rw [if_pos hin, if_pos hin, mul_zero]
    have : ∫ p in Set.Ioo gx.1 gx.2 ×ˢ Set.Ioo gy.1 gy.2, F p = 0 := by
      rw [setIntegral_congr_fun (g := fun _ => (0 : ℝ)) (measurableSet_Ioo.prod measurableSet_Ioo)]
      · simp
      · intro p hp
        refine Set.indicator_of_notMem (fun h => ((mem_outside box inner p).mp h).2 ?_) _
        obtain ⟨⟨p1, p2⟩, p3, p4⟩ := hp
        obtain ⟨m1, m2, m3, m4⟩ := hin
        simp only [cellMid] at m1 m2 m3 m4
        refine ⟨?_, ?_, ?_, ?_⟩
        · rcases x5 with h | h <;> linarith
        · rcases x6 with h | h <;> linarith
        · rcases y5 with h | h <;> linarith
        · rcases y6 with h | h <;> linarith
    rw [this]; simp
  · rw [if_neg hin, if_neg hin, mul_one]
    have hsub : ∀ p ∈ Set.Ioo gx.1 gx.2 ×ˢ Set.Ioo gy.1 gy.2, p ∈ O := by
      intro p hp
      obtain ⟨⟨p1, p2⟩, p3, p4⟩ := hp
      refine (mem_outside box inner p).mpr ⟨⟨by linarith, by linarith, by linarith, by linarith⟩, ?_⟩
      rintro ⟨m1, m2, m3, m4⟩
      apply hin
      refine ⟨?_, ?_, ?_, ?_⟩ <;> simp only [cellMid]
      · rcases x5 with h | h <;> linarith
      · rcases x6 with h | h <;> linarith
      · rcases y5 with h | h <;> linarith
      · rcases y6 with h | h <;> linarith
    have e : ∫ p in Set.Ioo gx.1 gx.2 ×ˢ Set.Ioo gy.1 gy.2, F p = ∫ p in Set.Ioo gx.1 gx.2 ×ˢ Set.Ioo gy.1 gy.2, v p :=
      setIntegral_congr_fun (measurableSet_Ioo.prod measurableSet_Ioo) (fun p hp => Set.indicator_of_mem (hsub p hp) _)
    rw [e]
    have hcell := cell_error v gx gy x1 y1 M (hi.mono_set hsub) (by
      intro p hp
      have hseg := hd (cellMid gx gy) (p - cellMid gx gy) (by
        intro t ht
        apply hsub
        obtain ⟨⟨p1, p2⟩, p3, p4⟩ := hp
        exact ⟨mid_segment p1 p2 ht, mid_segment p3 p4 ht⟩)
      have e1 : ((cellMid gx gy).1 + (p - cellMid gx gy).1, (cellMid gx gy).2 + (p - cellMid gx gy).2) = p := by
        ext <;> simp
      have e2 : ((cellMid gx gy).1 - (p - cellMid gx gy).1, (cellMid gx gy).2 - (p - cellMid gx gy).2) =
          (2 : ℝ) • cellMid gx gy - p := by
        ext <;> simp <;> ring
      rw [e1, e2] at hseg
      simpa using hseg)
    refine le_trans hcell ?_
    have a1 : (gx.2 - gx.1) ^ 2 ≤ wx ^ 2 := pow_le_pow_left₀ (by linarith) x4 2
    have a2 : (gy.2 - gy.1) ^ 2 ≤ wy ^ 2 := pow_le_pow_left₀ (by linarith) y4 2
    have hA : 0 ≤ (gx.2 - gx.1) * (gy.2 - gy.1) := mul_nonneg (by linarith) (by linarith)
    have := mul_le_mul_of_nonneg_left (add_le_add a1 a2) (mul_nonneg hM hA)
    refine le_trans (le_of_eq ?_) (le_trans (div_le_div_of_nonneg_right this (by norm_num : (0 : ℝ) ≤ 24)) (le_of_eq ?_)) <;> ring

/-- The midpoint rule on the grid of a box. -/
theorem grid_error (box inner : Box ℝ) (hc : BoxContains box inner) (hv : BoxValid inner)
    (h1 : box.min.1 < box.max.1) (h2 : box.min.2 < box.max.2) (v : ℝ × ℝ → ℝ) (M : ℝ) (hM : 0 ≤ M)
    (hi : IntegrableOn v (outsideRegion box inner)) (hd : SecondDifferences v (outsideRegion box inner) M) :
    |((gaps (planesInDirection box.min.1 box.max.1 inner.min.1 inner.max.1)).map (fun gx =>
      ((gaps (planesInDirection box.min.2 box.max.2 inner.min.2 inner.max.2)).map (fun gy =>
        cellVal inner v gx gy)).sum)).sum - ∫ p in outsideRegion box inner, v p| ≤
      M * ((box.max.1 - box.min.1) ^ 2 + (box.max.2 - box.min.2) ^ 2) / 240000 * (box.area - inner.area) := by
  obtain ⟨nx, ax, bx⟩ := planes_ends h1 hc.1 hv.1 hc.2.1
  obtain ⟨ny, ay, bY⟩ := planes_ends h2 hc.2.2.1 hv.2 hc.2.2.2
  have key := lists_error box inner v M ((box.max.1 - box.min.1) / 100) ((box.max.2 - box.min.2) / 100) hM hi hd _ _
    (planes_sorted box.min.1 box.max.1 inner.min.1 inner.max.1) (planes_sorted box.min.2 box.max.2 inner.min.2 inner.max.2)
    nx ny ax bx ay bY (fun g hg => gap_facts h1 hc.1 hv.1 hc.2.1 g hg)
    (fun g hg => gap_facts h2 hc.2.2.1 hv.2 hc.2.2.2 g hg) (outside_area box inner hc hv h1 h2)
  refine le_trans key (le_of_eq ?_)
  ring

end Tulip.Accuracy
