import Verif.Props.BoxAccuracy
import Verif.Props.RoundedDouble

/-!
# C114: how accurate the averages over a box are with the roundings of computer arithmetic
-/

noncomputable section

namespace Tulip.Props
open Tulip Tulip.Spec Tulip.Multipolar Tulip.Accuracy Tulip.InCellPotentials MeasureTheory

/-- The gaps of the computed planes in one direction: they lie between the sides, are at most a hundredth of the distance of
the sides wide, up to `16 u M`, and do not cross the sides of the inner region. -/
theorem rounded_gap_facts {rnd : ℝ → ℝ} {u M p q i j : ℝ} (R : Rounding rnd u) (hr : RoundedGrid.Rep rnd [p, q, i, j])
    (hM : ∀ c ∈ [p, q, i, j], |c| ≤ M) (hpq : p < q) (hi : p ≤ i) (hij : i ≤ j) (hj : j ≤ q) (g : ℝ × ℝ)
    (hg : g ∈ gaps (RoundedGrid.planesInDirection rnd p q i j)) :
    g.1 < g.2 ∧ p ≤ g.1 ∧ g.2 ≤ q ∧ g.2 - g.1 ≤ (q - p) / 100 + 16 * (u * M) ∧ (g.2 ≤ i ∨ i ≤ g.1) ∧ (g.2 ≤ j ∨ j ≤ g.1) := by
  obtain ⟨k1, k2, k3, k4⟩ := gap_spec (RoundedGrid.planes_sorted p q i j) hg
  have hb := RoundedGrid.sides_between hpq hi hij hj
  have b1 := RoundedGrid.planes_between R hr hb k1
  have b2 := RoundedGrid.planes_between R hr hb k2
  have hM0 : 0 ≤ u * M := mul_nonneg R.pos (le_trans (abs_nonneg _) (hM p (by simp)))
  have side : ∀ c ∈ [p, q, i, j], g.2 ≤ c ∨ c ≤ g.1 := fun c hc => (k4 c (RoundedGrid.side_mem R hr hpq hc)).symm
  refine ⟨k3, b1.1, b2.2, ?_, side i (by simp), side j (by simp)⟩
  obtain ⟨-, -, -, -, -, -, hpl⟩ := RoundedGrid.good_planes R hr hM hpq hi hij hj
  -- consecutive sides around the gap
  have key : ∀ a ∈ [p, q, i, j], ∀ b ∈ [p, q, i, j], a < b → (∀ c ∈ [p, q, i, j], c ≤ a ∨ b ≤ c) → a ≤ g.1 → g.2 ≤ b →
      g.2 - g.1 ≤ (b - a) / 100 + 16 * (u * M) := by
    intro a ha b hb' hab hcons hag hgb
    obtain ⟨-, hex⟩ := hpl a ha b hb' hab hcons
    by_contra hcon
    rw [not_le] at hcon
    have all : ∀ k : ℕ, k ≤ 100 → a + k * ((b - a) / 100) - 8 * (u * M) ≤ g.1 := by
      intro k
      induction k with
      | zero => intro _; simp; linarith
      | succ k ih =>
        intro hk
        have h0 := ih (by omega)
        obtain ⟨x, hx, -, -, hxe⟩ := hex (k + 1) hk
        rw [abs_le] at hxe
        push_cast at hxe ⊢
        rcases k4 x hx with h | h
        · linarith [hxe.1]
        · exfalso
          linarith [hxe.2]
    have := all 100 (le_refl _)
    push_cast at this
    have hba : (b - a) / 100 ≥ 0 := by linarith
    linarith
  have mono : ∀ a b : ℝ, p ≤ a → b ≤ q → g.2 - g.1 ≤ (b - a) / 100 + 16 * (u * M) →
      g.2 - g.1 ≤ (q - p) / 100 + 16 * (u * M) := by
    intro a b h1 h2 h3
    linarith
  rcases side i (by simp) with h | h
  · refine mono p i (le_refl _) (le_trans hij hj) (key p (by simp) i (by simp) (by linarith [b1.1]) ?_ b1.1 h)
    intro c hc
    simp only [List.mem_cons, List.not_mem_nil, or_false] at hc
    rcases hc with rfl | rfl | rfl | rfl
    · exact Or.inl (le_refl _)
    · exact Or.inr (le_trans hij hj)
    · exact Or.inr (le_refl _)
    · exact Or.inr hij
  · rcases side j (by simp) with h' | h'
    · refine mono i j hi hj (key i (by simp) j (by simp) (by linarith) ?_ h h')
      intro c hc
      simp only [List.mem_cons, List.not_mem_nil, or_false] at hc
      rcases hc with rfl | rfl | rfl | rfl
      · exact Or.inl hi
      · exact Or.inr hj
      · exact Or.inl (le_refl _)
      · exact Or.inr (le_refl _)
    · refine mono j q (le_trans hi hij) (le_refl _) (key j (by simp) q (by simp) (by linarith [b2.2]) ?_ h' b2.2)
      intro c hc
      simp only [List.mem_cons, List.not_mem_nil, or_false] at hc
      rcases hc with rfl | rfl | rfl | rfl
      · exact Or.inl (le_trans hi hij)
      · exact Or.inr (le_refl _)
      · exact Or.inl hij
      · exact Or.inl (le_refl _)

/-- **C114, for any outer potential.** In any binary arithmetic with relative error at most `u ≤ 1/1000`, for every box with
positive sides that contains the inner region, all sides representable, of size at most `M` and, if different, at least
`1000 u M` apart: if outside the inner region the expansion evaluates to the potential `V` up to `δ`, and these values and
the inner average have size at most `K`, the computed average over the box exists and differs from the exact mean of `V`
(a Lebesgue integral) by at most `δ + 2 L u M + S ((W + 1600 u M)² + (H + 1600 u M)²)/240000 + ((1 - u)⁻¹⁰⁰⁰⁰⁰ - 1) K`,
where `L` and `S` bound the first and second derivatives of `V` and `W` and `H` are the sides of the box. -/
theorem C114_general {rnd : ℝ → ℝ} {u M : ℝ} (R : Rounding rnd u) (e : Expansion ℝ) (f : FieldReconstruction ℝ)
    (box inner : Box ℝ) (hc : BoxContains box inner) (hv : BoxValid inner) (h1 : box.min.1 < box.max.1)
    (h2 : box.min.2 < box.max.2) (hrb : RepresentableBox rnd box) (hri : RepresentableBox rnd inner)
    (hM : BoundedBox M box) (hd : SidesApart (1000 * (u * M)) box inner) (v V : ℝ × ℝ → ℝ) (δ K L S : ℝ)
    (hev : ∀ p ∈ outsideRegion box inner, e p f.ab f.expansionCenter = .ok (v p) ∧ |v p - V p| ≤ δ ∧ |v p| ≤ K)
    (hK : |f.innerRegionAveragePotential| ≤ K) (hδ0 : 0 ≤ δ) (hL : 0 ≤ L) (hS : 0 ≤ S)
    (hi : IntegrableOn V (outsideRegion box inner)) (hF : FirstDifferences V (outsideRegion box inner) L)
    (hSd : SecondDifferences V (outsideRegion box inner) S) :
    ∃ r, RoundedGrid.getAveragePotential rnd e f inner box = .ok r ∧
      |r - exactMean f.innerRegionAveragePotential inner box V| ≤
        δ + 2 * L * (u * M) +
          S * ((box.max.1 - box.min.1 + 1600 * (u * M)) ^ 2 + (box.max.2 - box.min.2 + 1600 * (u * M)) ^ 2) / 240000 +
          (((1 - u)⁻¹) ^ 100000 - 1) * K := by
  obtain ⟨r1, r2⟩ := rep_sides hrb hri
  obtain ⟨m1, m2⟩ := bound_sides hc hv hM
  have hM0 : 0 ≤ u * M := mul_nonneg R.pos (le_trans (abs_nonneg _) hM.1)
  have fx := fun g hg => rounded_gap_facts R r1 m1 h1 hc.1 hv.1 hc.2.1 g hg
  have fy := fun g hg => rounded_gap_facts R r2 m2 h2 hc.2.2.1 hv.2 hc.2.2.2 g hg
  have hev' : ∀ p, InBox box p → ¬ InBox inner p → p ∈ outsideRegion box inner :=
    fun p hp hq => (mem_outside box inner p).mpr ⟨hp, hq⟩
  obtain ⟨r, er, hr⟩ := rounded_cells R e f box inner hc hv h1 h2 hrb hri hM hd v V (δ + 2 * L * (u * M)) K
    (fun p hp hq => ⟨(hev p (hev' p hp hq)).1, (hev p (hev' p hp hq)).2.2⟩) (by
      intro gx hgx gy hgy p hp hq hin wx1 wx2 wy1 wy2 ex ey
      obtain ⟨x1, x2, x3, x4, x5, x6⟩ := fx gx hgx
      obtain ⟨y1, y2, y3, y4, y5, y6⟩ := fy gy hgy
      have hpo := hev' p hp hq
      have hsub : ∀ z : ℝ × ℝ, gx.1 < z.1 → z.1 < gx.2 → gy.1 < z.2 → z.2 < gy.2 → z ∈ outsideRegion box inner := by
        intro z p1 p2 p3 p4
        refine hev' z ⟨by linarith, by linarith, by linarith, by linarith⟩ ?_
        rintro ⟨n1, n2, n3, n4⟩
        apply hin
        refine ⟨?_, ?_, ?_, ?_⟩ <;> simp only [cellMid]
        · rcases x5 with h | h <;> linarith
        · rcases x6 with h | h <;> linarith
        · rcases y5 with h | h <;> linarith
        · rcases y6 with h | h <;> linarith
      have inside : ∀ {a b c t : ℝ}, a < b → a ≤ c → c ≤ b → 0 ≤ t → t < 1 →
          a < 1 / 2 * (a + b) + t * (c - 1 / 2 * (a + b)) ∧ 1 / 2 * (a + b) + t * (c - 1 / 2 * (a + b)) < b := by
        intro a b c t hab h1 h2 t0 t1
        constructor <;> nlinarith
      have hd1 := hF (cellMid gx gy) (p - cellMid gx gy) (by
        intro t ht
        rcases eq_or_lt_of_le ht.2 with h | h
        · have : ((cellMid gx gy).1 + t * (p - cellMid gx gy).1, (cellMid gx gy).2 + t * (p - cellMid gx gy).2) = p := by
            rw [h]; ext <;> simp
          rw [this]; exact hpo
        · have a1 := inside x1 wx1 wx2 ht.1 h
          have a2 := inside y1 wy1 wy2 ht.1 h
          exact hsub _ a1.1 a1.2 a2.1 a2.2)
      have e1 : ((cellMid gx gy).1 + (p - cellMid gx gy).1, (cellMid gx gy).2 + (p - cellMid gx gy).2) = p := by
        ext <;> simp
      rw [e1] at hd1
      have hs : |(p - cellMid gx gy).1| + |(p - cellMid gx gy).2| ≤ u * M + u * M := add_le_add ex ey
      have t1 := mul_le_mul_of_nonneg_left hs hL
      have t2 := (hev p hpo).2.1
      have t3 := abs_sub_le (v p) (V p) (V (cellMid gx gy))
      linarith) hK
  refine ⟨r, er, ?_⟩
  obtain ⟨nx, ax, bx⟩ := RoundedGrid.planes_ends R r1 h1 hc.1 hv.1 hc.2.1
  obtain ⟨ny, ay, bY⟩ := RoundedGrid.planes_ends R r2 h2 hc.2.2.1 hv.2 hc.2.2.2
  have sx := RoundedGrid.planes_sorted (rnd := rnd) box.min.1 box.max.1 inner.min.1 inner.max.1
  have sy := RoundedGrid.planes_sorted (rnd := rnd) box.min.2 box.max.2 inner.min.2 inner.max.2
  have one : ∀ u v : ℝ, (v - u) * (1 : ℝ) = v - u := fun u v => mul_one _
  have s1 := outside_lists inner hv sx sy nx ny
    ⟨RoundedGrid.side_mem R r1 h1 (by simp), RoundedGrid.side_mem R r1 h1 (by simp)⟩
    ⟨RoundedGrid.side_mem R r2 h2 (by simp), RoundedGrid.side_mem R r2 h2 (by simp)⟩
    (fun _ => 1) (fun _ => 1) (fun x => x) (fun y => y) one one
  rw [ax, bx, ay, bY] at s1
  simp only [mul_one] at s1
  have key := lists_error box inner V S _ _ hS hi hSd _ _ sx sy nx ny ax bx ay bY fx fy s1
  have hA : 0 < box.area := mul_pos (sub_pos.mpr h1) (sub_pos.mpr h2)
  have hI : 0 ≤ inner.area := mul_nonneg (sub_nonneg.mpr hv.1) (sub_nonneg.mpr hv.2)
  have eM : exactMean f.innerRegionAveragePotential inner box V =
      (f.innerRegionAveragePotential * inner.area + ∫ p in outsideRegion box inner, V p) / box.area := rfl
  rw [eM]
  generalize ((gaps (RoundedGrid.planesInDirection rnd box.min.1 box.max.1 inner.min.1 inner.max.1)).map (fun gx =>
    ((gaps (RoundedGrid.planesInDirection rnd box.min.2 box.max.2 inner.min.2 inner.max.2)).map (fun gy =>
      cellVal inner V gx gy)).sum)).sum = T at *
  generalize (∫ p in outsideRegion box inner, V p) = I at *
  generalize f.innerRegionAveragePotential = av at *
  generalize box.area = A at *
  generalize inner.area = Ai at *
  have step1 : |(av * Ai + T) / A - (av * Ai + I) / A| ≤ S * (((box.max.1 - box.min.1) / 100 + 16 * (u * M)) ^ 2 +
      ((box.max.2 - box.min.2) / 100 + 16 * (u * M)) ^ 2) / 24 * (A - Ai) / A := by
    rw [← sub_div, add_sub_add_left_eq_sub, abs_div, abs_of_pos hA]
    exact div_le_div_of_nonneg_right key (le_of_lt hA)
  have frac : ∀ c : ℝ, 0 ≤ c → c * (A - Ai) / A ≤ c := by
    intro c hc0
    rw [div_le_iff₀ hA]
    exact mul_le_mul_of_nonneg_left (by linarith) hc0
  have f1 := frac (δ + 2 * L * (u * M)) (by positivity)
  have f2 := frac (S * (((box.max.1 - box.min.1) / 100 + 16 * (u * M)) ^ 2 +
      ((box.max.2 - box.min.2) / 100 + 16 * (u * M)) ^ 2) / 24) (by positivity)
  have e2 : S * (((box.max.1 - box.min.1) / 100 + 16 * (u * M)) ^ 2 + ((box.max.2 - box.min.2) / 100 + 16 * (u * M)) ^ 2) / 24 =
      S * ((box.max.1 - box.min.1 + 1600 * (u * M)) ^ 2 + (box.max.2 - box.min.2 + 1600 * (u * M)) ^ 2) / 240000 := by ring
  have tri := abs_sub_le r ((av * Ai + T) / A) ((av * Ai + I) / A)
  rw [e2] at step1 f2
  linarith

/-! ## Line charges -/

theorem laurentSlope_nonneg (a b : ℕ → ℝ) (N : ℕ) (ρ : ℝ) (hρ : 0 < ρ) : 0 ≤ laurentSlope a b N ρ := by
  unfold laurentSlope
  have : 0 ≤ ∑ n ∈ Finset.range N, ((n : ℝ) + 1) * ‖(a (n + 1) : ℂ) + (b (n + 1) : ℂ) * Complex.I‖ / ρ ^ (n + 2) :=
    Finset.sum_nonneg (fun n _ => by positivity)
  positivity

theorem laurent_firstDifferences (a b : ℕ → ℝ) (N : ℕ) (c : ℝ × ℝ) (O : Set (ℝ × ℝ)) (ρ : ℝ) (hρ : 0 < ρ)
    (hdist : ∀ p ∈ O, ρ ≤ ‖toC p - toC c‖) :
    FirstDifferences (fun p => laurent a b N (toC p - toC c)) O (laurentSlope a b N ρ) := by
  intro p u hseg
  have key := laurent_first a b N (toC p - toC c) (toC u) ρ hρ (by
    intro t ht
    have := hdist _ (hseg t ht)
    rwa [toC_line] at this)
  have e1 := toC_line p u c 1
  simp only [one_mul, Complex.ofReal_one] at e1
  simp only
  rw [e1]
  refine le_trans key (mul_le_mul_of_nonneg_left ?_ (laurentSlope_nonneg a b N ρ hρ))
  exact Complex.norm_le_abs_re_add_abs_im (toC u)

theorem line_far {q c p : ℝ × ℝ} {R ρ : ℝ} (hq : ‖toC q - toC c‖ ≤ R) (hp : ρ ≤ ‖toC p - toC c‖) :
    ρ - R ≤ ‖toC p - toC q‖ := by
  have tri : ‖toC p - toC c‖ ≤ ‖toC p - toC q‖ + ‖toC q - toC c‖ := by
    have := norm_add_le (toC p - toC q) (toC q - toC c)
    rwa [sub_add_sub_cancel] at this
  linarith

theorem linePotential_cons (q : ℝ × (ℝ × ℝ)) (l : List (ℝ × (ℝ × ℝ))) (p : ℝ × ℝ) :
    linePotential (q :: l) p = laurent (fun _ => q.1) (fun _ => 0) 0 (toC p - toC q.2) + linePotential l p := by
  unfold linePotential laurent
  simp only [List.map_cons, List.sum_cons, Finset.range_zero, Finset.sum_empty, Complex.zero_re]
  ring

/-- The first and second differences of the potential of line charges away from them. -/
theorem linePotential_differences (charges : List (ℝ × (ℝ × ℝ))) (c : ℝ × ℝ) (box inner : Box ℝ) (R ρ : ℝ) (hRρ : R < ρ)
    (hR : ∀ q ∈ charges, ‖toC q.2 - toC c‖ ≤ R) (hdist : ∀ p ∈ outsideRegion box inner, ρ ≤ ‖toC p - toC c‖) :
    FirstDifferences (linePotential charges) (outsideRegion box inner)
      ((charges.map (fun q => |q.1|)).sum / (2 * Real.pi) * (1 / (ρ - R))) ∧
    SecondDifferences (linePotential charges) (outsideRegion box inner)
      ((charges.map (fun q => |q.1|)).sum / (2 * Real.pi) * (1 / (ρ - R) ^ 2)) := by
  have hpos : 0 < ρ - R := by linarith
  induction charges with
  | nil => constructor <;> intro m u _ <;> simp [linePotential]
  | cons q l ih =>
    obtain ⟨i1, i2⟩ := ih (fun x hx => hR x (by simp [hx]))
    have hfar : ∀ p ∈ outsideRegion box inner, ρ - R ≤ ‖toC p - toC q.2‖ :=
      fun p hp => line_far (hR q (by simp)) (hdist p hp)
    have f1 := laurent_firstDifferences (fun _ => q.1) (fun _ => 0) 0 q.2 _ (ρ - R) hpos hfar
    have f2 := (laurent_facts (fun _ => q.1) (fun _ => 0) 0 q.2 box inner (ρ - R) hpos hfar).2
    constructor
    · intro p u hseg
      have a1 := i1 p u hseg
      have a2 := f1 p u hseg
      rw [linePotential_cons, linePotential_cons]
      simp only [laurentSlope, Finset.range_zero, Finset.sum_empty, add_zero] at a2
      simp only [List.map_cons, List.sum_cons]
      refine le_trans (le_of_eq (congrArg abs (add_sub_add_comm _ _ _ _))) (le_trans (abs_add_le _ _) ?_)
      refine le_trans (add_le_add a2 a1) (le_of_eq ?_)
      ring
    · intro m u hseg
      have a1 := i2 m u hseg
      have a2 := f2 m u hseg
      rw [linePotential_cons, linePotential_cons, linePotential_cons]
      simp only [laurentCurvature, Finset.range_zero, Finset.sum_empty, add_zero] at a2
      simp only [List.map_cons, List.sum_cons]
      generalize laurent (fun _ => q.1) (fun _ => 0) 0 (toC (m.1 + u.1, m.2 + u.2) - toC q.2) = x1 at *
      generalize laurent (fun _ => q.1) (fun _ => 0) 0 (toC (m.1 - u.1, m.2 - u.2) - toC q.2) = x2 at *
      generalize laurent (fun _ => q.1) (fun _ => 0) 0 (toC m - toC q.2) = x3 at *
      generalize linePotential l (m.1 + u.1, m.2 + u.2) = y1 at *
      generalize linePotential l (m.1 - u.1, m.2 - u.2) = y2 at *
      generalize linePotential l m = y3 at *
      rw [show x1 + y1 + (x2 + y2) - 2 * (x3 + y3) = (x1 + x2 - 2 * x3) + (y1 + y2 - 2 * y3) by ring]
      refine le_trans (abs_add_le _ _) (le_trans (add_le_add a2 a1) (le_of_eq ?_))
      ring

/-- **C114, against the field of line charges.** Let the coefficients be the moments up to order `N` of line charges within
distance `R` of the centre, and all points of the box outside the inner region at distance at least `ρ > R`. If the computed
expansion is the exact one up to `δ`, and it and the inner average have size at most `K`, the average computed with
rounding differs from the mean of the exact potential of the charges by at most
`δ + (Σ|q|/2π) ((R/ρ)^(N+1)/((N+1)(1 - R/ρ)) + 2 u M/(ρ - R) + ((W + 1600 u M)² + (H + 1600 u M)²)/(240000 (ρ - R)²))
 + ((1 - u)⁻¹⁰⁰⁰⁰⁰ - 1) K`: the evaluation of the expansion, its truncation, the rounding of the midpoints, the quadrature, and
the rounding of the sums. -/
theorem C114_charges {rnd : ℝ → ℝ} {u M : ℝ} (Rd : Rounding rnd u) (charges : List (ℝ × (ℝ × ℝ))) (N : ℕ)
    (e : Expansion ℝ) (f : FieldReconstruction ℝ)
    (hf : f.ab = lineCoefficients charges f.expansionCenter N) (box inner : Box ℝ)
    (hc : BoxContains box inner) (hv : BoxValid inner) (h1 : box.min.1 < box.max.1) (h2 : box.min.2 < box.max.2)
    (hrb : RepresentableBox rnd box) (hri : RepresentableBox rnd inner) (hM : BoundedBox M box)
    (hd : SidesApart (1000 * (u * M)) box inner) (R ρ : ℝ) (h0 : 0 ≤ R) (hRρ : R < ρ)
    (hR : ∀ q ∈ charges, ‖toC q.2 - toC f.expansionCenter‖ ≤ R)
    (hdist : ∀ p ∈ outsideRegion box inner, ρ ≤ ‖toC p - toC f.expansionCenter‖) (δ K : ℝ) (hδ0 : 0 ≤ δ)
    (hev : ∀ p ∈ outsideRegion box inner, ∃ x y, multipolarExpansion p f.ab f.expansionCenter = .ok x ∧
      e p f.ab f.expansionCenter = .ok y ∧ |y - x| ≤ δ ∧ |y| ≤ K)
    (hK : |f.innerRegionAveragePotential| ≤ K) :
    ∃ r, RoundedGrid.getAveragePotential rnd e f inner box = .ok r ∧
      |r - exactMean f.innerRegionAveragePotential inner box (linePotential charges)| ≤
        δ + (charges.map (fun q => |q.1|)).sum / (2 * Real.pi) *
          ((R / ρ) ^ (N + 1) / ((N + 1) * (1 - R / ρ)) + 2 * (u * M) / (ρ - R) +
            ((box.max.1 - box.min.1 + 1600 * (u * M)) ^ 2 + (box.max.2 - box.min.2 + 1600 * (u * M)) ^ 2) /
              (240000 * (ρ - R) ^ 2)) +
          (((1 - u)⁻¹) ^ 100000 - 1) * K := by
  have hρ : 0 < ρ := lt_of_le_of_lt h0 hRρ
  have hpos : 0 < ρ - R := by linarith
  have q2 : R / ρ < 1 := (div_lt_one hρ).mpr hRρ
  have q3 : 0 < 1 - R / ρ := by linarith
  set Q := (charges.map (fun q => |q.1|)).sum with hQ
  have hQ0 : 0 ≤ Q := by
    apply List.sum_nonneg
    intro x hx
    obtain ⟨q, -, rfl⟩ := List.mem_map.mp hx
    exact abs_nonneg _
  set T := Q / (2 * Real.pi) * ((R / ρ) ^ (N + 1) / ((N + 1) * (1 - R / ρ))) with hT
  have hT0 : 0 ≤ T := by rw [hT]; positivity
  obtain ⟨d1, d2⟩ := linePotential_differences charges f.expansionCenter box inner R ρ hRρ hR hdist
  have hli := linePotential_integrable charges f.expansionCenter box inner R ρ hRρ hR hdist
  have hv' : ∀ p, ∃ y, p ∈ outsideRegion box inner → e p f.ab f.expansionCenter = .ok y ∧
      |y - linePotential charges p| ≤ δ + T ∧ |y| ≤ K := by
    intro p
    by_cases hp : p ∈ outsideRegion box inner
    · obtain ⟨x, y, ex, ey, exy, hy⟩ := hev p hp
      refine ⟨y, fun _ => ⟨ey, ?_, hy⟩⟩
      have hd' := hdist p hp
      obtain ⟨x', hx', hxb⟩ := (C54_expansion charges f.expansionCenter p R hR h0 (lt_of_lt_of_le hRρ hd')).1 N
      rw [← hf, ex] at hx'
      injection hx' with hx'
      subst hx'
      have hxT : |linePotential charges p - x| ≤ T := by
        refine le_trans hxb ?_
        have q1 : R / ‖toC p - toC f.expansionCenter‖ ≤ R / ρ := by gcongr
        have q4 : 0 ≤ R / ‖toC p - toC f.expansionCenter‖ := by positivity
        rw [hT]
        gcongr
      have tri := abs_sub_le y x (linePotential charges p)
      rw [abs_sub_comm] at hxT
      linarith
    · exact ⟨0, fun h => absurd h hp⟩
  choose v hvv using hv'
  obtain ⟨r, er, hr⟩ := C114_general Rd e f box inner hc hv h1 h2 hrb hri hM hd v (linePotential charges) (δ + T) K
    _ _ hvv hK (by positivity) (by positivity) (by positivity) hli d1 d2
  refine ⟨r, er, le_trans hr (le_of_eq ?_)⟩
  generalize ((1 - u)⁻¹) ^ 100000 = G
  congr 1
  rw [hT, ← hQ]
  generalize (R / ρ) ^ (N + 1) / ((N + 1) * (1 - R / ρ)) = t
  field_simp
  ring

/-- **C114 for `double`.** With 53 binary digits, rounded to nearest, sides of size at most `M` and distinct sides at least
`10⁻¹² M` apart. -/
theorem C114_double {M : ℝ} (charges : List (ℝ × (ℝ × ℝ))) (N : ℕ) (e : Expansion ℝ) (f : FieldReconstruction ℝ)
    (hf : f.ab = lineCoefficients charges f.expansionCenter N) (box inner : Box ℝ)
    (hc : BoxContains box inner) (hv : BoxValid inner) (h1 : box.min.1 < box.max.1) (h2 : box.min.2 < box.max.2)
    (hrb : RepresentableBox (Nearest.nearest 52) box) (hri : RepresentableBox (Nearest.nearest 52) inner)
    (hM : BoundedBox M box) (hd : SidesApart (M / 10 ^ 12) box inner) (R ρ : ℝ) (h0 : 0 ≤ R) (hRρ : R < ρ)
    (hR : ∀ q ∈ charges, ‖toC q.2 - toC f.expansionCenter‖ ≤ R)
    (hdist : ∀ p ∈ outsideRegion box inner, ρ ≤ ‖toC p - toC f.expansionCenter‖) (δ K : ℝ) (hδ0 : 0 ≤ δ)
    (hev : ∀ p ∈ outsideRegion box inner, ∃ x y, multipolarExpansion p f.ab f.expansionCenter = .ok x ∧
      e p f.ab f.expansionCenter = .ok y ∧ |y - x| ≤ δ ∧ |y| ≤ K)
    (hK : |f.innerRegionAveragePotential| ≤ K) :
    ∃ r, RoundedGrid.getAveragePotential (Nearest.nearest 52) e f inner box = .ok r ∧
      |r - exactMean f.innerRegionAveragePotential inner box (linePotential charges)| ≤
        δ + (charges.map (fun q => |q.1|)).sum / (2 * Real.pi) *
          ((R / ρ) ^ (N + 1) / ((N + 1) * (1 - R / ρ)) + M / 10 ^ 15 / (ρ - R) +
            ((box.max.1 - box.min.1 + M / 10 ^ 12) ^ 2 + (box.max.2 - box.min.2 + M / 10 ^ 12) ^ 2) /
              (240000 * (ρ - R) ^ 2)) +
          3 / 10 ^ 11 * K := by
  have Rd := Nearest.rounding (𝕜 := ℝ) (p := 52) (by norm_num)
  have hu : (2 : ℝ) ^ (-((52 : ℕ) + 1 : ℤ)) = 1 / 2 ^ 53 := by norm_num
  rw [hu] at Rd
  have hM0 : 0 ≤ M := le_trans (abs_nonneg _) hM.1
  have hK0 : 0 ≤ K := le_trans (abs_nonneg _) hK
  have hpos : 0 < ρ - R := by linarith
  have hle : 1000 * (1 / 2 ^ 53 * M) ≤ M / 10 ^ 12 := by
    rw [show (1000 : ℝ) * (1 / 2 ^ 53 * M) = (1000 / 2 ^ 53) * M by ring, show M / 10 ^ 12 = (1 / 10 ^ 12) * M by ring]
    exact mul_le_mul_of_nonneg_right (by norm_num) hM0
  have hle2 : 1600 * (1 / 2 ^ 53 * M) ≤ M / 10 ^ 12 := by
    rw [show (1600 : ℝ) * (1 / 2 ^ 53 * M) = (1600 / 2 ^ 53) * M by ring, show M / 10 ^ 12 = (1 / 10 ^ 12) * M by ring]
    exact mul_le_mul_of_nonneg_right (by norm_num) hM0
  have hle3 : 2 * (1 / 2 ^ 53 * M) ≤ M / 10 ^ 15 := by
    rw [show (2 : ℝ) * (1 / 2 ^ 53 * M) = (2 / 2 ^ 53) * M by ring, show M / 10 ^ 15 = (1 / 10 ^ 15) * M by ring]
    exact mul_le_mul_of_nonneg_right (by norm_num) hM0
  have hd' : SidesApart (1000 * (1 / 2 ^ 53 * M)) box inner :=
    ⟨fun x hx y hy hxy => le_trans hle (hd.1 x hx y hy hxy), fun x hx y hy hxy => le_trans hle (hd.2 x hx y hy hxy)⟩
  obtain ⟨r, er, hr⟩ := C114_charges Rd charges N e f hf box inner hc hv h1 h2 hrb hri hM hd' R ρ h0 hRρ hR hdist δ K hδ0 hev hK
  refine ⟨r, er, le_trans hr ?_⟩
  have g := growth_le Rd 100000 (by norm_num)
  have g' : (2 : ℝ) * (((100000 : ℕ) : ℝ) * (1 / 2 ^ 53)) ≤ 3 / 10 ^ 11 := by norm_num
  have k1 := mul_le_mul_of_nonneg_right (le_trans g g') hK0
  refine add_le_add (add_le_add (le_refl _) (mul_le_mul_of_nonneg_left (add_le_add (add_le_add (le_refl _) ?_) ?_) ?_)) k1
  · exact div_le_div_of_nonneg_right hle3 hpos.le
  · refine div_le_div_of_nonneg_right (add_le_add ?_ ?_) (by positivity)
    · exact pow_le_pow_left₀ (add_nonneg (sub_nonneg.mpr h1.le) (by positivity)) (by linarith) 2
    · exact pow_le_pow_left₀ (add_nonneg (sub_nonneg.mpr h2.le) (by positivity)) (by linarith) 2
  · refine div_nonneg (List.sum_nonneg ?_) (by positivity)
    intro x hx
    obtain ⟨q, -, rfl⟩ := List.mem_map.mp hx
    exact abs_nonneg _

/-- A unit charge in the middle of the inner region `[1, 2]²`, the box `[0, 4] × [0, 3]`, the expansion evaluated exactly and
rounded to `double`: the hypotheses hold, and the computed average is the exact mean up to `10⁻⁴`. -/
example : ∃ r, RoundedGrid.getAveragePotential (Nearest.nearest 52)
    (fun p ab c => (multipolarExpansion p ab c).bind (fun x => .ok (Nearest.nearest 52 x)))
    ⟨1 / 2, (3 / 2, 3 / 2), lineCoefficients [(1, (3 / 2, 3 / 2))] (3 / 2, 3 / 2) 3, []⟩ ⟨(1, 1), (2, 2)⟩
      (⟨(0, 0), (4, 3)⟩ : Box ℝ) = .ok r ∧
    |r - exactMean (1 / 2) ⟨(1, 1), (2, 2)⟩ ⟨(0, 0), (4, 3)⟩ (linePotential [(1, (3 / 2, 3 / 2))])| ≤ 1 / 10000 := by
  have Rd := Nearest.rounding (𝕜 := ℝ) (p := 52) (by norm_num)
  have hu : (2 : ℝ) ^ (-((52 : ℕ) + 1 : ℤ)) = 1 / 2 ^ 53 := by norm_num
  rw [hu] at Rd
  have r0 : Nearest.nearest 52 (0 : ℝ) = 0 := Nearest.nearest_zero 52
  have r1 : Nearest.nearest 52 (1 : ℝ) = 1 := by simpa using nearest_small (𝕜 := ℝ) 1 (by norm_num)
  have r2 : Nearest.nearest 52 (2 : ℝ) = 2 := by simpa using nearest_small (𝕜 := ℝ) 2 (by norm_num)
  have r3 : Nearest.nearest 52 (3 : ℝ) = 3 := by simpa using nearest_small (𝕜 := ℝ) 3 (by norm_num)
  have r4 : Nearest.nearest 52 (4 : ℝ) = 4 := by simpa using nearest_small (𝕜 := ℝ) 4 (by norm_num)
  have rn : Nearest.nearest 52 (-1 : ℝ) = -1 := by rw [Nearest.nearest_neg, r1]
  have hdist : ∀ p ∈ outsideRegion ⟨(0, 0), (4, 3)⟩ ⟨(1, 1), (2, 2)⟩,
      (1 / 2 : ℝ) ≤ ‖toC p - toC (3 / 2, 3 / 2)‖ ∧ ‖toC p - toC (3 / 2, 3 / 2)‖ ≤ 4 := by
    intro p hp
    have hre := Complex.abs_re_le_norm (toC p - toC (3 / 2, 3 / 2))
    have him := Complex.abs_im_le_norm (toC p - toC (3 / 2, 3 / 2))
    have hno := Complex.norm_le_abs_re_add_abs_im (toC p - toC (3 / 2, 3 / 2))
    simp only [toC, Complex.sub_re, Complex.sub_im] at hre him hno ⊢
    obtain ⟨⟨⟨p1, p2⟩, p3, p4⟩, hn⟩ := hp
    simp only at p1 p2 p3 p4
    constructor
    · by_contra hcon
      rw [not_le] at hcon
      apply hn
      have a1 := abs_lt.mp (lt_of_le_of_lt hre hcon)
      have a2 := abs_lt.mp (lt_of_le_of_lt him hcon)
      exact ⟨⟨by simp only; linarith, by simp only; linarith⟩, by simp only; linarith, by simp only; linarith⟩
    · have b1 : |p.1 - 3 / 2| ≤ 5 / 2 := abs_le.mpr ⟨by linarith, by linarith⟩
      have b2 : |p.2 - 3 / 2| ≤ 3 / 2 := abs_le.mpr ⟨by linarith, by linarith⟩
      linarith
  have hpi : (3 : ℝ) < Real.pi := Real.pi_gt_three
  obtain ⟨r, er, hr⟩ := C114_double (M := 4) [(1, (3 / 2, 3 / 2))] 3
    (fun p ab c => (multipolarExpansion p ab c).bind (fun x => .ok (Nearest.nearest 52 x)))
    ⟨1 / 2, (3 / 2, 3 / 2), lineCoefficients [(1, (3 / 2, 3 / 2))] (3 / 2, 3 / 2) 3, []⟩ rfl ⟨(0, 0), (4, 3)⟩ ⟨(1, 1), (2, 2)⟩
    (by unfold BoxContains; norm_num) (by unfold BoxValid; norm_num) (by norm_num) (by norm_num) ⟨r0, r4, r0, r3⟩
    ⟨r1, r2, r1, r2⟩ (by unfold BoundedBox; norm_num)
    (by
      refine ⟨?_, ?_⟩ <;> intro x hx y hy hxy <;> simp only [List.mem_cons, List.not_mem_nil, or_false] at hx hy <;>
      rcases hx with rfl | rfl | rfl | rfl <;> rcases hy with rfl | rfl | rfl | rfl <;> revert hxy <;> norm_num)
    0 (1 / 2) (le_refl _) (by norm_num) (by
      intro q hq
      rw [List.mem_singleton.mp hq]
      simp) (fun p hp => (hdist p hp).1) (1 / 2 ^ 53) 1 (by norm_num) (by
      intro p hp
      obtain ⟨d1, d2⟩ := hdist p hp
      obtain ⟨x, hx, hxb⟩ := (C54_expansion [(1, (3 / 2, 3 / 2))] (3 / 2, 3 / 2) p 0 (by
        intro q hq
        rw [List.mem_singleton.mp hq]
        simp) (le_refl _) (by linarith)).1 3
      have hxe : x = linePotential [(1, (3 / 2, 3 / 2))] p := by
        have : |linePotential [(1, (3 / 2, 3 / 2))] p - x| ≤ 0 := by simpa using hxb
        linarith [abs_nonpos_iff.mp this]
      have hx1 : |x| ≤ 1 := by
        rw [hxe]
        unfold linePotential
        simp only [List.map_cons, List.map_nil, List.sum_cons, List.sum_nil, add_zero, one_mul]
        have l1 := Real.log_le_sub_one_of_pos (lt_of_lt_of_le (by norm_num) d1)
        have l2 := Real.one_sub_inv_le_log_of_pos (lt_of_lt_of_le (by norm_num) d1)
        have hinv : ‖toC p - toC (3 / 2, 3 / 2)‖⁻¹ ≤ 2 := by
          rw [inv_le_comm₀ (lt_of_lt_of_le (by norm_num) d1) (by norm_num)]
          linarith
        have hl : |Real.log ‖toC p - toC (3 / 2, 3 / 2)‖| ≤ 3 := abs_le.mpr ⟨by linarith, by linarith⟩
        rw [abs_mul, abs_neg, abs_of_pos (by positivity), div_mul_eq_mul_div, one_mul, div_le_one (by positivity)]
        linarith
      refine ⟨x, Nearest.nearest 52 x, hx, ?_, ?_, ?_⟩
      · simp only
        rw [hx]
        rfl
      · refine le_trans (Rd.err x) ?_
        have := mul_le_mul_of_nonneg_left hx1 (by norm_num : (0 : ℝ) ≤ 1 / 2 ^ 53)
        linarith
      · obtain ⟨a1, a2⟩ := abs_le.mp hx1
        have k1 := Rd.mono _ _ a1
        have k2 := Rd.mono _ _ a2
        rw [rn] at k1
        rw [r1] at k2
        exact abs_le.mpr ⟨k1, k2⟩)
    (by norm_num [abs_of_pos])
  refine ⟨r, er, le_trans hr ?_⟩
  have hQ : (1 : ℝ) / (2 * Real.pi) ≤ 1 / 6 := by
    apply div_le_div_of_nonneg_left (by norm_num) (by norm_num) (by linarith)
  simp only [List.map_cons, List.map_nil, List.sum_cons, List.sum_nil, abs_one, add_zero]
  refine le_trans (add_le_add (add_le_add (le_refl _) (mul_le_mul_of_nonneg_right hQ (by norm_num))) (le_refl _)) ?_
  norm_num

end Tulip.Props
