import Verif.Props.LimitFields
import Mathlib.MeasureTheory.Integral.IntervalIntegral.AbsolutelyContinuousFun
import Mathlib.MeasureTheory.Integral.Prod

/-!
# C101 and C102 for a capacitor: the limit is the exact solution
-/

namespace Tulip.Props
open Tulip Tulip.Spec MeasureTheory Set

theorem square_triangles (x : ℝ × ℝ) : (x ∈ triangle square lower ↔ 0 ≤ x.2 ∧ x.2 ≤ x.1 ∧ x.1 ≤ 1) ∧
    (x ∈ triangle square upper ↔ 0 ≤ x.1 ∧ x.1 ≤ x.2 ∧ x.2 ≤ 1) := by
  have hd : square.det lower ≠ 0 := by rw [square_det.1]; exact one_ne_zero
  have hd' : square.det upper ≠ 0 := by rw [square_det.2]; exact one_ne_zero
  obtain ⟨h1, h2, h3⟩ := bary_verts (T := square) (t := lower) hd x
  obtain ⟨k1, k2, k3⟩ := bary_verts (T := square) (t := upper) hd' x
  rw [square_det.1] at h1 h2 h3
  rw [square_det.2] at k1 k2 k3
  rw [mem_triangle hd, mem_triangle hd', h1, h2, h3, k1, k2, k3]
  simp only [planeDet, square, lower, upper]
  constructor
  · simp
    constructor <;> rintro ⟨a, b, c⟩ <;> exact ⟨by linarith, by linarith, by linarith⟩
  · simp
    constructor <;> rintro ⟨a, b, c⟩ <;> exact ⟨by linarith, by linarith, by linarith⟩

theorem square_covered : covered square = Icc 0 1 ×ˢ Icc 0 1 := by
  ext x
  have := square_triangles x
  simp only [covered, mem_setOf_eq, mem_prod, mem_Icc]
  constructor
  · rintro ⟨t, ht, hx⟩
    rcases square_tris ht with rfl | rfl
    · have := this.1.mp hx
      exact ⟨⟨by linarith, by linarith⟩, by linarith, by linarith⟩
    · have := this.2.mp hx
      exact ⟨⟨by linarith, by linarith⟩, by linarith, by linarith⟩
  · rintro ⟨⟨a, b⟩, c, d⟩
    rcases le_total x.2 x.1 with h | h
    · exact ⟨lower, List.mem_cons_self, this.1.mpr ⟨c, h, b⟩⟩
    · exact ⟨upper, List.mem_cons_of_mem _ List.mem_cons_self, this.2.mpr ⟨a, h, d⟩⟩

/-- A function with bounded slopes on the unit square that has the value `p` on the left and `q` on the right: its mean slope
to the right is `q - p`. -/
theorem mean_slope {w : ℝ × ℝ → ℝ} {L p q : ℝ} (h : Slopes square L w) (hL : 0 ≤ L) (h0 : ∀ y ∈ Icc (0 : ℝ) 1, w (0, y) = p) (h1 : ∀ y ∈ Icc (0 : ℝ) 1, w (1, y) = q) :
    IntegrableOn (fun x => fderiv ℝ w x (1, 0)) (covered square) ∧ ∫ x in covered square, fderiv ℝ w x (1, 0) = q - p := by
  have hint : IntegrableOn (fun x => fderiv ℝ w x (1, 0)) (covered square) := by
    refine Measure.integrableOn_of_bounded (M := L) (covered_closed square).measure_lt_top.ne (fderiv_measurable w _).aestronglyMeasurable ?_
    refine slopes_ae (Filter.Eventually.of_forall fun x t ht hx => ?_)
    exact (coords_le (fderiv ℝ w x)).1.trans (slopes_fderiv h hL ht hx)
  refine ⟨hint, ?_⟩
  have hae := slopes_ae (slopes_differentiable h hL)
  rw [square_covered, Measure.volume_eq_prod, ← Measure.prod_restrict] at hae
  rw [square_covered, Measure.volume_eq_prod] at hint ⊢
  rw [IntegrableOn, ← Measure.prod_restrict] at hint
  rw [← Measure.prod_restrict, integral_prod_symm _ hint]
  have hswap : ∀ᵐ y ∂(volume.restrict (Icc (0 : ℝ) 1)), ∀ᵐ x ∂(volume.restrict (Icc (0 : ℝ) 1)), DifferentiableAt ℝ w (x, y) := by
    have h2 := Measure.ae_ae_of_ae_prod (Measure.measurePreserving_swap.quasiMeasurePreserving.ae hae)
    exact h2
  have hin : ∀ᵐ y ∂(volume.restrict (Icc (0 : ℝ) 1)), ∫ x in Icc (0 : ℝ) 1, fderiv ℝ w (x, y) (1, 0) = q - p := by
    filter_upwards [hswap, ae_restrict_mem measurableSet_Icc] with y hy hy01
    have hl : LipschitzOnWith ⟨L, hL⟩ (fun x => w (x, y)) (uIcc 0 1) := by
      refine LipschitzOnWith.of_dist_le_mul fun x hx x' hx' => ?_
      rw [uIcc_of_le zero_le_one] at hx hx'
      have : segment ℝ (x, y) (x', y) ⊆ covered square := by
        rw [square_covered]
        exact ((convex_Icc 0 1).prod (convex_Icc 0 1)).segment_subset ⟨hx, hy01⟩ ⟨hx', hy01⟩
      have := h _ _ this
      rw [Real.dist_eq]
      refine this.trans (le_of_eq ?_)
      congr 1
      simp [Prod.dist_eq]
    rw [← h1 y hy01, ← h0 y hy01, ← hl.absolutelyContinuousOnInterval.integral_deriv_eq_sub, intervalIntegral.integral_of_le zero_le_one,
      ← integral_Icc_eq_integral_Ioc]
    refine integral_congr_ae ?_
    filter_upwards [hy] with x hx
    have hd : HasDerivAt (fun x => w (x, y)) (fderiv ℝ w (x, y) (1, 0)) x :=
      hx.hasFDerivAt.comp_hasDerivAt x ((hasDerivAt_id x).prodMk (hasDerivAt_const x y))
    exact hd.deriv.symm
  rw [integral_congr_ae hin]
  simp

/-- the potential of a capacitor whose plates are the left and the right side -/
def capacitorPotential (V : Int → ℝ) (x : ℝ × ℝ) : ℝ := V 1 + (V 2 - V 1) * x.1

theorem capacitor_boundary {x : ℝ × ℝ} : (x ∈ boundaryPart square 1 ↔ x.1 = 0 ∧ x.2 ∈ Icc 0 1) ∧ (x ∈ boundaryPart square 2 ↔ x.1 = 1 ∧ x.2 ∈ Icc 0 1) := by
  have e1 : x ∈ boundaryPart square 1 ↔ x ∈ segment ℝ ((0, 1) : ℝ × ℝ) (0, 0) := by
    constructor
    · rintro ⟨s, hs, ha, hx⟩
      rcases square_segs hs with rfl | rfl | rfl | rfl
      · exact hx
      all_goals exact absurd ha (by norm_num)
    · exact fun hx => ⟨_, List.mem_cons_self, rfl, hx⟩
  have e2 : x ∈ boundaryPart square 2 ↔ x ∈ segment ℝ ((1, 0) : ℝ × ℝ) (1, 1) := by
    constructor
    · rintro ⟨s, hs, ha, hx⟩
      rcases square_segs hs with rfl | rfl | rfl | rfl
      · exact absurd ha (by norm_num)
      · exact hx
      all_goals exact absurd ha (by norm_num)
    · exact fun hx => ⟨_, List.mem_cons_of_mem _ List.mem_cons_self, rfl, hx⟩
  rw [e1, e2]
  constructor
  · constructor
    · rintro ⟨a, b, ha, hb, hab, rfl⟩
      simp
      exact ⟨ha, by linarith⟩
    · rintro ⟨h, h0, h1⟩
      exact ⟨x.2, 1 - x.2, h0, by linarith, by ring, Prod.ext (by simp [h]) (by simp)⟩
  · constructor
    · rintro ⟨a, b, ha, hb, hab, rfl⟩
      simp
      exact ⟨hab, hb, by linarith⟩
    · rintro ⟨h, h0, h1⟩
      exact ⟨1 - x.2, x.2, by linarith, h0, by ring, Prod.ext (by simp [h]) (by simp)⟩

theorem capacitor_potential (V : Int → ℝ) : Potential square squareMats V (capacitorPotential V) where
  slopes := by
    refine ⟨|V 2 - V 1|, fun x y _ => ?_⟩
    have e : capacitorPotential V x - capacitorPotential V y = (V 2 - V 1) * (x.1 - y.1) := by
      unfold capacitorPotential
      ring
    rw [e, abs_mul]
    refine mul_le_mul_of_nonneg_left ?_ (abs_nonneg _)
    rw [← Real.dist_eq]
    exact le_max_left _ _
  conductors c hc x hx := by
    simp only [squareMats, List.mem_cons, List.not_mem_nil, or_false] at hc
    rcases hc with rfl | rfl
    · rw [capacitorPotential, (capacitor_boundary.1.mp hx).1]
      ring
    · rw [capacitorPotential, (capacitor_boundary.2.mp hx).1]
      ring

theorem capacitor_gradSq (V : Int → ℝ) (x : ℝ × ℝ) : gradSq (capacitorPotential V) x = (V 2 - V 1) ^ 2 := by
  have h : HasFDerivAt (capacitorPotential V) ((V 2 - V 1) • ContinuousLinearMap.fst ℝ ℝ ℝ) x := by
    have := ((ContinuousLinearMap.fst ℝ ℝ ℝ).hasFDerivAt (x := x)).const_smul (V 2 - V 1)
    exact this.const_add (V 1)
  unfold gradSq
  rw [h.fderiv]
  simp

/-- Sum over the triangles. -/
theorem square_integral {F : ℝ × ℝ → ℝ} (hi : IntegrableOn F (covered square)) :
    (square.tris.map (fun t => declaredEps squareMats true t.attr / 2 * ∫ x in triangle square t, F x)).sum = 2⁻¹ * ∫ x in covered square, F x := by
  rw [integral_covered square_embedded.apart (covered_closed square).isClosed.measurableSet le_rfl hi, ← List.sum_map_mul_left]
  refine congrArg List.sum (List.map_congr_left fun t ht => ?_)
  have hsub : covered square ∩ interior (triangle square t) = interior (triangle square t) :=
    inter_eq_right.mpr fun x hx => ⟨t, ht, interior_subset hx⟩
  rw [hsub, integral_interior (triangle_convex t) (triangle_closed t), show declaredEps squareMats true t.attr = 1 from rfl]
  ring

theorem square_volume : ∫ _ in covered square, (1 : ℝ) = 1 := by
  rw [square_covered, Measure.volume_eq_prod]
  rw [setIntegral_const, measureReal_def, Measure.prod_prod]
  simp

/-- The hypotheses of C102, part 3, hold for a capacitor: with the dielectric ignored the linear potential is the one of
least energy. -/
theorem capacitor_least (V : Int → ℝ) : potentialEnergy square (declaredEps squareMats true) (capacitorPotential V) = (V 2 - V 1) ^ 2 / 2 ∧
    ∀ W ∈ potentialEnergies square squareMats true V, potentialEnergy square (declaredEps squareMats true) (capacitorPotential V) ≤ W := by
  obtain ⟨L, hL, hsl⟩ := potential_slopes (capacitor_potential V)
  have e : potentialEnergy square (declaredEps squareMats true) (capacitorPotential V) = (V 2 - V 1) ^ 2 / 2 := by
    refine (square_integral (slopes_integrable hsl hL)).trans ?_
    rw [integral_congr_ae (Filter.Eventually.of_forall (capacitor_gradSq V))]
    have : ∫ _ in covered square, (V 2 - V 1) ^ 2 = (V 2 - V 1) ^ 2 * ∫ _ in covered square, (1 : ℝ) := by
      rw [← integral_const_mul]
      simp
    rw [this, square_volume]
    ring
  refine ⟨e, ?_⟩
  rintro W ⟨w, hw, rfl⟩
  rw [e]
  obtain ⟨M, hM, hwl⟩ := potential_slopes hw
  obtain ⟨i1, i2⟩ := mean_slope hwl hM (p := V 1) (q := V 2)
    (fun y hy => hw.conductors ⟨"Conductor_0", 1, 0⟩ List.mem_cons_self _ (capacitor_boundary.1.mpr ⟨rfl, hy⟩))
    (fun y hy => hw.conductors ⟨"Conductor_1", 2, 0⟩ (List.mem_cons_of_mem _ List.mem_cons_self) _ (capacitor_boundary.2.mpr ⟨rfl, hy⟩))
  have hi := slopes_integrable hwl hM
  have hle : ∫ x in covered square, (2 * (V 2 - V 1) * fderiv ℝ w x (1, 0) - (V 2 - V 1) ^ 2 * 1) ≤ ∫ x in covered square, gradSq w x := by
    refine integral_mono ((i1.const_mul _).sub (integrableOn_const (covered_closed square).measure_lt_top.ne)) hi fun x => ?_
    unfold gradSq
    nlinarith [sq_nonneg (fderiv ℝ w x (1, 0) - (V 2 - V 1)), sq_nonneg (fderiv ℝ w x (0, 1))]
  rw [integral_sub (i1.const_mul _) (integrableOn_const (covered_closed square).measure_lt_top.ne), integral_const_mul, integral_const_mul, i2,
    square_volume] at hle
  refine le_trans ?_ (square_integral hi).ge
  nlinarith

/-- The runs of the capacitor converge: energies to half the square of the voltage, fields to the exact one. -/
example (V : Int → ℝ) (flatness : ℝ) {ε : ℝ} (hε : 0 < ε) :
    ∃ size > 0, ∀ (T : Triangulation ℝ) (A : Analytic ℝ) (P : LinSolver ℝ) (S : Shapes T) (Q : Rule ℝ) (p : Nat) (s : Solver (T.femWith S Q)),
      ExactSolver P → ClosedRun T A P squareMats true S Q p s → SameCrossSection square T → Fine T flatness size →
      ∃ u, Finds P squareMats s V u ∧ potentialEnergy square (declaredEps squareMats true) (fun x => u x - capacitorPotential V x) ≤ ε :=
  C102_solution square_numbering rfl square_sensible.permittivities square_embedded true V (capacitor_potential V) (capacitor_least V).2 flatness hε

/-- There are such runs, of any order. -/
example (V : Int → ℝ) {p : Nat} (hp : 1 ≤ p) {ε : ℝ} (hε : 0 < ε) : ∃ (T : Triangulation ℝ) (S : Shapes T) (Q : Rule ℝ) (s : Solver (T.femWith S Q)) (u : ℝ × ℝ → ℝ),
    SameCrossSection square T ∧ ClosedRun T realNothing inverseReal squareMats true S Q p s ∧ Finds inverseReal squareMats s V u ∧
      potentialEnergy square (declaredEps squareMats true) (fun x => u x - capacitorPotential V x) ≤ ε := by
  obtain ⟨κ, hκ⟩ := fine_meshes ⟨square_proper, square_embedded, square_sensible, square_joined, square_apart⟩
  obtain ⟨δ, hδ, key⟩ := C102_solution square_numbering rfl square_sensible.permittivities square_embedded true V (capacitor_potential V)
    (capacitor_least V).2 κ hε
  obtain ⟨T', h1, h2, h3⟩ := hκ δ hδ
  obtain ⟨S, Q, s, h4⟩ := closedRun_exists square_numbering h1.proper h1.embedded h1.sensible h1.joined h1.apart realNothing inverseReal true hp
  obtain ⟨u, e1, e2⟩ := key T' _ _ S Q p s inverseReal_exact h4 h2 h3
  exact ⟨T', S, Q, s, u, h2, h4, e1, e2⟩

example (V : Int → ℝ) : sInf (potentialEnergies square squareMats true V) = (V 2 - V 1) ^ 2 / 2 := by
  have h : (V 2 - V 1) ^ 2 / 2 ∈ potentialEnergies square squareMats true V := ⟨_, capacitor_potential V, (capacitor_least V).1.symm⟩
  refine le_antisymm (csInf_le (energies_below square_sensible.permittivities square true V) h) (le_csInf ⟨_, h⟩ fun W hW => ?_)
  rw [← (capacitor_least V).1]
  exact (capacitor_least V).2 W hW

end Tulip.Props
