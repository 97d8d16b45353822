import Verif.Proofs.InterpolationLimit
import Verif.Proofs.PlanePolynomial
import Verif.Proofs.ElementPlates

/-!
# Discrete fields on finer and finer meshes
-/

set_option linter.unusedSectionVars false

namespace Tulip
open MeasureTheory Set Spec MvPolynomial

section
variable {𝕜 : Type} [Field 𝕜] [LinearOrder 𝕜] [IsStrictOrderedRing 𝕜] {T : Triangulation 𝕜} {Q : Rule 𝕜} {p : Nat} {mats : Materials 𝕜}
  {A : Analytic 𝕜} {P R : Tri T.nv → MvPolynomial (Fin 2) 𝕜} {D : Tri T.nv → MvPolynomial (Fin 2) 𝕜 × MvPolynomial (Fin 2) 𝕜} {V : Int → 𝕜} {b : Bool}

/-- The discrete field of a closed model has the least energy among the functions of its order. -/
theorem galerkin_least (hT : Proper T) (hA : Adequate Q p) (hm : ∀ d ∈ mats.dielectrics, 0 < d.relativePermittivity)
    (ho : mats.openBoundaries = []) (hG : GalerkinField T A Q p mats b V P D) (hR : PiecewisePolynomial T p R)
    (hRV : ∀ c ∈ mats.pecs, ConstantOn T R c.tag (V c.tag)) :
    fieldProduct T Q (declaredEps mats b) (fun t => T.gradient t (P t)) (fun t => T.gradient t (P t)) ≤
      fieldProduct T Q (declaredEps mats b) (fun t => T.gradient t (R t)) (fun t => T.gradient t (R t)) := by
  have horth := hG.equations _ (hR.sub hG.potential) fun c hc => (hRV c hc).sub (hG.conductors c hc)
  rw [ho] at horth
  have habs : absorbed T A Q (([] : List OpenBoundary).map OpenBoundary.tag) (fun t => R t - P t) P = 0 := by
    simp [absorbed]
  rw [habs, add_zero] at horth
  have hsq := fieldProduct_square (Q := Q) (declaredEps mats b) (fun t => T.gradient t (R t)) (fun t => T.gradient t (P t))
  have hg : (fun t => T.gradient t (R t - P t)) =
      fun t => ((T.gradient t (R t)).1 - (T.gradient t (P t)).1, (T.gradient t (R t)).2 - (T.gradient t (P t)).2) := funext fun t => gradient_sub t _ _
  rw [← hg, horth, mul_zero, add_zero] at hsq
  rw [hsq]
  exact le_add_of_nonneg_right (fieldProduct_nonneg hT hA.tri (declaredEps_pos hm b) _)

end

section
variable {T T' : Triangulation ℝ} {Q : Rule ℝ} {p : Nat} {mats : Materials ℝ} {A : Analytic ℝ} {P : Tri T.nv → MvPolynomial (Fin 2) ℝ}
  {D : Tri T.nv → MvPolynomial (Fin 2) ℝ × MvPolynomial (Fin 2) ℝ} {V : Int → ℝ} {b : Bool} {v : ℝ × ℝ → ℝ}

theorem interpolation_piecewise (hT : Proper T) (u : Fin T.nv → ℝ) : PiecewisePolynomial T 1 (fun t => linearOn t u) where
  degree t _ := totalDegree_linearOn t u
  continuous t ht t' ht' v w h1 h2 h3 h4 x y hxy := by
    rw [eval_linearOn_side (hT.area t ht).ne' h1 h2 _ hxy, eval_linearOn_side (hT.area t' ht').ne' h3 h4 _ hxy]

theorem interpolation_constant (hT : Proper T) {tag : Int} {c : ℝ} (hv : ∀ x ∈ boundaryPart T tag, v x = c) :
    ConstantOn T (fun t => linearOn t (fun w => v (T.coord w))) tag c := by
  intro s hs e t ht hst x y hxy
  obtain ⟨va, vb⟩ := side_vertices hst
  rw [eval_linearOn_side (hT.area t ht).ne' va vb _ hxy, hv _ ⟨s, hs, e, left_mem_segment ℝ _ _⟩, hv _ ⟨s, hs, e, right_mem_segment ℝ _ _⟩,
    ← add_mul, hxy, one_mul]

theorem interpolation_energy (hT : Proper T) {m : Nat} (hQ : ExactRule Q m) (eps : Int → ℝ) :
    2⁻¹ * fieldProduct T Q eps (fun t => T.gradient t (linearOn t (fun w => v (T.coord w)))) (fun t => T.gradient t (linearOn t (fun w => v (T.coord w)))) =
      (T.tris.map (fun t => eps t.attr / 2 * (volume.real (triangle T t) * interpolated T v t))).sum := by
  unfold fieldProduct
  rw [← List.sum_map_mul_left]
  refine congrArg List.sum (List.map_congr_left fun t ht => ?_)
  have hd := hT.area t ht
  have hw := hQ.tri 0 0 (Nat.zero_le _)
  simp only [pow_zero, mul_one, Nat.factorial_zero, Nat.cast_one, add_zero, zero_add] at hw
  dsimp only
  rw [gradient_linearOn hd.ne', triangle_area hd]
  have : triIntegral Q (C (vectorAt (T.gradHat t) (fun w => v (T.coord w))).1 * C (vectorAt (T.gradHat t) (fun w => v (T.coord w))).1 +
      C (vectorAt (T.gradHat t) (fun w => v (T.coord w))).2 * C (vectorAt (T.gradHat t) (fun w => v (T.coord w))).2) = interpolated T v t := by
    rw [← C_mul, ← C_mul, ← C_add]
    unfold triIntegral interpolated
    simp only [eval_C, List.sum_map_mul_right]
    rw [hw]
    norm_num [Nat.factorial]
    ring
  rw [this]
  ring

/-- **Upper bound.** -/
theorem galerkin_upper (ha' : Apart T') (hp : Potential T' mats V v) (hm : ∀ d ∈ mats.dielectrics, 0 < d.relativePermittivity)
    (ho : mats.openBoundaries = []) (b : Bool) (κ : ℝ) {ε : ℝ} (hε : 0 < ε) :
    ∃ δ > 0, ∀ (T : Triangulation ℝ) (A : Analytic ℝ) (Q : Rule ℝ) (p : Nat) (P : Tri T.nv → MvPolynomial (Fin 2) ℝ)
      (D : Tri T.nv → MvPolynomial (Fin 2) ℝ × MvPolynomial (Fin 2) ℝ), Proper T → Apart T → Fine T κ δ → SameCrossSection T T' →
      1 ≤ p → Adequate Q p → ExactRule Q (2 * p) → GalerkinField T A Q p mats b V P D →
      2⁻¹ * fieldProduct T Q (declaredEps mats b) (fun t => T.gradient t (P t)) (fun t => T.gradient t (P t)) ≤
        potentialEnergy T' (declaredEps mats b) v + ε := by
  obtain ⟨L, hL, hsl⟩ := potential_slopes hp
  obtain ⟨δ, hδ, h⟩ := interpolation_limit ha' hsl hL (declaredEps mats b) (le_max_right κ 0) hε
  refine ⟨δ, hδ, fun T A Q p P D hT ha hF hs hp1 hA hQ hG => ?_⟩
  have hF' : Fine T (max κ 0) δ := fun t ht v w h1 h2 => ⟨(hF t ht v w h1 h2).1, (hF t ht v w h1 h2).2.trans
    (mul_le_mul_of_nonneg_right (le_max_left _ _) (hT.area t ht).le)⟩
  have hint := (sub_lt_iff_lt_add'.mp (abs_lt.mp (h T hT ha hF' hs)).2).le
  refine le_trans ?_ hint
  rw [← interpolation_energy hT hQ]
  refine mul_le_mul_of_nonneg_left (galerkin_least hT hA hm ho hG ((interpolation_piecewise hT _).mono hp1) fun c hc => ?_) (by norm_num)
  refine interpolation_constant hT fun x hx => hp.conductors c hc x ?_
  rwa [← hs.boundary]

/-- Points that two triangles have in common. -/
theorem common_points (hT : Proper T) (hE : Embedded T) {t t' : Tri T.nv} (ht : t ∈ T.tris) (ht' : t' ∈ T.tris) (hne : t ≠ t') {x : ℝ × ℝ}
    (hx : x ∈ triangle T t) (hx' : x ∈ triangle T t') : ∃ v w, IsVertex t v ∧ IsVertex t w ∧ IsVertex t' v ∧ IsVertex t' w ∧
      x ∈ segment ℝ (T.coord v) (T.coord w) := by
  have hm := hE.meet t ht t' ht' x hx hx'
  set S : Set (Fin T.nv) := {v | IsVertex t v ∧ IsVertex t' v} with hS
  have hpair : ∃ i j, S ⊆ {i, j} := by
    by_contra hno
    have hall : ∀ k, IsVertex t k → IsVertex t' k := by
      intro k hk
      by_contra hk'
      have hkS : ∀ w ∈ S, w ≠ k := fun w hw e => hk' (e ▸ hw.2)
      rcases hk with rfl | rfl | rfl
      · exact hno ⟨t.b, t.c, fun w hw => by
          rcases hw.1 with h | h | h
          · exact absurd h (hkS w hw)
          · exact Or.inl h
          · exact Or.inr h⟩
      · exact hno ⟨t.a, t.c, fun w hw => by
          rcases hw.1 with h | h | h
          · exact Or.inl h
          · exact absurd h (hkS w hw)
          · exact Or.inr h⟩
      · exact hno ⟨t.a, t.b, fun w hw => by
          rcases hw.1 with h | h | h
          · exact Or.inl h
          · exact Or.inr h
          · exact absurd h (hkS w hw)⟩
    have hsub : triangle T t ⊆ triangle T t' := by
      refine convexHull_min (fun z hz => ?_) (triangle_convex t')
      rcases hz with rfl | rfl | rfl
      · exact vertex_mem (hall _ (.inl rfl))
      · exact vertex_mem (hall _ (.inr (.inl rfl)))
      · exact vertex_mem (hall _ (.inr (.inr rfl)))
    have hd : Disjoint (interior (triangle T t)) (interior (triangle T t')) :=
      haveI : Std.Symm (fun t t' : Tri T.nv => Disjoint (interior (triangle T t)) (interior (triangle T t'))) := ⟨fun _ _ h => h.symm⟩
      hE.apart.forall ht ht' hne
    obtain ⟨z, hz⟩ := triangle_interior (hT.area t ht)
    exact Set.disjoint_left.mp hd hz (interior_mono hsub hz)
  obtain ⟨i, j, hij⟩ := hpair
  rcases Set.subset_pair_iff_eq.mp hij with e | e | e | e <;> rw [e] at hm
  · simp at hm
  · have hi : i ∈ S := e ▸ rfl
    refine ⟨i, i, hi.1, hi.1, hi.2, hi.2, ?_⟩
    rwa [Set.image_singleton, convexHull_singleton, ← segment_same ℝ] at hm
  · have hi : j ∈ S := e ▸ rfl
    refine ⟨j, j, hi.1, hi.1, hi.2, hi.2, ?_⟩
    rwa [Set.image_singleton, convexHull_singleton, ← segment_same ℝ] at hm
  · have hi : i ∈ S := e ▸ Or.inl rfl
    have hj : j ∈ S := e ▸ Or.inr rfl
    refine ⟨i, j, hi.1, hj.1, hi.2, hj.2, ?_⟩
    rwa [Set.image_pair, convexHull_pair] at hm

theorem polyAt_side {t : Tri T.nv} (hd : T.det t ≠ 0) {v w : Fin T.nv} (hv : IsVertex t v) (hw : IsVertex t w) {x y : ℝ} (hxy : x + y = 1)
    (G : MvPolynomial (Fin 2) ℝ) : polyAt (toPlane T t G) (x • T.coord v + y • T.coord w) = eval (Triangulation.onSide t v w x y) G := by
  rw [← toPlane_eval hd hv hw hxy]
  rfl

/-- A function made of smooth pieces. -/
theorem pieces_slopes {v : ℝ × ℝ → ℝ} {f : Tri T.nv → ℝ × ℝ → ℝ} (hf : ∀ t ∈ T.tris, ContDiff ℝ 1 (f t)) (hv : ∀ t ∈ T.tris, ∀ x ∈ triangle T t, v x = f t x) :
    ∃ L, ∀ x y, segment ℝ x y ⊆ covered T → |v x - v y| ≤ L * dist x y := by
  classical
  obtain ⟨L, hL0, hL⟩ : ∃ L, 0 ≤ L ∧ ∀ q ∈ T.tris, ∀ x ∈ triangle T q, ‖fderiv ℝ (f q) x‖ ≤ L := by
    have : ∀ q ∈ T.tris, ∃ L, ∀ x ∈ triangle T q, ‖fderiv ℝ (f q) x‖ ≤ L := fun q hq =>
      (triangle_compact q).exists_bound_of_continuousOn ((hf q hq).continuous_fderiv one_ne_zero).continuousOn
    choose! L hL using this
    refine ⟨(T.tris.map (fun q => |L q|)).sum, List.sum_nonneg (by simp), fun q hq x hx => ?_⟩
    exact (hL q hq x hx).trans ((le_abs_self _).trans (le_sum_of_mem (F := fun q => |L q|) (fun _ _ => abs_nonneg _) hq))
  refine ⟨L, fun x y hxy => ?_⟩
  rw [abs_sub_comm, dist_comm, dist_eq_norm]
  refine covered_lipschitz hL0 (fun q => triangle T q) T.tris.toFinset (fun q => triangle_closed q) (fun q hq x hx y hy => ?_) ?_
  · have hq := List.mem_toFinset.mp hq
    rw [hv q hq x hx, hv q hq y hy]
    exact (triangle_convex q).norm_image_sub_le_of_norm_fderiv_le (𝕜 := ℝ)
      (fun z _ => ((hf q hq).differentiable one_ne_zero).differentiableAt) (hL q hq) hy hx
  · intro x hx
    obtain ⟨q, hq, hxq⟩ := hxy hx
    exact mem_biUnion (List.mem_toFinset.mpr hq) hxq

/-- **The discrete field as a potential.** -/
theorem galerkin_potential (hT : Proper T) (hE : Embedded T) (hp : 1 ≤ p) (hQ : ExactRule Q (2 * p)) (hP : PiecewisePolynomial T p P)
    (hV : ∀ c ∈ mats.pecs, ConstantOn T P c.tag (V c.tag)) (eps : Int → ℝ) :
    ∃ v, Potential T mats V v ∧ (∀ t ∈ T.tris, ∀ x ∈ triangle T t, v x = polyAt (toPlane T t (P t)) x) ∧
      potentialEnergy T eps v =
        2⁻¹ * fieldProduct T Q eps (fun t => T.gradient t (P t)) (fun t => T.gradient t (P t)) := by
  classical
  have hsame : ∀ t ∈ T.tris, ∀ t' ∈ T.tris, ∀ x ∈ triangle T t, x ∈ triangle T t' →
      polyAt (toPlane T t (P t)) x = polyAt (toPlane T t' (P t')) x := by
    intro t ht t' ht' x hx hx'
    by_cases hne : t = t'
    · rw [hne]
    · obtain ⟨i, j, h1, h2, h3, h4, y, z, -, -, hyz, rfl⟩ := common_points hT hE ht ht' hne hx hx'
      rw [polyAt_side (hT.area t ht).ne' h1 h2 hyz, polyAt_side (hT.area t' ht').ne' h3 h4 hyz]
      exact hP.continuous t ht t' ht' i j h1 h2 h3 h4 y z hyz
  let v : ℝ × ℝ → ℝ := fun x => if h : ∃ t ∈ T.tris, x ∈ triangle T t then polyAt (toPlane T h.choose (P h.choose)) x else 0
  have hv : ∀ t ∈ T.tris, ∀ x ∈ triangle T t, v x = polyAt (toPlane T t (P t)) x := by
    intro t ht x hx
    have h : ∃ t ∈ T.tris, x ∈ triangle T t := ⟨t, ht, hx⟩
    show (if h : ∃ t ∈ T.tris, x ∈ triangle T t then polyAt (toPlane T h.choose (P h.choose)) x else 0) = _
    rw [dif_pos h]
    exact hsame _ h.choose_spec.1 t ht x h.choose_spec.2 hx
  refine ⟨v, ⟨pieces_slopes (fun t _ => polyAt_contDiff _) hv, fun c hc x hx => ?_⟩, hv, ?_⟩
  · obtain ⟨s, hs, e, hx⟩ := hx
    obtain ⟨t, ht, hst⟩ := hT.segs s hs
    obtain ⟨va, vb⟩ := side_vertices hst
    rw [hv t ht x ((triangle_convex t).segment_subset (vertex_mem va) (vertex_mem vb) hx)]
    obtain ⟨y, z, -, -, hyz, rfl⟩ := hx
    rw [polyAt_side (hT.area t ht).ne' va vb hyz]
    exact hV c hc s hs e t ht hst y z hyz
  · unfold potentialEnergy fieldProduct
    rw [← List.sum_map_mul_left]
    refine congrArg List.sum (List.map_congr_left fun t ht => ?_)
    have hd := hT.area t ht
    set R := toPlane T t (P t) with hR
    have e0 : ∫ x in triangle T t, ((fderiv ℝ v x (1, 0)) ^ 2 + (fderiv ℝ v x (0, 1)) ^ 2) =
        ∫ x in triangle T t, ((fderiv ℝ (polyAt R) x (1, 0)) ^ 2 + (fderiv ℝ (polyAt R) x (0, 1)) ^ 2) := by
      rw [← integral_interior (triangle_convex t) (triangle_closed t), ← integral_interior (triangle_convex t) (triangle_closed t)]
      refine setIntegral_congr_fun isOpen_interior.measurableSet fun x hx => ?_
      have : fderiv ℝ v x = fderiv ℝ (polyAt R) x := by
        refine Filter.EventuallyEq.fderiv_eq ?_
        filter_upwards [isOpen_interior.mem_nhds hx] with y hy
        exact hv t ht y (interior_subset hy)
      simp only [this]
    have hdegR : R.totalDegree ≤ p := (toPlane_degree t _).trans (hP.degree t ht)
    have hdeg : (pderiv 0 R * pderiv 0 R + pderiv 1 R * pderiv 1 R).totalDegree ≤ 2 * p := by
      have d : ∀ i : Fin 2, (pderiv i R * pderiv i R).totalDegree ≤ 2 * p := fun i => by
        have := pderiv_degree hdegR i
        have := totalDegree_mul (pderiv i R) (pderiv i R)
        omega
      exact (totalDegree_add _ _).trans (max_le (d 0) (d 1))
    have e1 : ∫ x in triangle T t, ((fderiv ℝ (polyAt R) x (1, 0)) ^ 2 + (fderiv ℝ (polyAt R) x (0, 1)) ^ 2) =
        ∫ x in triangle T t, polyAt (pderiv 0 R * pderiv 0 R + pderiv 1 R * pderiv 1 R) x :=
      integral_congr_ae (Filter.Eventually.of_forall fun x => polyAt_gradSq R x)
    rw [e0, e1, integral_fromPlane hQ hd hdeg]
    have e2 : T.gradient t (P t) = (fromPlane T t (pderiv 0 R), fromPlane T t (pderiv 1 R)) := by
      rw [← gradient_fromPlane hd.ne', hR, fromPlane_toPlane hd.ne']
    dsimp only
    rw [e2, map_add, map_mul, map_mul]
    ring

end
end Tulip
