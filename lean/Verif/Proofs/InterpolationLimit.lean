import Verif.Proofs.CrossSection

/-!
# Interpolations on finer and finer meshes
-/

namespace Tulip
open MeasureTheory Set Spec Filter Topology

section
variable {T T' : Triangulation ℝ} {v : ℝ × ℝ → ℝ} {κ δ L ω E : ℝ} {eps : Int → ℝ}

/-- Square of the gradient of the linear interpolation. -/
noncomputable def interpolated (T : Triangulation ℝ) (v : ℝ × ℝ → ℝ) (t : Tri T.nv) : ℝ :=
  (vectorAt (T.gradHat t) (fun w => v (T.coord w))).1 ^ 2 + (vectorAt (T.gradHat t) (fun w => v (T.coord w))).2 ^ 2

open Classical in
/-- The same as a function in the plane. -/
noncomputable def interpolatedAt (T : Triangulation ℝ) (v : ℝ × ℝ → ℝ) (x : ℝ × ℝ) : ℝ :=
  (T.tris.map (fun t => (interior (triangle T t)).indicator (fun _ => interpolated T v t) x)).sum

theorem interpolatedAt_eq (ha : Apart T) {t : Tri T.nv} (ht : t ∈ T.tris) {x : ℝ × ℝ} (hx : x ∈ interior (triangle T t)) :
    interpolatedAt T v x = interpolated T v t := by
  unfold interpolatedAt
  have key : ∀ l : List (Tri T.nv), l.Pairwise (fun t t' => Disjoint (interior (triangle T t)) (interior (triangle T t'))) → t ∈ l →
      (l.map (fun t => (interior (triangle T t)).indicator (fun _ => interpolated T v t) x)).sum = interpolated T v t := by
    intro l
    induction l with
    | nil => intro _ h; cases h
    | cons s l ih =>
      intro hl hm
      have hl' := List.pairwise_cons.mp hl
      rw [List.map_cons, List.sum_cons]
      rcases List.mem_cons.mp hm with rfl | hm
      · rw [indicator_of_mem hx]
        have : (l.map (fun t => (interior (triangle T t)).indicator (fun _ => interpolated T v t) x)).sum = 0 := by
          refine List.sum_eq_zero fun y hy => ?_
          obtain ⟨s, hs, rfl⟩ := List.mem_map.mp hy
          exact indicator_of_notMem (Set.disjoint_left.mp (hl'.1 s hs) hx) _
        rw [this, add_zero]
      · rw [ih hl'.2 hm, indicator_of_notMem (fun h => Set.disjoint_left.mp (hl'.1 t hm) h hx), zero_add]
  exact key _ ha ht

theorem interpolatedAt_measurable (T : Triangulation ℝ) (v : ℝ × ℝ → ℝ) : Measurable (interpolatedAt T v) := by
  unfold interpolatedAt
  induction T.tris with
  | nil => simp
  | cons t l ih =>
    simp only [List.map_cons, List.sum_cons]
    exact (measurable_const.indicator isOpen_interior.measurableSet).add ih

theorem interpolatedAt_integral (ha : Apart T) {t : Tri T.nv} (ht : t ∈ T.tris) :
    ∫ x in triangle T t, interpolatedAt T v x = volume.real (triangle T t) * interpolated T v t := by
  rw [← integral_interior (triangle_convex t) (triangle_closed t), setIntegral_congr_fun isOpen_interior.measurableSet fun x hx => interpolatedAt_eq ha ht hx,
    integral_interior (triangle_convex t) (triangle_closed t) (fun _ => interpolated T v t)]
  simp

theorem interpolated_bound (hT : Proper T) (hF : Fine T κ δ) (h : Slopes T L v) (hL : 0 ≤ L) {t : Tri T.nv} (ht : t ∈ T.tris) :
    0 ≤ interpolated T v t ∧ interpolated T v t ≤ 2 * (4 * κ * L) ^ 2 := by
  obtain ⟨k1, k2⟩ := interpolation_at (G1 := 0) (G2 := 0) (c := v (T.coord t.a)) (hT.area t ht) hL (fun v w h1 h2 => (hF t ht v w h1 h2).2)
    (fun w => v (T.coord w)) (vertex_mem (.inl rfl : IsVertex t t.a)) fun w hw => by
      rw [zero_mul, zero_mul, add_zero, sub_zero]
      exact slopes_triangle h ht (vertex_mem hw) (vertex_mem (.inl rfl))
  rw [sub_zero] at k1 k2
  have h1 := sq_le_sq' (abs_le.mp k1).1 (abs_le.mp k1).2
  have h2 := sq_le_sq' (abs_le.mp k2).1 (abs_le.mp k2).2
  unfold interpolated
  exact ⟨by positivity, by linarith⟩

/-- The gradient of the interpolation is near that of the function where this is differentiable. -/
theorem interpolated_pointwise (hκ0 : 0 ≤ κ) {x : ℝ × ℝ} (hx : DifferentiableAt ℝ v x) {η : ℝ} (hη : 0 < η) :
    ∃ δ > 0, ∀ T : Triangulation ℝ, Proper T → Fine T κ δ → ∀ t ∈ T.tris, x ∈ triangle T t → |interpolated T v t - gradSq v x| ≤ η := by
  have hcont : Tendsto (fun ω : ℝ => 2 * (2 * ‖fderiv ℝ v x‖ * (4 * κ * ω) + (4 * κ * ω) ^ 2)) (𝓝[>] 0) (𝓝 0) := by
    have : Continuous (fun ω : ℝ => 2 * (2 * ‖fderiv ℝ v x‖ * (4 * κ * ω) + (4 * κ * ω) ^ 2)) := by fun_prop
    have := (this.tendsto 0).mono_left (nhdsWithin_le_nhds (s := Ioi 0))
    simpa using this
  obtain ⟨ω, hω, hω0⟩ := ((hcont.eventually (gt_mem_nhds hη)).and self_mem_nhdsWithin).exists
  have hω0 : 0 < ω := hω0
  have hd := hx.hasFDerivAt.isLittleO.def hω0
  obtain ⟨δ, hδ, hball⟩ := Metric.eventually_nhds_iff.mp hd
  refine ⟨δ / 2, half_pos hδ, fun T hT hF t ht hxt => ?_⟩
  have hdist : ∀ v w, IsVertex t v → IsVertex t w → dist (T.coord v) (T.coord w) ≤ δ / 2 := fun v w h1 h2 => (hF t ht v w h1 h2).1
  obtain ⟨k1, k2⟩ := interpolation_at (G1 := fderiv ℝ v x (1, 0)) (G2 := fderiv ℝ v x (0, 1)) (c := v x) (hT.area t ht) hω0.le
    (fun v w h1 h2 => (hF t ht v w h1 h2).2) (fun w => v (T.coord w)) hxt fun w hw => by
      have hlt : dist (T.coord w) x < δ := (triangle_dist hdist (vertex_mem hw) hxt).trans_lt (half_lt_self hδ)
      have := hball hlt
      rw [fderiv_coords, Real.norm_eq_abs] at this
      rw [dist_eq_norm]
      exact this
  have hc := coords_le (fderiv ℝ v x)
  have near : ∀ {g G N e : ℝ}, |G| ≤ N → |g - G| ≤ e → |g ^ 2 - G ^ 2| ≤ 2 * N * e + e ^ 2 := by
    intro g G N e hG h
    have he : 0 ≤ e := (abs_nonneg _).trans h
    have hN : 0 ≤ N := (abs_nonneg _).trans hG
    have e1 : g ^ 2 - G ^ 2 = (g - G) * ((g - G) + 2 * G) := by ring
    rw [e1, abs_mul]
    have h2 : |(g - G) + 2 * G| ≤ e + 2 * N := (abs_add_le _ _).trans (by rw [abs_mul, abs_two]; linarith)
    calc |g - G| * |(g - G) + 2 * G| ≤ e * (e + 2 * N) := mul_le_mul h h2 (abs_nonneg _) he
      _ = 2 * N * e + e ^ 2 := by ring
  have e1 := near hc.1 k1
  have e2 := near hc.2 k2
  unfold interpolated gradSq
  rw [abs_le] at *
  constructor <;> linarith

/-- **Interpolation.** On every mesh that is fine enough, and not too flat, the linear interpolation of a potential has nearly
the same energy. -/
theorem interpolation_limit (ha' : Apart T') (h : Slopes T' L v) (hL : 0 ≤ L) (eps : Int → ℝ) (hκ0 : 0 ≤ κ) {ε : ℝ} (hε : 0 < ε) :
    ∃ δ > 0, ∀ T : Triangulation ℝ, Proper T → Apart T → Fine T κ δ → SameCrossSection T T' →
      |(T.tris.map (fun t => eps t.attr / 2 * (volume.real (triangle T t) * interpolated T v t))).sum - potentialEnergy T' eps v| < ε := by
  by_contra hno
  push Not at hno
  have hpos : ∀ n : ℕ, (0 : ℝ) < 1 / (n + 1) := fun n => by positivity
  choose T hT ha hF hs hbad using fun n : ℕ => hno (1 / (n + 1)) (hpos n)
  have hslope : ∀ n, Slopes (T n) L v := fun n => by
    unfold Slopes
    rw [(hs n).region]
    exact h
  set B := 2 * (4 * κ * L) ^ 2 with hB
  have hB0 : 0 ≤ B := by positivity
  have hbound : ∀ n x, ‖interpolatedAt (T n) v x‖ ≤ B := fun n x => by
    by_cases hx : ∃ t ∈ (T n).tris, x ∈ interior (triangle (T n) t)
    · obtain ⟨t, ht, hxt⟩ := hx
      obtain ⟨h1, h2⟩ := interpolated_bound (hT n) (hF n) (hslope n) hL ht
      rw [interpolatedAt_eq (ha n) ht hxt, Real.norm_eq_abs, abs_of_nonneg h1]
      exact h2
    · have : interpolatedAt (T n) v x = 0 := by
        refine List.sum_eq_zero fun y hy => ?_
        obtain ⟨t, ht, rfl⟩ := List.mem_map.mp hy
        exact indicator_of_notMem (fun hxt => hx ⟨t, ht, hxt⟩) _
      rw [this, norm_zero]
      exact hB0
  have hint : ∀ n, IntegrableOn (interpolatedAt (T n) v) (covered T') := fun n =>
    Measure.integrableOn_of_bounded (M := B) (covered_closed T').measure_lt_top.ne (interpolatedAt_measurable _ _).aestronglyMeasurable
      (Eventually.of_forall fun x => hbound n x)
  have hsum : ∀ n, ((T n).tris.map (fun t => eps t.attr / 2 * (volume.real (triangle (T n) t) * interpolated (T n) v t))).sum =
      (T'.tris.map (fun q => eps q.attr / 2 * ∫ x in triangle T' q, interpolatedAt (T n) v x)).sum := fun n => by
    rw [← integral_same (ha n) ha' (hs n) eps (by rw [(hs n).region]; exact hint n)]
    exact congrArg List.sum (List.map_congr_left fun t ht => by rw [interpolatedAt_integral (ha n) ht])
  -- convergence almost everywhere
  have hae : ∀ᵐ x ∂(volume : Measure (ℝ × ℝ)), ∀ q ∈ T'.tris, x ∈ interior (triangle T' q) →
      Tendsto (fun n => interpolatedAt (T n) v x) atTop (𝓝 (gradSq v x)) := by
    have hsides : ∀ᵐ x ∂(volume : Measure (ℝ × ℝ)), ∀ n, ¬ ∃ t ∈ (T n).tris, x ∈ frontier (triangle (T n) t) := by
      rw [ae_all_iff]
      intro n
      rw [ae_iff]
      simpa using sides_null (T n)
    filter_upwards [slopes_differentiable h hL, hsides] with x hx hxs q hq hxq
    have hdiff := hx q hq hxq
    rw [Metric.tendsto_atTop]
    intro η hη
    obtain ⟨δ, hδ, key⟩ := interpolated_pointwise hκ0 hdiff (half_pos hη)
    obtain ⟨N, hN⟩ := exists_nat_one_div_lt hδ
    refine ⟨N, fun n hn => ?_⟩
    have hle : (1 : ℝ) / (n + 1) ≤ δ := by
      refine le_trans ?_ hN.le
      exact one_div_le_one_div_of_le (by positivity) (by exact_mod_cast Nat.succ_le_succ hn)
    have hF' : Fine (T n) κ δ := fun t ht v w h1 h2 => ⟨((hF n) t ht v w h1 h2).1.trans hle, ((hF n) t ht v w h1 h2).2⟩
    have hxc : x ∈ covered (T n) := by
      rw [(hs n).region]
      exact ⟨q, hq, interior_subset hxq⟩
    obtain ⟨t, ht, hxt⟩ := hxc
    have hxi : x ∈ interior (triangle (T n) t) := by_contra fun hni => hxs n ⟨t, ht, subset_closure hxt, hni⟩
    rw [interpolatedAt_eq (ha n) ht hxi, Real.dist_eq]
    exact (key (T n) (hT n) hF' t ht hxt).trans_lt (half_lt_self hη)
  have hlim : ∀ q ∈ T'.tris, Tendsto (fun n => ∫ x in triangle T' q, interpolatedAt (T n) v x) atTop (𝓝 (∫ x in triangle T' q, gradSq v x)) := by
    intro q hq
    have e : ∀ F : ℝ × ℝ → ℝ, ∫ x in triangle T' q, F x = ∫ x in interior (triangle T' q), F x := fun F =>
      (integral_interior (triangle_convex q) (triangle_closed q) F).symm
    simp only [e]
    refine tendsto_integral_of_dominated_convergence (fun _ => B) (fun n => (interpolatedAt_measurable _ _).aestronglyMeasurable) ?_ (fun n =>
      Eventually.of_forall fun x => hbound n x) ?_
    · exact integrableOn_const ((measure_mono interior_subset).trans_lt (triangle_compact q).measure_lt_top).ne
    · rw [ae_restrict_iff' isOpen_interior.measurableSet]
      filter_upwards [hae] with x hx hxq
      exact hx q hq hxq
  have htend : Tendsto (fun n => (T'.tris.map (fun q => eps q.attr / 2 * ∫ x in triangle T' q, interpolatedAt (T n) v x)).sum) atTop
      (𝓝 (potentialEnergy T' eps v)) := by
    have key : ∀ l : List (Tri T'.nv), (∀ q ∈ l, q ∈ T'.tris) → Tendsto (fun n => (l.map (fun q => eps q.attr / 2 *
        ∫ x in triangle T' q, interpolatedAt (T n) v x)).sum) atTop (𝓝 ((l.map (fun q => eps q.attr / 2 * ∫ x in triangle T' q, gradSq v x)).sum)) := by
      intro l hl
      induction l with
      | nil => simp
      | cons q l ih =>
        simp only [List.map_cons, List.sum_cons]
        exact ((hlim q (hl q List.mem_cons_self)).const_mul _).add (ih fun r hr => hl r (List.mem_cons_of_mem _ hr))
    exact key _ fun _ h => h
  obtain ⟨N, hN⟩ := Metric.tendsto_atTop.mp htend ε hε
  have h1 := hN N le_rfl
  rw [Real.dist_eq, ← hsum N] at h1
  exact absurd h1 (not_lt.mpr (hbad N))

end
end Tulip
