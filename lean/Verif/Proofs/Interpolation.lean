import Verif.Spec.Limit
import Verif.Proofs.PlanePieces
import Verif.Proofs.PlateField

/-!
# Energy of the linear interpolation of a potential on a fine mesh
-/

namespace Tulip
open MeasureTheory Set Spec

section
variable {T : Triangulation ℝ}

theorem planeDet_det (t : Tri T.nv) : planeDet (T.coord t.a) (T.coord t.b) (T.coord t.c) = T.det t := rfl

theorem triangle_convex (t : Tri T.nv) : Convex ℝ (triangle T t) := convex_convexHull _ _

theorem triangle_compact (t : Tri T.nv) : IsCompact (triangle T t) :=
  (Set.toFinite ({T.coord t.a, T.coord t.b, T.coord t.c} : Set (ℝ × ℝ))).isCompact_convexHull (𝕜 := ℝ)

theorem triangle_closed (t : Tri T.nv) : IsClosed (triangle T t) := (triangle_compact t).isClosed

theorem vertex_mem {t : Tri T.nv} {v : Fin T.nv} (hv : IsVertex t v) : T.coord v ∈ triangle T t := by
  refine subset_convexHull _ _ ?_
  rcases hv with rfl | rfl | rfl <;> simp

theorem triangle_area {t : Tri T.nv} (h : 0 < T.det t) : volume.real (triangle T t) = T.det t / 2 := by
  unfold triangle
  rw [triangle_volume (by rw [planeDet_det]; exact h.ne'), planeDet_det, abs_of_pos h]

theorem triangle_interior {t : Tri T.nv} (h : 0 < T.det t) : (interior (triangle T t)).Nonempty := by
  by_contra hn
  rw [not_nonempty_iff_eq_empty] at hn
  have h0 : volume (frontier (triangle T t)) = 0 := (triangle_convex t).addHaar_frontier volume
  rw [frontier, hn, diff_empty, (triangle_closed t).closure_eq] at h0
  have := triangle_area h
  rw [measureReal_def, h0] at this
  simp at this
  linarith

/-- Points of a triangle are not further apart than its vertices. -/
theorem triangle_dist {t : Tri T.nv} {δ : ℝ} (h : ∀ v w, IsVertex t v → IsVertex t w → dist (T.coord v) (T.coord w) ≤ δ) {x y : ℝ × ℝ}
    (hx : x ∈ triangle T t) (hy : y ∈ triangle T t) : dist x y ≤ δ := by
  obtain ⟨x', hx', y', hy', hd⟩ := convexHull_exists_dist_ge2 hx hy
  have vert : ∀ z ∈ ({T.coord t.a, T.coord t.b, T.coord t.c} : Set (ℝ × ℝ)), ∃ v, IsVertex t v ∧ T.coord v = z := by
    intro z hz
    rcases hz with rfl | rfl | rfl
    · exact ⟨_, .inl rfl, rfl⟩
    · exact ⟨_, .inr (.inl rfl), rfl⟩
    · exact ⟨_, .inr (.inr rfl), rfl⟩
  obtain ⟨v, hv, rfl⟩ := vert x' hx'
  obtain ⟨w, hw, rfl⟩ := vert y' hy'
  exact hd.trans (h v w hv hw)

theorem fderiv_coords (φ : ℝ × ℝ →L[ℝ] ℝ) (u : ℝ × ℝ) : φ u = φ (1, 0) * u.1 + φ (0, 1) * u.2 := by
  have : u = u.1 • ((1, 0) : ℝ × ℝ) + u.2 • ((0, 1) : ℝ × ℝ) := by
    refine Prod.ext ?_ ?_ <;> simp
  conv_lhs => rw [this]
  rw [map_add, map_smul, map_smul, smul_eq_mul, smul_eq_mul]
  ring

theorem coords_le (φ : ℝ × ℝ →L[ℝ] ℝ) : |φ (1, 0)| ≤ ‖φ‖ ∧ |φ (0, 1)| ≤ ‖φ‖ := by
  constructor
  · have := φ.le_opNorm (1, 0)
    simpa [Prod.norm_def] using this
  · have := φ.le_opNorm (0, 1)
    simpa [Prod.norm_def] using this

/-- Sums of two lists, in both orders. -/
theorem sum_swap {α β : Type*} (l : List α) (m : List β) (F : α → β → ℝ) :
    (l.map (fun a => (m.map (fun b => F a b)).sum)).sum = (m.map (fun b => (l.map (fun a => F a b)).sum)).sum := by
  induction l with
  | nil => simp
  | cons a l ih =>
    simp only [List.map_cons, List.sum_cons, ih]
    rw [← List.sum_map_add]

theorem le_sum_of_mem {β : Type*} {m : List β} {F : β → ℝ} (hF : ∀ b ∈ m, 0 ≤ F b) {b : β} (hb : b ∈ m) : F b ≤ (m.map F).sum :=
  List.single_le_sum (fun x hx => by
    obtain ⟨c, hc, rfl⟩ := List.mem_map.mp hx
    exact hF c hc) _ (List.mem_map_of_mem hb)

/-- Square of the gradient of a function in the plane. -/
noncomputable def gradSq (f : ℝ × ℝ → ℝ) (x : ℝ × ℝ) : ℝ := (fderiv ℝ f x (1, 0)) ^ 2 + (fderiv ℝ f x (0, 1)) ^ 2

/-- Gradients of an interpolation in a triangle that is not too flat, when the function is nearly linear about a point. -/
theorem interpolation_at {t : Tri T.nv} (hd : 0 < T.det t) {κ ω : ℝ} (hω : 0 ≤ ω)
    (hκ : ∀ v w, IsVertex t v → IsVertex t w → dist (T.coord v) (T.coord w) ^ 2 ≤ κ * T.det t) (u : Fin T.nv → ℝ) {x : ℝ × ℝ} {c : ℝ}
    (hx : x ∈ triangle T t) {G1 G2 : ℝ}
    (h : ∀ w, IsVertex t w → |u w - c - (G1 * ((T.coord w).1 - x.1) + G2 * ((T.coord w).2 - x.2))| ≤ ω * dist (T.coord w) x) :
    |(vectorAt (T.gradHat t) u).1 - G1| ≤ 4 * κ * ω ∧ |(vectorAt (T.gradHat t) u).2 - G2| ≤ 4 * κ * ω := by
  have ha : IsVertex t t.a := .inl rfl
  have hb : IsVertex t t.b := .inr (.inl rfl)
  have hc : IsVertex t t.c := .inr (.inr rfl)
  obtain ⟨r, hrm, hr2⟩ : ∃ r, (∀ v w, IsVertex t v → IsVertex t w → dist (T.coord v) (T.coord w) ≤ r) ∧ r ^ 2 ≤ κ * T.det t := by
    have hfin : (Set.range fun p : {v // IsVertex t v} × {v // IsVertex t v} => dist (T.coord p.1.1) (T.coord p.2.1)).Finite := Set.finite_range _
    obtain ⟨r, ⟨⟨v, w⟩, rfl⟩, hmax⟩ := hfin.exists_maximalFor id _ ⟨_, ⟨(⟨t.a, ha⟩, ⟨t.a, ha⟩), rfl⟩⟩
    refine ⟨_, fun v' w' hv hw => ?_, hκ v.1 w.1 v.2 w.2⟩
    exact le_of_not_gt fun hlt => absurd (hmax ⟨(⟨v', hv⟩, ⟨w', hw⟩), rfl⟩ hlt.le) (not_le.mpr hlt)
  have comp : ∀ x y : ℝ × ℝ, |x.1 - y.1| ≤ dist x y ∧ |x.2 - y.2| ≤ dist x y := fun x y => by
    rw [Prod.dist_eq, Real.dist_eq, Real.dist_eq]
    exact ⟨le_max_left _ _, le_max_right _ _⟩
  have near : ∀ w, IsVertex t w → dist (T.coord w) x ≤ r := fun w hw => triangle_dist hrm (vertex_mem hw) hx
  have diff : ∀ w, IsVertex t w → |u w - u t.a - (G1 * ((T.coord w).1 - (T.coord t.a).1) + G2 * ((T.coord w).2 - (T.coord t.a).2))| ≤ 2 * ω * r := by
    intro w hw
    have h1 := (h w hw).trans (mul_le_mul_of_nonneg_left (near w hw) hω)
    have h2 := (h t.a ha).trans (mul_le_mul_of_nonneg_left (near t.a ha) hω)
    rw [abs_le] at *
    constructor <;> linarith
  have hbr := hrm _ _ hb ha
  have hcr := hrm _ _ hc ha
  have key := corner_gradient hd (show 0 ≤ 2 * ω by positivity) hr2 ((comp _ _).1.trans hbr) ((comp _ _).2.trans hbr) ((comp _ _).1.trans hcr)
    ((comp _ _).2.trans hcr) (by unfold Triangulation.det; ring) (diff _ hb) (diff _ hc)
  rw [vectorAt_gradHat hd.ne']
  rw [show 4 * κ * ω = 2 * κ * (2 * ω) by ring]
  convert key using 3 <;> congr 1 <;> (try congr 1) <;> ring

end
end Tulip
