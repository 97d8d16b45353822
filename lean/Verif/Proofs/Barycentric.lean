import Verif.Proofs.GalerkinLimit

/-!
# Barycentric coordinates in the plane
-/

namespace Tulip
open MeasureTheory Set Spec

variable {T : Triangulation ℝ}

/-- Barycentric coordinate of a point in a triangle, for any vertex of the mesh. -/
noncomputable def bary (T : Triangulation ℝ) (t : Tri T.nv) (x : ℝ × ℝ) (k : Fin T.nv) : ℝ :=
  if k = t.a then planeDet x (T.coord t.b) (T.coord t.c) / T.det t
  else if k = t.b then planeDet (T.coord t.a) x (T.coord t.c) / T.det t
  else if k = t.c then planeDet (T.coord t.a) (T.coord t.b) x / T.det t else 0

theorem bary_verts {t : Tri T.nv} (hd : T.det t ≠ 0) (x : ℝ × ℝ) :
    bary T t x t.a = planeDet x (T.coord t.b) (T.coord t.c) / T.det t ∧
    bary T t x t.b = planeDet (T.coord t.a) x (T.coord t.c) / T.det t ∧
    bary T t x t.c = planeDet (T.coord t.a) (T.coord t.b) x / T.det t := by
  obtain ⟨h1, h2, h3⟩ := det_ne hd
  unfold bary
  simp [h1, h2, h3, h1.symm, h2.symm, h3.symm]

theorem bary_off {t : Tri T.nv} {x : ℝ × ℝ} {k : Fin T.nv} (hk : ¬ IsVertex t k) : bary T t x k = 0 := by
  unfold bary
  rw [if_neg fun e => hk (.inl e), if_neg fun e => hk (.inr (.inl e)), if_neg fun e => hk (.inr (.inr e))]

/-- Barycentric coordinates are determined by the point. -/
theorem bary_unique {t : Tri T.nv} (hd : T.det t ≠ 0) {α β γ : ℝ} (hs : α + β + γ = 1) :
    bary T t (α • T.coord t.a + β • T.coord t.b + γ • T.coord t.c) t.a = α ∧
    bary T t (α • T.coord t.a + β • T.coord t.b + γ • T.coord t.c) t.b = β ∧
    bary T t (α • T.coord t.a + β • T.coord t.b + γ • T.coord t.c) t.c = γ := by
  obtain ⟨e1, e2, e3⟩ := bary_verts hd (α • T.coord t.a + β • T.coord t.b + γ • T.coord t.c)
  have hα : α = 1 - β - γ := by linarith
  rw [e1, e2, e3]
  subst hα
  refine ⟨?_, ?_, ?_⟩ <;> rw [div_eq_iff hd] <;> unfold planeDet Triangulation.det <;>
    simp only [Prod.fst_add, Prod.snd_add, Prod.smul_fst, Prod.smul_snd, smul_eq_mul] <;> ring

theorem bary_sum {t : Tri T.nv} (hd : T.det t ≠ 0) (x : ℝ × ℝ) : bary T t x t.a + bary T t x t.b + bary T t x t.c = 1 := by
  obtain ⟨e1, e2, e3⟩ := bary_verts hd x
  rw [e1, e2, e3, ← add_div, ← add_div, div_eq_one_iff_eq hd]
  unfold planeDet Triangulation.det
  ring

theorem bary_point {t : Tri T.nv} (hd : T.det t ≠ 0) (x : ℝ × ℝ) :
    x = bary T t x t.a • T.coord t.a + bary T t x t.b • T.coord t.b + bary T t x t.c • T.coord t.c := by
  obtain ⟨e1, e2, e3⟩ := bary_verts hd x
  rw [e1, e2, e3]
  refine Prod.ext ?_ ?_ <;> simp only [Prod.fst_add, Prod.snd_add, Prod.smul_fst, Prod.smul_snd, smul_eq_mul] <;> field_simp <;>
    unfold planeDet Triangulation.det <;> ring

theorem mem_triangle {t : Tri T.nv} (hd : T.det t ≠ 0) (x : ℝ × ℝ) :
    x ∈ triangle T t ↔ 0 ≤ bary T t x t.a ∧ 0 ≤ bary T t x t.b ∧ 0 ≤ bary T t x t.c := by
  constructor
  · intro h
    unfold triangle at h
    rw [← triMap_image] at h
    obtain ⟨p, ⟨h1, h2, h3⟩, rfl⟩ := h
    have e : triMap (T.coord t.a) (T.coord t.b) (T.coord t.c) p =
        (1 - p.1 - p.2) • T.coord t.a + p.1 • T.coord t.b + p.2 • T.coord t.c := by
      rw [triMap_apply]
      refine Prod.ext ?_ ?_ <;> simp only [Prod.fst_add, Prod.snd_add, Prod.smul_fst, Prod.smul_snd, smul_eq_mul] <;> ring
    rw [e]
    obtain ⟨k1, k2, k3⟩ := bary_unique hd (show (1 - p.1 - p.2) + p.1 + p.2 = 1 by ring)
    rw [k1, k2, k3]
    exact ⟨by linarith, h1, h2⟩
  · rintro ⟨h1, h2, h3⟩
    rw [bary_point hd x]
    have hs := bary_sum hd x
    unfold triangle
    rw [← triMap_image]
    refine ⟨(bary T t x t.b, bary T t x t.c), ⟨h2, h3, by simp only; linarith⟩, ?_⟩
    rw [triMap_apply]
    have e : bary T t x t.a = 1 - bary T t x t.b - bary T t x t.c := by linarith
    rw [e]
    refine Prod.ext ?_ ?_ <;> simp only [Prod.fst_add, Prod.snd_add, Prod.smul_fst, Prod.smul_snd, smul_eq_mul] <;> ring

theorem bary_nonneg {t : Tri T.nv} (hd : T.det t ≠ 0) {x : ℝ × ℝ} (hx : x ∈ triangle T t) (k : Fin T.nv) : 0 ≤ bary T t x k := by
  obtain ⟨h1, h2, h3⟩ := (mem_triangle hd x).mp hx
  by_cases hk : IsVertex t k
  · rcases hk with rfl | rfl | rfl <;> assumption
  · rw [bary_off hk]

theorem bary_le_one {t : Tri T.nv} (hd : T.det t ≠ 0) {x : ℝ × ℝ} (hx : x ∈ triangle T t) (k : Fin T.nv) : bary T t x k ≤ 1 := by
  obtain ⟨h1, h2, h3⟩ := (mem_triangle hd x).mp hx
  have := bary_sum hd x
  by_cases hk : IsVertex t k
  · rcases hk with rfl | rfl | rfl <;> linarith
  · rw [bary_off hk]
    exact zero_le_one

/-- A point is a convex combination of the vertices with positive coordinates. -/
theorem bary_hull {t : Tri T.nv} (hd : T.det t ≠ 0) {x : ℝ × ℝ} (hx : x ∈ triangle T t) {s : Set (ℝ × ℝ)}
    (hs : ∀ k, IsVertex t k → 0 < bary T t x k → T.coord k ∈ s) : x ∈ convexHull ℝ s := by
  obtain ⟨h1, h2, h3⟩ := (mem_triangle hd x).mp hx
  have hsum := bary_sum hd x
  have := (convex_convexHull ℝ s).finsum_mem (w := ![bary T t x t.a, bary T t x t.b, bary T t x t.c])
    (z := ![T.coord t.a, T.coord t.b, T.coord t.c]) (fun i => by fin_cases i <;> simpa)
    (by rw [finsum_eq_sum_of_fintype, Fin.sum_univ_three]; simpa using hsum)
    (fun i hi => by
      refine subset_convexHull ℝ s ?_
      fin_cases i
      · exact hs _ (.inl rfl) (lt_of_le_of_ne h1 (Ne.symm (by simpa using hi)))
      · exact hs _ (.inr (.inl rfl)) (lt_of_le_of_ne h2 (Ne.symm (by simpa using hi)))
      · exact hs _ (.inr (.inr rfl)) (lt_of_le_of_ne h3 (Ne.symm (by simpa using hi))))
  rw [finsum_eq_sum_of_fintype, Fin.sum_univ_three] at this
  rw [bary_point hd x]
  simpa using this

/-- The barycentric coordinates are affine. -/
theorem bary_affine {t : Tri T.nv} (hd : T.det t ≠ 0) (x y : ℝ × ℝ) {u w : ℝ} (h : u + w = 1) (k : Fin T.nv) :
    bary T t (u • x + w • y) k = u * bary T t x k + w * bary T t y k := by
  have hu : u = 1 - w := by linarith
  subst hu
  unfold bary
  split_ifs
  all_goals first
    | (rw [← mul_div_assoc, ← mul_div_assoc, ← add_div]
       congr 1
       unfold planeDet
       simp only [Prod.fst_add, Prod.snd_add, Prod.smul_fst, Prod.smul_snd, smul_eq_mul]
       ring)
    | ring

theorem bary_vertex {t : Tri T.nv} (hd : T.det t ≠ 0) {v : Fin T.nv} (hv : IsVertex t v) (k : Fin T.nv) :
    bary T t (T.coord v) k = if k = v then 1 else 0 := by
  obtain ⟨n1, n2, n3⟩ := det_ne hd
  have key : ∀ (α β γ : ℝ), α + β + γ = 1 → T.coord v = α • T.coord t.a + β • T.coord t.b + γ • T.coord t.c →
      bary T t (T.coord v) t.a = α ∧ bary T t (T.coord v) t.b = β ∧ bary T t (T.coord v) t.c = γ := fun α β γ hs e => by
    rw [e]
    exact bary_unique hd hs
  by_cases hk : IsVertex t k
  · rcases hv with rfl | rfl | rfl
    · obtain ⟨e1, e2, e3⟩ := key 1 0 0 (by norm_num) (by simp)
      rcases hk with rfl | rfl | rfl <;> simp [*, Ne.symm]
    · obtain ⟨e1, e2, e3⟩ := key 0 1 0 (by norm_num) (by simp)
      rcases hk with rfl | rfl | rfl <;> simp [*, Ne.symm]
    · obtain ⟨e1, e2, e3⟩ := key 0 0 1 (by norm_num) (by simp)
      rcases hk with rfl | rfl | rfl <;> simp [*, Ne.symm]
  · rw [bary_off hk, if_neg]
    rintro rfl
    exact hk hv

/-- In the interior all coordinates are positive. -/
theorem bary_interior {t : Tri T.nv} (hd : T.det t ≠ 0) {x : ℝ × ℝ} (hx : x ∈ interior (triangle T t)) {k : Fin T.nv} (hk : IsVertex t k) :
    0 < bary T t x k := by
  refine lt_of_le_of_ne (bary_nonneg hd (interior_subset hx) k) fun e => ?_
  have hcont : Filter.Tendsto (fun s : ℝ => (1 + s) • x + (-s) • T.coord k) (nhdsWithin 0 (Ioi 0)) (nhds x) := by
    have : Continuous (fun s : ℝ => (1 + s) • x + (-s) • T.coord k) := by fun_prop
    have := (this.tendsto 0).mono_left (nhdsWithin_le_nhds (s := Ioi 0))
    simpa using this
  obtain ⟨s, hs, hpos⟩ := ((hcont.eventually (isOpen_interior.mem_nhds hx)).and self_mem_nhdsWithin).exists
  have hn := bary_nonneg hd (interior_subset hs) k
  rw [bary_affine hd _ _ (by ring), ← e, bary_vertex hd hk, if_pos rfl] at hn
  have : (0 : ℝ) < s := hpos
  linarith

/-- Common points of two triangles have the same coordinates in both. -/
theorem bary_common (hT : Proper T) (hE : Embedded T) {t t' : Tri T.nv} (ht : t ∈ T.tris) (ht' : t' ∈ T.tris) {x : ℝ × ℝ}
    (hx : x ∈ triangle T t) (hx' : x ∈ triangle T t') (k : Fin T.nv) : bary T t x k = bary T t' x k := by
  by_cases hne : t = t'
  · rw [hne]
  obtain ⟨v, w, h1, h2, h3, h4, y, z, -, -, hyz, rfl⟩ := common_points hT hE ht ht' hne hx hx'
  rw [bary_affine (hT.area t ht).ne' _ _ hyz, bary_affine (hT.area t' ht').ne' _ _ hyz, bary_vertex (hT.area t ht).ne' h1,
    bary_vertex (hT.area t ht).ne' h2, bary_vertex (hT.area t' ht').ne' h3, bary_vertex (hT.area t' ht').ne' h4]

end Tulip
