import Verif.Spec.Triangles
import Verif.Proofs.Elliptic
import Mathlib.Tactic.FieldSimp
import Mathlib.Tactic.LinearCombination
import Mathlib.Algebra.BigOperators.Fin

/-!
# First-order elements on triangles
-/

set_option linter.unusedSectionVars false

namespace Tulip
open Matrix Spec

section
variable {𝕜 : Type} [Field 𝕜] {T : Triangulation 𝕜}

theorem det_ne {t : Tri T.nv} (h : T.det t ≠ 0) : t.a ≠ t.b ∧ t.b ≠ t.c ∧ t.c ≠ t.a := by
  refine ⟨fun e => h ?_, fun e => h ?_, fun e => h ?_⟩ <;>
  · unfold Triangulation.det
    rw [e]
    ring

/-- Sum of a function that vanishes off a triangle. -/
theorem sum_verts {t : Tri T.nv} (h : T.det t ≠ 0) {M : Type _} [AddCommMonoid M] (f : Fin T.nv → M)
    (h0 : ∀ k, ¬ IsVertex t k → f k = 0) : ∑ k, f k = f t.a + f t.b + f t.c := by
  obtain ⟨h1, h2, h3⟩ := det_ne h
  have : ∑ k, f k = ∑ k ∈ {t.a, t.b, t.c}, f k := by
    symm
    refine Finset.sum_subset (Finset.subset_univ _) fun k _ hk => h0 k ?_
    simpa [IsVertex] using hk
  rw [this, Finset.sum_insert (by simp [h1, h3.symm]), Finset.sum_pair h2, add_assoc]

theorem hat_off {t : Tri T.nv} {x y z : 𝕜} {k : Fin T.nv} (h : ¬ IsVertex t k) : T.hat t x y z k = 0 := by
  unfold IsVertex at h
  push Not at h
  unfold Triangulation.hat
  rw [if_neg h.1, if_neg h.2.1, if_neg h.2.2]

theorem gradHat_off {t : Tri T.nv} {k : Fin T.nv} (h : ¬ IsVertex t k) : T.gradHat t k = (0, 0) := by
  unfold IsVertex at h
  push Not at h
  unfold Triangulation.gradHat
  rw [if_neg h.1, if_neg h.2.1, if_neg h.2.2]

theorem hat_verts {t : Tri T.nv} (h : T.det t ≠ 0) (x y z : 𝕜) :
    T.hat t x y z t.a = x ∧ T.hat t x y z t.b = y ∧ T.hat t x y z t.c = z := by
  obtain ⟨h1, h2, h3⟩ := det_ne h
  unfold Triangulation.hat
  simp [h1.symm, h2.symm, h3]

theorem gradHat_verts {t : Tri T.nv} (h : T.det t ≠ 0) :
    T.gradHat t t.a = (((T.coord t.b).2 - (T.coord t.c).2) / T.det t, ((T.coord t.c).1 - (T.coord t.b).1) / T.det t) ∧
    T.gradHat t t.b = (((T.coord t.c).2 - (T.coord t.a).2) / T.det t, ((T.coord t.a).1 - (T.coord t.c).1) / T.det t) ∧
    T.gradHat t t.c = (((T.coord t.a).2 - (T.coord t.b).2) / T.det t, ((T.coord t.b).1 - (T.coord t.a).1) / T.det t) := by
  obtain ⟨h1, h2, h3⟩ := det_ne h
  unfold Triangulation.gradHat
  simp [h1.symm, h2.symm, h3]

/-- Gradient of a piecewise linear function in a triangle. -/
theorem vectorAt_gradHat {t : Tri T.nv} (h : T.det t ≠ 0) (u : Fin T.nv → 𝕜) :
    vectorAt (T.gradHat t) u =
      ((u t.a * ((T.coord t.b).2 - (T.coord t.c).2) + u t.b * ((T.coord t.c).2 - (T.coord t.a).2) +
          u t.c * ((T.coord t.a).2 - (T.coord t.b).2)) / T.det t,
       (u t.a * ((T.coord t.c).1 - (T.coord t.b).1) + u t.b * ((T.coord t.a).1 - (T.coord t.c).1) +
          u t.c * ((T.coord t.b).1 - (T.coord t.a).1)) / T.det t) := by
  obtain ⟨ga, gb, gc⟩ := gradHat_verts h
  unfold vectorAt
  rw [sum_verts h (fun k => u k * (T.gradHat t k).1) (fun k hk => by rw [gradHat_off hk]; simp),
    sum_verts h (fun k => u k * (T.gradHat t k).2) (fun k hk => by rw [gradHat_off hk]; simp), ga, gb, gc]
  refine Prod.ext ?_ ?_ <;> · simp only; ring

/-- The gradient gives the differences between the vertices. -/
theorem gradient_difference {t : Tri T.nv} (h : T.det t ≠ 0) (u : Fin T.nv → 𝕜) {v w : Fin T.nv} (hv : IsVertex t v)
    (hw : IsVertex t w) :
    inner2 (vectorAt (T.gradHat t) u) ((T.coord w).1 - (T.coord v).1, (T.coord w).2 - (T.coord v).2) = u w - u v := by
  rw [vectorAt_gradHat h]
  unfold inner2
  simp only
  rw [div_mul_eq_mul_div, div_mul_eq_mul_div, ← add_div, div_eq_iff h]
  rcases hv with rfl | rfl | rfl <;> rcases hw with rfl | rfl | rfl <;>
  · simp only [Triangulation.det]
    ring

/-- The gradient is determined by the differences. -/
theorem gradient_eq {t : Tri T.nv} (h : T.det t ≠ 0) (u : Fin T.nv → 𝕜) (g : 𝕜 × 𝕜)
    (hb : u t.b - u t.a = inner2 g ((T.coord t.b).1 - (T.coord t.a).1, (T.coord t.b).2 - (T.coord t.a).2))
    (hc : u t.c - u t.a = inner2 g ((T.coord t.c).1 - (T.coord t.a).1, (T.coord t.c).2 - (T.coord t.a).2)) :
    vectorAt (T.gradHat t) u = g := by
  rw [vectorAt_gradHat h]
  have hd := h
  unfold Triangulation.det at hd
  unfold inner2 at hb hc
  simp only at hb hc
  have hb' := eq_add_of_sub_eq hb
  have hc' := eq_add_of_sub_eq hc
  refine Prod.ext ?_ ?_ <;>
  · simp only [Triangulation.det]
    rw [hb', hc', div_eq_iff hd]
    ring

/-! ## Edges -/

theorem mem_edges {e : Fin T.nv × Fin T.nv} :
    e ∈ T.edges ↔ ∃ t ∈ T.tris, ∃ s ∈ t.sides, e = if s.1 ≤ s.2 then s else (s.2, s.1) := by
  unfold Triangulation.edges
  rw [List.mem_dedup, List.mem_map]
  constructor
  · rintro ⟨s, hs, rfl⟩
    obtain ⟨t, ht, hst⟩ := List.mem_flatMap.mp hs
    exact ⟨t, ht, s, hst, rfl⟩
  · rintro ⟨t, ht, s, hs, rfl⟩
    exact ⟨s, List.mem_flatMap.mpr ⟨t, ht, hs⟩, rfl⟩

theorem edges_le {e : Fin T.nv × Fin T.nv} (h : e ∈ T.edges) : e.1 ≤ e.2 := by
  obtain ⟨t, _, s, _, rfl⟩ := mem_edges.mp h
  split
  · assumption
  · next h => exact le_of_lt (not_le.mp h)

theorem edges_nodup : T.edges.Nodup := List.nodup_dedup _

theorem side_mem_edges {t : Tri T.nv} (ht : t ∈ T.tris) {v w : Fin T.nv} (h : (v, w) ∈ t.sides) :
    (v, w) ∈ T.edges ∨ (w, v) ∈ T.edges := by
  by_cases hvw : v ≤ w
  · exact Or.inl (mem_edges.mpr ⟨t, ht, _, h, by rw [if_pos hvw]⟩)
  · exact Or.inr (mem_edges.mpr ⟨t, ht, _, h, by rw [if_neg hvw]⟩)

/-- A sum over the edges is a sum over a finite set. -/
theorem sum_edges_eq {M : Type _} [AddCommMonoid M] (f : Fin T.nv × Fin T.nv → M) :
    ∑ k : Fin T.edges.length, f T.edges[k] = ∑ e ∈ T.edges.toFinset, f e := by
  rw [List.sum_toFinset f edges_nodup, ← Fin.sum_univ_fun_getElem]
  rfl

/-- One representative of each edge: either direction. -/
theorem sum_edges_single {M : Type _} [AddCommMonoid M] (f : Fin T.nv × Fin T.nv → M)
    {v w : Fin T.nv} (hm : (v, w) ∈ T.edges ∨ (w, v) ∈ T.edges)
    (h0 : ∀ e ∈ T.edges, e ≠ (v, w) → e ≠ (w, v) → f e = 0) :
    ∑ k : Fin T.edges.length, f T.edges[k] = if (v, w) ∈ T.edges then f (v, w) else f (w, v) := by
  rw [sum_edges_eq]
  split
  · next h =>
    refine Finset.sum_eq_single (v, w) (fun e he hne => ?_) (fun h' => absurd (List.mem_toFinset.mpr h) h')
    refine h0 e (List.mem_toFinset.mp he) hne fun e2 => hne ?_
    have h1 := edges_le h
    have h2 := edges_le (List.mem_toFinset.mp he)
    rw [e2] at h2
    have h3 : v = w := le_antisymm h1 h2
    rw [e2, h3]
  · next h =>
    have hm' := hm.resolve_left h
    refine Finset.sum_eq_single (w, v) (fun e he hne => ?_) (fun h' => absurd (List.mem_toFinset.mpr hm') h')
    refine h0 e (List.mem_toFinset.mp he) (fun e2 => h ?_) hne
    rw [← e2]
    exact List.mem_toFinset.mp he

/-- Sum over the edges of a symmetric function that vanishes off a triangle. -/
theorem sum_edges {M : Type _} [AddCommMonoid M] {t : Tri T.nv} (ht : t ∈ T.tris) (hd : T.det t ≠ 0)
    (f : Fin T.nv × Fin T.nv → M) (hs : ∀ v w, f (w, v) = f (v, w)) (hz : ∀ v, f (v, v) = 0)
    (h0 : ∀ v w, ¬ (IsVertex t v ∧ IsVertex t w) → f (v, w) = 0) :
    ∑ k : Fin T.edges.length, f T.edges[k] = f (t.a, t.b) + f (t.b, t.c) + f (t.c, t.a) := by
  obtain ⟨h1, h2, h3⟩ := det_ne hd
  let o : Fin T.nv × Fin T.nv → Fin T.nv × Fin T.nv := fun s => if s.1 ≤ s.2 then s else (s.2, s.1)
  have hfo : ∀ s, f (o s) = f s := by
    intro s
    show f (if s.1 ≤ s.2 then s else (s.2, s.1)) = f s
    split
    · rfl
    · exact hs _ _
  have mem : ∀ s ∈ t.sides, o s ∈ T.edges := fun s h => mem_edges.mpr ⟨t, ht, s, h, rfl⟩
  have o_eq : ∀ s s' : Fin T.nv × Fin T.nv, o s = o s' → s = s' ∨ s = (s'.2, s'.1) := by
    intro s s' h
    simp only [o] at h
    split at h <;> split at h
    · exact Or.inl h
    · exact Or.inr h
    · right; rw [← h]
    · left
      have := congrArg Prod.fst h
      have h2 := congrArg Prod.snd h
      exact Prod.ext h2 this
  rw [sum_edges_eq]
  have key : ∑ e ∈ T.edges.toFinset, f e = ∑ e ∈ {o (t.a, t.b), o (t.b, t.c), o (t.c, t.a)}, f e := by
    symm
    refine Finset.sum_subset ?_ ?_
    · intro e he
      simp only [Finset.mem_insert, Finset.mem_singleton] at he
      rcases he with rfl | rfl | rfl <;> refine List.mem_toFinset.mpr (mem _ ?_) <;> simp [Tri.sides]
    · intro e he hne
      have hle := edges_le (List.mem_toFinset.mp he)
      simp only [Finset.mem_insert, Finset.mem_singleton, not_or] at hne
      obtain ⟨v, w⟩ := e
      by_cases hv : IsVertex t v ∧ IsVertex t w
      · by_cases hvw : v = w
        · rw [hvw]; exact hz w
        · exfalso
          have ho : o (v, w) = (v, w) := by simp only [o]; rw [if_pos hle]
          have ho' : o (w, v) = (v, w) := by
            simp only [o]
            rw [if_neg (not_le.mpr (lt_of_le_of_ne hle hvw))]
          rcases hv with ⟨rfl | rfl | rfl, rfl | rfl | rfl⟩ <;>
            first
              | exact hvw rfl
              | exact hne.1 ho.symm
              | exact hne.1 ho'.symm
              | exact hne.2.1 ho.symm
              | exact hne.2.1 ho'.symm
              | exact hne.2.2 ho.symm
              | exact hne.2.2 ho'.symm
      · exact h0 v w hv
  have n1 : o (t.a, t.b) ≠ o (t.b, t.c) := by
    intro h
    rcases o_eq _ _ h with h | h
    · exact h1 (congrArg Prod.fst h)
    · exact h3.symm (congrArg Prod.fst h)
  have n2 : o (t.a, t.b) ≠ o (t.c, t.a) := by
    intro h
    rcases o_eq _ _ h with h | h
    · exact h3.symm (congrArg Prod.fst h)
    · exact h2 (congrArg Prod.snd h)
  have n3 : o (t.b, t.c) ≠ o (t.c, t.a) := by
    intro h
    rcases o_eq _ _ h with h | h
    · exact h2 (congrArg Prod.fst h)
    · exact h1.symm (congrArg Prod.fst h)
  rw [key, Finset.sum_insert (by simp [n1, n2]), Finset.sum_pair n3, hfo, hfo, hfo, add_assoc]

theorem whitney_swap (t : Tri T.nv) (x y z : 𝕜) (v w : Fin T.nv) :
    T.whitney t x y z (w, v) = (-(T.whitney t x y z (v, w)).1, -(T.whitney t x y z (v, w)).2) := by
  unfold Triangulation.whitney
  refine Prod.ext ?_ ?_ <;> · simp only; ring

theorem whitney_off {t : Tri T.nv} {x y z : 𝕜} {v w : Fin T.nv} (h : ¬ (IsVertex t v ∧ IsVertex t w)) :
    T.whitney t x y z (v, w) = (0, 0) := by
  unfold Triangulation.whitney
  by_cases hv : IsVertex t v
  · have hw : ¬ IsVertex t w := fun hw => h ⟨hv, hw⟩
    rw [hat_off hw, gradHat_off hw]
    simp
  · rw [hat_off hv, gradHat_off hv]
    simp

/-- Nedelec functions represent gradients: if barycentric coordinates add up to 1. -/
theorem whitney_gradient {t : Tri T.nv} (ht : t ∈ T.tris) (hd : T.det t ≠ 0) {x y z : 𝕜} (h1 : x + y + z = 1)
    (u : Fin T.nv → 𝕜) :
    vectorAt (fun k : Fin T.edges.length => T.whitney t x y z T.edges[k])
      (fun k => u (T.edges[k]).2 - u (T.edges[k]).1) = vectorAt (T.gradHat t) u := by
  have e1 := sum_edges ht hd (fun e => (u e.2 - u e.1) * (T.whitney t x y z e).1)
    (fun v w => by simp only [whitney_swap t x y z v w]; ring)
    (fun v => by simp)
    (fun v w h => by simp [whitney_off h])
  have e2 := sum_edges ht hd (fun e => (u e.2 - u e.1) * (T.whitney t x y z e).2)
    (fun v w => by simp only [whitney_swap t x y z v w]; ring)
    (fun v => by simp)
    (fun v w h => by simp [whitney_off h])
  obtain ⟨ha, hb, hc⟩ := hat_verts hd x y z
  obtain ⟨ga, gb, gc⟩ := gradHat_verts hd
  have hx : x = 1 - y - z := by rw [← h1]; ring
  rw [vectorAt_gradHat hd]
  refine Prod.ext ?_ ?_
  · show ∑ k : Fin T.edges.length, _ = _
    rw [e1]
    simp only [Triangulation.whitney, ha, hb, hc, ga, gb, gc]
    rw [hx]
    ring
  · show ∑ k : Fin T.edges.length, _ = _
    rw [e2]
    simp only [Triangulation.whitney, ha, hb, hc, ga, gb, gc]
    rw [hx]
    ring


theorem mem_dom {q : DomPt 𝕜 T.nv T.edges.length T.edges.length} :
    q ∈ T.fem.dom ↔ ∃ t ∈ T.tris, q = T.point t (1/2) (1/2) 0 ∨ q = T.point t 0 (1/2) (1/2) ∨
      q = T.point t (1/2) 0 (1/2) := by
  show q ∈ T.tris.flatMap _ ↔ _
  simp [List.mem_flatMap]

theorem mem_bdr {q : BdrPt 𝕜 T.nv T.edges.length} :
    q ∈ T.fem.bdr ↔ ∃ s ∈ T.segs, q = T.segPoint s 1 0 (1/6) ∨ q = T.segPoint s (1/2) (1/2) (4/6) ∨
      q = T.segPoint s 0 1 (1/6) := by
  show q ∈ T.segs.flatMap _ ↔ _
  simp [List.mem_flatMap]

theorem onBoundary_iff {tag : Int} {v : Fin T.nv} : OnBoundary T.fem tag v ↔ OnTag T tag v := by
  unfold OnBoundary OnTag
  constructor
  · rintro ⟨b, hb, rfl, hv⟩
    obtain ⟨s, hs, rfl⟩ := List.mem_map.mp hb
    refine ⟨s, hs, rfl, ?_⟩
    have hv : v ∈ ([s.a, s.b] : List (Fin T.nv)) := hv
    simpa using hv
  · rintro ⟨s, hs, rfl, hv⟩
    refine ⟨_, List.mem_map_of_mem hs, rfl, ?_⟩
    show v ∈ ([s.a, s.b] : List (Fin T.nv))
    simpa using hv

theorem grad_apply (u : Fin T.nv → 𝕜) (k : Fin T.edges.length) :
    ∑ i, T.fem.grad k i * u i = u (T.edges[k]).2 - u (T.edges[k]).1 := by
  show ∑ i : Fin T.nv, ((if i = (T.edges[k]).2 then (1 : 𝕜) else 0) - (if i = (T.edges[k]).1 then 1 else 0)) * u i = _
  simp [sub_mul, Finset.sum_sub_distrib]

theorem side_vertices {t : Tri T.nv} {v w : Fin T.nv} (h : (v, w) ∈ t.sides) : IsVertex t v ∧ IsVertex t w := by
  simp only [Tri.sides, List.mem_cons, Prod.mk.injEq, List.not_mem_nil, or_false] at h
  unfold IsVertex
  rcases h with ⟨rfl, rfl⟩ | ⟨rfl, rfl⟩ | ⟨rfl, rfl⟩ <;> simp

theorem side_ne {t : Tri T.nv} (hd : T.det t ≠ 0) {v w : Fin T.nv} (h : (v, w) ∈ t.sides) : v ≠ w := by
  obtain ⟨h1, h2, h3⟩ := det_ne hd
  simp only [Tri.sides, List.mem_cons, Prod.mk.injEq, List.not_mem_nil, or_false] at h
  rcases h with ⟨rfl, rfl⟩ | ⟨rfl, rfl⟩ | ⟨rfl, rfl⟩
  · exact h1
  · exact h2
  · exact h3

/-- Gradient of a single piecewise linear function along the triangle. -/
theorem gradHat_difference {t : Tri T.nv} (h : T.det t ≠ 0) (k : Fin T.nv) {v w : Fin T.nv} (hv : IsVertex t v)
    (hw : IsVertex t w) :
    inner2 (T.gradHat t k) ((T.coord w).1 - (T.coord v).1, (T.coord w).2 - (T.coord v).2) =
      (if w = k then 1 else 0) - (if v = k then 1 else 0) := by
  rw [← gradient_difference h (fun j => if j = k then 1 else 0) hv hw]
  congr 1
  unfold vectorAt
  simp

/-- Component of a Nedelec function along a side at a point of this side. -/
theorem whitney_side {t : Tri T.nv} (h : T.det t ≠ 0) {x y z : 𝕜} {v w : Fin T.nv} (hv : IsVertex t v)
    (hw : IsVertex t w) (hN : ∀ k, T.hat t x y z k = if k = v ∨ k = w then 1/2 else 0) (hvw : v ≠ w)
    (h2 : (2 : 𝕜) ≠ 0) (e : Fin T.nv × Fin T.nv) :
    inner2 (T.whitney t x y z e) ((T.coord w).1 - (T.coord v).1, (T.coord w).2 - (T.coord v).2) =
      if e = (v, w) then 1 else if e = (w, v) then -1 else 0 := by
  have : inner2 (T.whitney t x y z e) ((T.coord w).1 - (T.coord v).1, (T.coord w).2 - (T.coord v).2) =
      T.hat t x y z e.1 * inner2 (T.gradHat t e.2) ((T.coord w).1 - (T.coord v).1, (T.coord w).2 - (T.coord v).2) -
      T.hat t x y z e.2 * inner2 (T.gradHat t e.1) ((T.coord w).1 - (T.coord v).1, (T.coord w).2 - (T.coord v).2) := by
    unfold Triangulation.whitney inner2
    ring
  rw [this, gradHat_difference h _ hv hw, gradHat_difference h _ hv hw, hN, hN]
  obtain ⟨i, j⟩ := e
  have half : (2 : 𝕜)⁻¹ + 2⁻¹ = 1 := by field_simp; norm_num
  by_cases hi : i = v
  · by_cases hj : j = w
    · subst hi hj
      simp [hvw, hvw.symm, half]
    · by_cases hj' : j = v
      · subst hi hj'
        simp [hvw, hvw.symm]
      · subst hi
        simp [hvw, hvw.symm, hj, hj', Ne.symm hj, Ne.symm hj']
  · by_cases hi' : i = w
    · by_cases hj : j = v
      · subst hi' hj
        simp [hvw, hvw.symm]
        rw [← neg_add', half]
      · by_cases hj' : j = w
        · subst hi' hj'
          simp [hvw.symm]
        · subst hi'
          simp [hvw, hvw.symm, hj, hj', Ne.symm hj, Ne.symm hj']
    · simp [hi, hi', Ne.symm hi, Ne.symm hi']

/-- The component of a field along a side, from the coefficients. -/
theorem field_side {t : Tri T.nv} (ht : t ∈ T.tris) (h : T.det t ≠ 0) {x y z : 𝕜} {v w : Fin T.nv}
    (hs : (v, w) ∈ t.sides) (hN : ∀ k, T.hat t x y z k = if k = v ∨ k = w then 1/2 else 0) (h2 : (2 : 𝕜) ≠ 0)
    (c : Fin T.edges.length → 𝕜) {k : Fin T.edges.length} (hk : T.edges[k] = (v, w) ∨ T.edges[k] = (w, v)) :
    inner2 (vectorAt (fun k => T.whitney t x y z T.edges[k]) c)
      ((T.coord w).1 - (T.coord v).1, (T.coord w).2 - (T.coord v).2) = if T.edges[k] = (v, w) then c k else -c k := by
  have hvw := side_ne h hs
  obtain ⟨hv, hw⟩ := side_vertices hs
  have : inner2 (vectorAt (fun k => T.whitney t x y z T.edges[k]) c)
      ((T.coord w).1 - (T.coord v).1, (T.coord w).2 - (T.coord v).2) =
      ∑ k : Fin T.edges.length, c k * inner2 (T.whitney t x y z T.edges[k])
        ((T.coord w).1 - (T.coord v).1, (T.coord w).2 - (T.coord v).2) := by
    unfold inner2 vectorAt
    rw [Finset.sum_mul, Finset.sum_mul, ← Finset.sum_add_distrib]
    refine Finset.sum_congr rfl fun k _ => ?_
    ring
  rw [this, Finset.sum_eq_single k]
  · rw [whitney_side h hv hw hN hvw h2]
    rcases hk with e | e
    · rw [if_pos e, if_pos e, mul_one]
    · have : T.edges[k] ≠ (v, w) := by
        rw [e]
        intro e'
        exact hvw (congrArg Prod.snd e')
      rw [if_neg this, if_neg this, if_pos e, mul_neg, mul_one]
  · intro l _ hl
    rw [whitney_side h hv hw hN hvw h2]
    have inj : ∀ {k l : Fin T.edges.length}, T.edges[k] = T.edges[l] → k = l := by
      intro k l e
      exact Fin.ext ((List.Nodup.getElem_inj_iff edges_nodup).mp e)
    have lek := edges_le (List.getElem_mem (l := T.edges) k.2)
    have lel := edges_le (List.getElem_mem (l := T.edges) l.2)
    have ne1 : T.edges[l] ≠ (v, w) := by
      intro e
      rcases hk with e' | e'
      · exact hl (inj (e.trans e'.symm))
      · change (T.edges[k]).1 ≤ (T.edges[k]).2 at lek
        change (T.edges[l]).1 ≤ (T.edges[l]).2 at lel
        rw [e'] at lek
        rw [e] at lel
        exact hvw (le_antisymm lel lek)
    have ne2 : T.edges[l] ≠ (w, v) := by
      intro e
      rcases hk with e' | e'
      · change (T.edges[k]).1 ≤ (T.edges[k]).2 at lek
        change (T.edges[l]).1 ≤ (T.edges[l]).2 at lel
        rw [e'] at lek
        rw [e] at lel
        exact hvw (le_antisymm lek lel)
      · exact hl (inj (e.trans e'.symm))
    rw [if_neg ne1, if_neg ne2, mul_zero]
  · intro h'
    exact absurd (Finset.mem_univ _) h'

/-- Each side has its midpoint among the quadrature points. -/
theorem midpoint {t : Tri T.nv} (ht : t ∈ T.tris) (h : T.det t ≠ 0) {v w : Fin T.nv} (hs : (v, w) ∈ t.sides) :
    ∃ x y z, T.point t x y z ∈ T.fem.dom ∧ ∀ k, T.hat t x y z k = if k = v ∨ k = w then 1/2 else 0 := by
  obtain ⟨h1, h2, h3⟩ := det_ne h
  simp only [Tri.sides, List.mem_cons, Prod.mk.injEq, List.not_mem_nil, or_false] at hs
  rcases hs with ⟨rfl, rfl⟩ | ⟨rfl, rfl⟩ | ⟨rfl, rfl⟩
  · refine ⟨_, _, _, mem_dom.mpr ⟨t, ht, Or.inl rfl⟩, fun k => ?_⟩
    unfold Triangulation.hat
    by_cases e1 : k = t.a <;> by_cases e2 : k = t.b <;> simp [e1, e2]
  · refine ⟨_, _, _, mem_dom.mpr ⟨t, ht, Or.inr (Or.inl rfl)⟩, fun k => ?_⟩
    unfold Triangulation.hat
    by_cases e1 : k = t.a
    · have : ¬ (k = t.b ∨ k = t.c) := by
        rintro (e | e)
        · exact h1 (e1.symm.trans e)
        · exact h3 (e.symm.trans e1)
      rw [if_pos e1, if_neg this]
    · rw [if_neg e1]
      by_cases e2 : k = t.b <;> by_cases e3 : k = t.c <;> simp [e2, e3]
  · refine ⟨_, _, _, mem_dom.mpr ⟨t, ht, Or.inr (Or.inr rfl)⟩, fun k => ?_⟩
    unfold Triangulation.hat
    by_cases e1 : k = t.a
    · simp [e1]
    · rw [if_neg e1]
      by_cases e2 : k = t.b
      · have : ¬ (k = t.c ∨ k = t.a) := by
          rintro (e | e)
          · exact h2 (e2.symm.trans e)
          · exact e1 e
        rw [if_pos e2, if_neg this]
      · rw [if_neg e2]
        simp [e1]

/-- A flux is determined by its values at the quadrature points. -/
theorem flux_determined (hd : ∀ t ∈ T.tris, T.det t ≠ 0) (h2 : (2 : 𝕜) ≠ 0) (c : Fin T.edges.length → 𝕜)
    (h : ∀ q ∈ T.fem.dom, vectorAt q.R c = (0, 0)) (k : Fin T.edges.length) : c k = 0 := by
  obtain ⟨t, ht, s, hs, he⟩ := mem_edges.mp (List.getElem_mem (l := T.edges) k.2)
  obtain ⟨v, w⟩ := s
  have hk : T.edges[k] = (v, w) ∨ T.edges[k] = (w, v) := by
    show T.edges[k.1] = (v, w) ∨ T.edges[k.1] = (w, v)
    rw [he]
    split
    · exact Or.inl rfl
    · exact Or.inr rfl
  obtain ⟨x, y, z, hq, hN⟩ := midpoint ht (hd t ht) hs
  have h0 := h _ hq
  have key := field_side ht (hd t ht) hs hN h2 c hk
  have h1 : vectorAt (fun k => T.whitney t x y z T.edges[k]) c = (0, 0) := by
    have e1 := congrArg Prod.fst h0
    have e2 := congrArg Prod.snd h0
    have : ∑ k : Fin T.edges.length, c k * -(T.whitney t x y z T.edges[k]).1 = 0 := e2
    simp only [mul_neg, Finset.sum_neg_distrib, neg_eq_zero] at this
    exact Prod.ext this e1
  rw [h1] at key
  have key' : (if T.edges[k] = (v, w) then c k else -c k) = 0 := by
    rw [← key]
    simp [inner2]
  split at key'
  · exact key'
  · exact neg_eq_zero.mp key'

/-- A potential without gradient has the same value at adjacent vertices. -/
theorem constant_adjacent (hd : ∀ t ∈ T.tris, T.det t ≠ 0) (u : Fin T.nv → 𝕜)
    (h : ∀ q ∈ T.fem.dom, vectorAt q.gradN u = (0, 0)) {v w : Fin T.nv} (hvw : Adjacent T v w) : u v = u w := by
  obtain ⟨t, ht, hv, hw⟩ := hvw
  have := gradient_difference (hd t ht) u hv hw
  have h0 : vectorAt (T.gradHat t) u = (0, 0) := h _ (mem_dom.mpr ⟨t, ht, Or.inl rfl⟩)
  rw [h0] at this
  have h' : 0 = u w - u v := by rw [← this]; simp [inner2]
  exact (sub_eq_zero.mp h'.symm).symm

theorem constant_joined (hd : ∀ t ∈ T.tris, T.det t ≠ 0) (u : Fin T.nv → 𝕜)
    (h : ∀ q ∈ T.fem.dom, vectorAt q.gradN u = (0, 0)) {v w : Fin T.nv}
    (hvw : Relation.ReflTransGen (Adjacent T) v w) : u v = u w := by
  induction hvw with
  | refl => rfl
  | tail _ h2 ih => exact ih.trans (constant_adjacent hd u h h2)

/-- First-order elements represent constants exactly. -/
theorem fem_constants (hd : ∀ t ∈ T.tris, T.det t ≠ 0) (hs : ∀ s ∈ T.segs, s.a ≠ s.b) (h2 : (2 : 𝕜) ≠ 0) :
    RepresentsConstants T.fem where
  dom := by
    intro q hq
    obtain ⟨t, ht, hq⟩ := mem_dom.mp hq
    have : ∀ x y z : 𝕜, x + y + z = 1 → ∑ i, (T.point t x y z).N i = 1 := by
      intro x y z h
      show ∑ i, T.hat t x y z i = 1
      obtain ⟨ha, hb, hc⟩ := hat_verts (hd t ht) x y z
      rw [sum_verts (hd t ht) _ (fun k hk => hat_off hk), ha, hb, hc, h]
    have half : (1 : 𝕜) / 2 + 1 / 2 = 1 := by field_simp; norm_num
    rcases hq with rfl | rfl | rfl
    · exact this _ _ _ (by rw [add_zero, half])
    · exact this _ _ _ (by rw [zero_add, half])
    · exact this _ _ _ (by rw [add_zero, half])
  bdr := by
    intro q hq
    obtain ⟨s, hs', hq⟩ := mem_bdr.mp hq
    have : ∀ x y f : 𝕜, x + y = 1 → ∑ i, (T.segPoint s x y f).N i = 1 := by
      intro x y f h
      show ∑ i : Fin T.nv, (if i = s.a then x else if i = s.b then y else 0) = 1
      have e : ∀ i : Fin T.nv, (if i = s.a then x else if i = s.b then y else 0) =
          (if i = s.a then x else 0) + (if i = s.b then y else 0) := by
        intro i
        by_cases h1 : i = s.a
        · have : i ≠ s.b := fun e => hs s hs' (h1.symm.trans e)
          rw [if_pos h1, if_pos h1, if_neg this, add_zero]
        · rw [if_neg h1, if_neg h1, zero_add]
      simp only [e, Finset.sum_add_distrib, Finset.sum_ite_eq', Finset.mem_univ, if_true]
      exact h
    have half : (1 : 𝕜) / 2 + 1 / 2 = 1 := by field_simp; norm_num
    rcases hq with rfl | rfl | rfl
    · exact this _ _ _ (add_zero _)
    · exact this _ _ _ half
    · exact this _ _ _ (zero_add _)
  gradN := by
    intro q hq
    obtain ⟨t, ht, hq⟩ := mem_dom.mp hq
    have e : q.gradN = T.gradHat t := by rcases hq with rfl | rfl | rfl <;> rfl
    have h := vectorAt_gradHat (hd t ht) (fun _ => 1)
    rw [e]
    have h1 := congrArg Prod.fst h
    have h2 := congrArg Prod.snd h
    simp only [vectorAt, one_mul] at h1 h2
    refine ⟨h1.trans ?_, h2.trans ?_⟩
    · rw [div_eq_zero_iff]; left; ring
    · rw [div_eq_zero_iff]; left; ring
  grad := by
    funext k
    have := grad_apply (fun _ => (1 : 𝕜)) k
    rw [sub_self] at this
    exact this

/-- The discrete gradient is the gradient. -/
theorem fem_gradient (hd : ∀ t ∈ T.tris, T.det t ≠ 0) (h2 : (2 : 𝕜) ≠ 0) {q : DomPt 𝕜 T.nv T.edges.length T.edges.length}
    (hq : q ∈ T.fem.dom) (u : Fin T.nv → 𝕜) :
    vectorAt q.W (fun k => ∑ i, T.fem.grad k i * u i) = vectorAt q.gradN u := by
  obtain ⟨t, ht, hq⟩ := mem_dom.mp hq
  have half : (1 : 𝕜) / 2 + 1 / 2 = 1 := by field_simp; norm_num
  simp only [grad_apply]
  rcases hq with rfl | rfl | rfl
  · exact whitney_gradient ht (hd t ht) (by rw [add_zero, half]) u
  · exact whitney_gradient ht (hd t ht) (by rw [zero_add, half]) u
  · exact whitney_gradient ht (hd t ht) (by rw [add_zero, half]) u

end

section
variable {𝕜 : Type} [Field 𝕜] [LinearOrder 𝕜] [IsStrictOrderedRing 𝕜] {T : Triangulation 𝕜} {mats : Materials 𝕜}
  {A : Analytic 𝕜}

theorem Spec.Proper.det_ne (h : Proper T) : ∀ t ∈ T.tris, T.det t ≠ 0 := fun t ht => (h.area t ht).ne'

theorem Spec.Proper.seg_ne (h : Proper T) : ∀ s ∈ T.segs, s.a ≠ s.b := by
  intro s hs
  obtain ⟨t, ht, hst⟩ := h.segs s hs
  exact side_ne (h.det_ne t ht) hst

theorem triangles_separate (ha : ConductorsApart T mats) : Separate T.fem mats := by
  intro p hp q hq k h1 h2
  by_contra hne
  exact ha p hp q hq hne k (onBoundary_iff.mp h1) (onBoundary_iff.mp h2)

/-- Mesh and materials make the solver buildable. -/
theorem triangles_buildable (h : Proper T) (hm : Sensible T mats) : Buildable T.fem mats where
  bdr := by
    constructor
    · intro b hb
      obtain ⟨s, hs, rfl⟩ := List.mem_map.mp hb
      exact List.mem_dedup.mpr (List.mem_map_of_mem hs)
    · intro a ha
      obtain ⟨s, hs, rfl⟩ := List.mem_map.mp (List.mem_dedup.mp ha)
      exact h.segAttrs s hs
  bdrAttrs := by
    obtain ⟨s, hs⟩ := List.exists_mem_of_ne_nil _ h.boundary
    exact List.ne_nil_of_mem (List.mem_dedup.mpr (List.mem_map_of_mem hs))
  points := by
    intro q hq
    obtain ⟨s, hs, hq⟩ := mem_bdr.mp hq
    rcases hq with rfl | rfl | rfl <;> exact h.segAttrs s hs
  pecs := hm.pecs
  opens := hm.opens
  names := hm.names
  dielectrics := by
    intro d hd
    obtain ⟨h1, t, ht, h2⟩ := hm.dielectrics d hd
    exact ⟨h1, t.attr, List.mem_dedup.mpr (List.mem_map_of_mem ht), h2⟩

/-- Mesh and materials make the discrete problem elliptic. -/
theorem triangles_elliptic (h : Proper T) (hm : Sensible T mats) (hj : JoinedToConductors T mats)
    (ho : OpenAbsorb A T mats) :
    Elliptic A T.fem mats where
  weights := by
    intro q hq
    obtain ⟨t, ht, hq⟩ := mem_dom.mp hq
    have : 0 < T.det t / 6 := div_pos (h.area t ht) (by norm_num)
    rcases hq with rfl | rfl | rfl <;> exact this
  permittivities := hm.permittivities
  opens := by
    intro q hq hopen
    obtain ⟨s, hs, hq⟩ := mem_bdr.mp hq
    have e : q.attr = s.attr := by rcases hq with rfl | rfl | rfl <;> rfl
    rw [e] at hopen
    obtain ⟨hl, ha⟩ := ho s hs hopen
    rcases hq with rfl | rfl | rfl <;>
      exact mul_nonneg (mul_nonneg hl (by norm_num)) (ha _ _ (by norm_num) (by norm_num) (by norm_num))
  nodes := by
    rintro k ⟨p, hp, hk⟩
    obtain ⟨s, hs, _, hk⟩ := onBoundary_iff.mp hk
    obtain ⟨t, ht, hst⟩ := h.segs s hs
    have hd := h.det_ne t ht
    obtain ⟨va, vb⟩ := side_vertices hst
    refine ⟨_, mem_dom.mpr ⟨t, ht, Or.inl rfl⟩, fun hz => ?_⟩
    have hz' : T.gradHat t k = (0, 0) := hz
    have := gradHat_difference hd k va vb
    rw [hz'] at this
    have hne := side_ne hd hst
    rcases hk with rfl | rfl
    · simp [inner2, hne.symm] at this
    · simp [inner2, hne] at this
  potentials := by
    intro u h0 hg k
    obtain ⟨p, hp, w, hw, hkw⟩ := hj k
    rw [constant_joined h.det_ne u hg hkw]
    exact h0 w ⟨p, hp, onBoundary_iff.mpr hw⟩
  fluxes := fun d hd => flux_determined h.det_ne two_ne_zero d hd

end

end Tulip
