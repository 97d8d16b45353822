import Verif.Proofs.HalvedMesh

/-!
# Facts about the mesh with every triangle cut into four
-/

namespace Tulip
open Set Spec Props

variable {T : Triangulation ℝ}

section
variable (hT : Proper T)
include hT

theorem quarters_apart {t : Tri T.nv} (ht : t ∈ T.tris) :
    (quarters T t).Pairwise (fun q q' => Disjoint (interior (triangle (halved T) q)) (interior (triangle (halved T) q'))) := by
  have hin : ∀ {q : Tri (halved T).nv}, q ∈ quarters T t → ∀ x, x ∈ interior (triangle (halved T) q) → ∀ k, IsVertex q k → 0 < bary (halved T) q x k :=
    fun hq x hx k hk => bary_interior (quarter_det_ne hT ht hq) hx hk
  have ia : ∀ x ∈ interior (triangle (halved T) (qa T t)), 0 < 2 * bary T t x t.a - 1 ∧ 0 < 2 * bary T t x t.b ∧ 0 < 2 * bary T t x t.c := fun x hx => by
    obtain ⟨k1, k2, k3⟩ := bary_qa hT ht x
    have hm := mem_quarters_iff (t := t).mpr (.inl rfl)
    exact ⟨k1 ▸ hin hm x hx _ (.inl rfl), k2 ▸ hin hm x hx _ (.inr (.inl rfl)), k3 ▸ hin hm x hx _ (.inr (.inr rfl))⟩
  have ib : ∀ x ∈ interior (triangle (halved T) (qb T t)), 0 < 2 * bary T t x t.a ∧ 0 < 2 * bary T t x t.b - 1 ∧ 0 < 2 * bary T t x t.c := fun x hx => by
    obtain ⟨k1, k2, k3⟩ := bary_qb hT ht x
    have hm := mem_quarters_iff (t := t).mpr (.inr (.inl rfl))
    exact ⟨k1 ▸ hin hm x hx _ (.inl rfl), k2 ▸ hin hm x hx _ (.inr (.inl rfl)), k3 ▸ hin hm x hx _ (.inr (.inr rfl))⟩
  have ic : ∀ x ∈ interior (triangle (halved T) (qc T t)), 0 < 2 * bary T t x t.a ∧ 0 < 2 * bary T t x t.b ∧ 0 < 2 * bary T t x t.c - 1 := fun x hx => by
    obtain ⟨k1, k2, k3⟩ := bary_qc hT ht x
    have hm := mem_quarters_iff (t := t).mpr (.inr (.inr (.inl rfl)))
    exact ⟨k1 ▸ hin hm x hx _ (.inl rfl), k2 ▸ hin hm x hx _ (.inr (.inl rfl)), k3 ▸ hin hm x hx _ (.inr (.inr rfl))⟩
  have id : ∀ x ∈ interior (triangle (halved T) (qd T t)), 0 < 1 - 2 * bary T t x t.c ∧ 0 < 1 - 2 * bary T t x t.a ∧ 0 < 1 - 2 * bary T t x t.b := fun x hx => by
    obtain ⟨k1, k2, k3⟩ := bary_qd hT ht x
    have hm := mem_quarters_iff (t := t).mpr (.inr (.inr (.inr rfl)))
    exact ⟨k1 ▸ hin hm x hx _ (.inl rfl), k2 ▸ hin hm x hx _ (.inr (.inl rfl)), k3 ▸ hin hm x hx _ (.inr (.inr rfl))⟩
  have hs := bary_sum (hT.area t ht).ne'
  rw [quarters_eq]
  refine .cons ?_ (.cons ?_ (.cons ?_ (.cons ?_ .nil)))
  · intro q hq
    rcases List.mem_cons.mp hq with rfl | hq
    · exact Set.disjoint_left.mpr fun x h1 h2 => by linarith [(ia x h1).1, (ib x h2).2.1, hs x, (ib x h2).2.2]
    rcases List.mem_cons.mp hq with rfl | hq
    · exact Set.disjoint_left.mpr fun x h1 h2 => by linarith [(ia x h1).1, (ic x h2).2.2, hs x, (ia x h1).2.1]
    · obtain rfl := List.mem_singleton.mp hq
      exact Set.disjoint_left.mpr fun x h1 h2 => by linarith [(ia x h1).1, (id x h2).2.1]
  · intro q hq
    rcases List.mem_cons.mp hq with rfl | hq
    · exact Set.disjoint_left.mpr fun x h1 h2 => by linarith [(ib x h1).2.1, (ic x h2).2.2, hs x, (ib x h1).1]
    · obtain rfl := List.mem_singleton.mp hq
      exact Set.disjoint_left.mpr fun x h1 h2 => by linarith [(ib x h1).2.1, (id x h2).2.2]
  · intro q hq
    obtain rfl := List.mem_singleton.mp hq
    exact Set.disjoint_left.mpr fun x h1 h2 => by linarith [(ic x h1).2.2, (id x h2).1]
  · intro q hq
    exact absurd hq List.not_mem_nil

theorem halved_embedded (hE : Embedded T) : Embedded (halved T) := by
  constructor
  · refine List.pairwise_flatMap.mpr ⟨fun t ht => quarters_apart hT ht, ?_⟩
    refine hE.apart.imp_of_mem fun {t t'} ht ht' h q hq q' hq' => ?_
    exact h.mono (interior_mono (quarter_subset hT ht hq)) (interior_mono (quarter_subset hT ht' hq'))
  · intro q hq q' hq' x hx hx'
    obtain ⟨t, ht, hqt⟩ := mem_quarters hq
    obtain ⟨t', ht', hqt'⟩ := mem_quarters hq'
    have hc := bary_common hT hE ht ht' (quarter_subset hT ht hqt hx) (quarter_subset hT ht' hqt' hx')
    refine bary_hull (quarter_det_ne hT ht hqt) hx fun k hk h0 => ?_
    obtain ⟨v, w, rfl, e1, e2, e3, e4⟩ := quarter_carries hT ht hqt hx hk h0
    exact mem_image_of_mem _ ⟨hk, quarter_carried hT ht' hqt' hx' (hc v ▸ e1) (hc w ▸ e2) (hc v ▸ e3) (hc v ▸ hc w ▸ e4)⟩

theorem halved_proper : Proper (halved T) where
  area q hq := by
    obtain ⟨t, ht, hqt⟩ := mem_quarters hq
    rw [quarters_det ht hqt]
    have := hT.area t ht
    positivity
  segs s hs := by
    obtain ⟨s0, hs0, hs⟩ := List.mem_flatMap.mp hs
    obtain ⟨t, ht, hside⟩ := hT.segs s0 hs0
    have hs' : (s.a = mid T s0.a s0.a ∧ s.b = mid T s0.a s0.b) ∨ (s.a = mid T s0.a s0.b ∧ s.b = mid T s0.b s0.b) := by
      rcases List.mem_cons.mp hs with rfl | hs
      · exact .inl ⟨rfl, rfl⟩
      · obtain rfl := List.mem_singleton.mp hs
        exact .inr ⟨rfl, rfl⟩
    have hq : ∀ q, (q = qa T t ∨ q = qb T t ∨ q = qc T t ∨ q = qd T t) → q ∈ (halved T).tris := fun q h => quarters_mem ht (mem_quarters_iff.mpr h)
    unfold Tri.sides at hside
    simp only [List.mem_cons, Prod.mk.injEq, List.not_mem_nil, or_false] at hside
    rcases hside with ⟨e1, e2⟩ | ⟨e1, e2⟩ | ⟨e1, e2⟩ <;> rw [e1, e2] at hs' <;> rcases hs' with ⟨f1, f2⟩ | ⟨f1, f2⟩ <;> rw [f1, f2]
    · exact ⟨qa T t, hq _ (.inl rfl), by simp [Tri.sides, qa]⟩
    · exact ⟨qb T t, hq _ (.inr (.inl rfl)), by simp [Tri.sides, qb]⟩
    · exact ⟨qb T t, hq _ (.inr (.inl rfl)), by simp [Tri.sides, qb]⟩
    · exact ⟨qc T t, hq _ (.inr (.inr (.inl rfl))), by simp [Tri.sides, qc]⟩
    · exact ⟨qc T t, hq _ (.inr (.inr (.inl rfl))), by simp [Tri.sides, qc]⟩
    · exact ⟨qa T t, hq _ (.inl rfl), by simp [Tri.sides, qa]⟩
  boundary := by
    intro h
    obtain ⟨s, hs⟩ := List.exists_mem_of_ne_nil _ hT.boundary
    exact absurd (List.flatMap_eq_nil_iff.mp h s hs) (by simp)
  triAttrs q hq := by
    obtain ⟨t, ht, hqt⟩ := mem_quarters hq
    rw [quarters_attr hqt]
    exact hT.triAttrs t ht
  segAttrs s hs := by
    obtain ⟨s0, hs0, hs⟩ := List.mem_flatMap.mp hs
    have : s.attr = s0.attr := by
      rcases List.mem_cons.mp hs with rfl | hs
      · rfl
      · obtain rfl := List.mem_singleton.mp hs
        rfl
    rw [this]
    exact hT.segAttrs s0 hs0

theorem halved_same (hE : Embedded T) : SameCrossSection T (halved T) where
  region := by
    ext x
    constructor
    · rintro ⟨t, ht, hx⟩
      obtain ⟨q, hq, hxq⟩ := quarters_cover hT ht hx
      exact ⟨q, quarters_mem ht hq, hxq⟩
    · rintro ⟨q, hq, hx⟩
      obtain ⟨t, ht, hqt⟩ := mem_quarters hq
      exact ⟨t, ht, quarter_subset hT ht hqt hx⟩
  material := by
    rintro t ht q hq ⟨x, hx, hxq⟩
    obtain ⟨t', ht', hqt⟩ := mem_quarters hq
    rw [quarters_attr hqt]
    exact (sameCrossSection_refl hE.apart).material t ht t' ht' ⟨x, hx, interior_mono (quarter_subset hT ht' hqt) hxq⟩
  boundary tag := by
    have hside : ∀ s ∈ T.segs, ∃ t ∈ T.tris, IsVertex t s.a ∧ IsVertex t s.b := fun s hs => by
      obtain ⟨t, ht, hm⟩ := hT.segs s hs
      unfold Tri.sides at hm
      simp only [List.mem_cons, Prod.mk.injEq, List.not_mem_nil, or_false] at hm
      refine ⟨t, ht, ?_⟩
      rcases hm with ⟨e1, e2⟩ | ⟨e1, e2⟩ | ⟨e1, e2⟩ <;> rw [e1, e2] <;> simp [IsVertex]
    ext x
    constructor
    · rintro ⟨s, hs, rfl, hx⟩
      obtain ⟨t, ht, va, vb⟩ := hside s hs
      have ea : (halved T).coord (mid T s.a s.a) = T.coord s.a := by rw [mid_coord (diag_mem _), middle_self]
      have eb : (halved T).coord (mid T s.b s.b) = T.coord s.b := by rw [mid_coord (diag_mem _), middle_self]
      have em : (halved T).coord (mid T s.a s.b) = middle (T.coord s.a) (T.coord s.b) := mid_coord (side_mem ht va vb)
      obtain ⟨u, w, hu, hw, huw, rfl⟩ := hx
      by_cases h : w ≤ u
      · refine ⟨⟨s.attr, mid T s.a s.a, mid T s.a s.b, s.len / 2⟩, List.mem_flatMap.mpr ⟨s, hs, List.mem_cons_self⟩, rfl, u - w, 2 * w, by linarith, by linarith, by linarith, ?_⟩
        simp only [ea, em]
        unfold middle
        module
      · refine ⟨⟨s.attr, mid T s.a s.b, mid T s.b s.b, s.len / 2⟩, List.mem_flatMap.mpr ⟨s, hs, List.mem_cons_of_mem _ List.mem_cons_self⟩, rfl, 2 * u, w - u, by linarith, by linarith, by linarith, ?_⟩
        simp only [eb, em]
        unfold middle
        module
    · rintro ⟨s', hs', rfl, hx⟩
      obtain ⟨s, hs, hs'⟩ := List.mem_flatMap.mp hs'
      obtain ⟨t, ht, va, vb⟩ := hside s hs
      have ea : (halved T).coord (mid T s.a s.a) = T.coord s.a := by rw [mid_coord (diag_mem _), middle_self]
      have eb : (halved T).coord (mid T s.b s.b) = T.coord s.b := by rw [mid_coord (diag_mem _), middle_self]
      have em : (halved T).coord (mid T s.a s.b) = middle (T.coord s.a) (T.coord s.b) := mid_coord (side_mem ht va vb)
      rcases List.mem_cons.mp hs' with rfl | hs'
      · refine ⟨s, hs, rfl, ?_⟩
        obtain ⟨u, w, hu, hw, huw, rfl⟩ := hx
        refine ⟨u + 2⁻¹ * w, 2⁻¹ * w, by positivity, by positivity, by linarith, ?_⟩
        simp only [ea, em]
        unfold middle
        module
      · obtain rfl := List.mem_singleton.mp hs'
        refine ⟨s, hs, rfl, ?_⟩
        obtain ⟨u, w, hu, hw, huw, rfl⟩ := hx
        refine ⟨2⁻¹ * u, w + 2⁻¹ * u, by positivity, by positivity, by linarith, ?_⟩
        simp only [eb, em]
        unfold middle
        module

end
end Tulip
