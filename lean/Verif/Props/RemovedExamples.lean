import Verif.Props.Removed
import Verif.Props.ShrunkExamples

/-!
# C107: an example
-/

namespace Tulip.Props
open Tulip Tulip.Spec MeasureTheory Set

/-- Two plates, at 0 and at 3, with a conductor (tag 2) that fills the space from 1 to 2. -/
noncomputable def blocked : Triangulation ℝ where
  nv := 8
  coord := ![(0, 0), (1, 0), (1, 1), (0, 1), (2, 0), (3, 0), (3, 1), (2, 1)]
  tris := [⟨1, 0, 1, 2⟩, ⟨2, 0, 2, 3⟩, ⟨1, 4, 5, 6⟩, ⟨1, 4, 6, 7⟩]
  segs := [⟨1, 3, 0, 1⟩, ⟨4, 5, 6, 1⟩, ⟨2, 1, 2, 1⟩, ⟨2, 7, 4, 1⟩, ⟨3, 0, 1, 1⟩, ⟨3, 2, 3, 1⟩, ⟨3, 4, 5, 1⟩, ⟨3, 6, 7, 1⟩]

/-- The same plates without this conductor. -/
noncomputable def cleared : Triangulation ℝ where
  nv := 8
  coord := ![(0, 0), (1, 0), (1, 1), (0, 1), (2, 0), (3, 0), (3, 1), (2, 1)]
  tris := [⟨1, 0, 1, 2⟩, ⟨2, 0, 2, 3⟩, ⟨1, 4, 5, 6⟩, ⟨1, 4, 6, 7⟩, ⟨1, 1, 4, 7⟩, ⟨1, 1, 7, 2⟩]
  segs := [⟨1, 3, 0, 1⟩, ⟨4, 5, 6, 1⟩, ⟨3, 0, 1, 1⟩, ⟨3, 2, 3, 1⟩, ⟨3, 4, 5, 1⟩, ⟨3, 6, 7, 1⟩, ⟨3, 1, 4, 1⟩, ⟨3, 7, 2, 1⟩]

/-- three conductors, and a dielectric -/
noncomputable def blockedMats : Materials ℝ where
  pecs := [⟨"Conductor_0", 1, 0⟩, ⟨"Conductor_1", 4, 0⟩, ⟨"Conductor_2", 2, 0⟩]
  dielectrics := [⟨"Dielectric_1", 2, 4⟩]
  openBoundaries := []

/-- without the third conductor -/
noncomputable def clearedMats : Materials ℝ where
  pecs := [⟨"Conductor_0", 1, 0⟩, ⟨"Conductor_1", 4, 0⟩]
  dielectrics := [⟨"Dielectric_1", 2, 4⟩]
  openBoundaries := []

def gap1 : Tri cleared.nv := ⟨1, (0 : Fin 8), (1 : Fin 8), (2 : Fin 8)⟩
def gap2 : Tri cleared.nv := ⟨2, (0 : Fin 8), (2 : Fin 8), (3 : Fin 8)⟩
def gap3 : Tri cleared.nv := ⟨1, (4 : Fin 8), (5 : Fin 8), (6 : Fin 8)⟩
def gap4 : Tri cleared.nv := ⟨1, (4 : Fin 8), (6 : Fin 8), (7 : Fin 8)⟩
def gap5 : Tri cleared.nv := ⟨1, (1 : Fin 8), (4 : Fin 8), (7 : Fin 8)⟩
def gap6 : Tri cleared.nv := ⟨1, (1 : Fin 8), (7 : Fin 8), (2 : Fin 8)⟩

theorem gap_tris {t : Tri cleared.nv} (h : t ∈ cleared.tris) : t = gap1 ∨ t = gap2 ∨ t = gap3 ∨ t = gap4 ∨ t = gap5 ∨ t = gap6 := by
  rcases List.mem_cons.mp h with h | h
  · exact .inl h
  rcases List.mem_cons.mp h with h | h
  · exact .inr (.inl h)
  rcases List.mem_cons.mp h with h | h
  · exact .inr (.inr (.inl h))
  rcases List.mem_cons.mp h with h | h
  · exact .inr (.inr (.inr (.inl h)))
  rcases List.mem_cons.mp h with h | h
  · exact .inr (.inr (.inr (.inr (.inl h))))
  · exact .inr (.inr (.inr (.inr (.inr (List.mem_singleton.mp h)))))

theorem blocked_tris {t : Tri blocked.nv} (h : t ∈ blocked.tris) : t = gap1 ∨ t = gap2 ∨ t = gap3 ∨ t = gap4 := by
  rcases List.mem_cons.mp h with h | h
  · exact .inl h
  rcases List.mem_cons.mp h with h | h
  · exact .inr (.inl h)
  rcases List.mem_cons.mp h with h | h
  · exact .inr (.inr (.inl h))
  · exact .inr (.inr (.inr (List.mem_singleton.mp h)))

theorem gap_mem : gap1 ∈ cleared.tris ∧ gap2 ∈ cleared.tris ∧ gap3 ∈ cleared.tris ∧ gap4 ∈ cleared.tris ∧ gap5 ∈ cleared.tris ∧ gap6 ∈ cleared.tris :=
  ⟨List.mem_cons_self,
    List.mem_cons_of_mem _ List.mem_cons_self,
    List.mem_cons_of_mem _ (List.mem_cons_of_mem _ List.mem_cons_self),
    List.mem_cons_of_mem _ (List.mem_cons_of_mem _ (List.mem_cons_of_mem _ List.mem_cons_self)),
    List.mem_cons_of_mem _ (List.mem_cons_of_mem _ (List.mem_cons_of_mem _ (List.mem_cons_of_mem _ List.mem_cons_self))),
    List.mem_cons_of_mem _ (List.mem_cons_of_mem _ (List.mem_cons_of_mem _ (List.mem_cons_of_mem _ (List.mem_cons_of_mem _ List.mem_cons_self))))⟩

theorem gap_det {t : Tri cleared.nv} (h : t ∈ cleared.tris) : cleared.det t = 1 := by
  rcases gap_tris h with rfl | rfl | rfl | rfl | rfl | rfl <;> simp [Triangulation.det, cleared, gap1, gap2, gap3, gap4, gap5, gap6] <;> norm_num

theorem gap_ne {t : Tri cleared.nv} (h : t ∈ cleared.tris) : cleared.det t ≠ 0 := by
  rw [gap_det h]
  exact one_ne_zero

theorem gap_bary1 (x : ℝ × ℝ) : bary cleared gap1 x gap1.a = 1 - x.1 ∧ bary cleared gap1 x gap1.b = x.1 - 0 - x.2 ∧ bary cleared gap1 x gap1.c = x.2 := by
  have hm := gap_mem.1
  have h := bary_verts (gap_ne hm) x
  rw [gap_det hm] at h
  rw [h.1, h.2.1, h.2.2]
  simp only [planeDet, cleared, gap1]
  refine ⟨?_, ?_, ?_⟩ <;> simp <;> ring

theorem gap_triangle1 (x : ℝ × ℝ) : x ∈ triangle cleared gap1 ↔ 0 ≤ 1 - x.1 ∧ 0 ≤ x.1 - 0 - x.2 ∧ 0 ≤ x.2 := by
  obtain ⟨h1, h2, h3⟩ := gap_bary1 x
  rw [mem_triangle (gap_ne gap_mem.1), h1, h2, h3]

theorem gap_interior1 {x : ℝ × ℝ} (h : x ∈ interior (triangle cleared gap1)) : 0 < 1 - x.1 ∧ 0 < x.1 - 0 - x.2 ∧ 0 < x.2 := by
  obtain ⟨h1, h2, h3⟩ := gap_bary1 x
  have hm := gap_mem.1
  rw [← h1, ← h2, ← h3]
  exact ⟨bary_interior (gap_ne hm) h (.inl rfl), bary_interior (gap_ne hm) h (.inr (.inl rfl)), bary_interior (gap_ne hm) h (.inr (.inr rfl))⟩

theorem gap_bary2 (x : ℝ × ℝ) : bary cleared gap2 x gap2.a = 1 - x.2 ∧ bary cleared gap2 x gap2.b = x.1 - 0 ∧ bary cleared gap2 x gap2.c = x.2 - x.1 + 0 := by
  have hm := gap_mem.2.1
  have h := bary_verts (gap_ne hm) x
  rw [gap_det hm] at h
  rw [h.1, h.2.1, h.2.2]
  simp only [planeDet, cleared, gap2]
  refine ⟨?_, ?_, ?_⟩ <;> simp <;> ring

theorem gap_triangle2 (x : ℝ × ℝ) : x ∈ triangle cleared gap2 ↔ 0 ≤ 1 - x.2 ∧ 0 ≤ x.1 - 0 ∧ 0 ≤ x.2 - x.1 + 0 := by
  obtain ⟨h1, h2, h3⟩ := gap_bary2 x
  rw [mem_triangle (gap_ne gap_mem.2.1), h1, h2, h3]

theorem gap_interior2 {x : ℝ × ℝ} (h : x ∈ interior (triangle cleared gap2)) : 0 < 1 - x.2 ∧ 0 < x.1 - 0 ∧ 0 < x.2 - x.1 + 0 := by
  obtain ⟨h1, h2, h3⟩ := gap_bary2 x
  have hm := gap_mem.2.1
  rw [← h1, ← h2, ← h3]
  exact ⟨bary_interior (gap_ne hm) h (.inl rfl), bary_interior (gap_ne hm) h (.inr (.inl rfl)), bary_interior (gap_ne hm) h (.inr (.inr rfl))⟩

theorem gap_bary3 (x : ℝ × ℝ) : bary cleared gap3 x gap3.a = 3 - x.1 ∧ bary cleared gap3 x gap3.b = x.1 - 2 - x.2 ∧ bary cleared gap3 x gap3.c = x.2 := by
  have hm := gap_mem.2.2.1
  have h := bary_verts (gap_ne hm) x
  rw [gap_det hm] at h
  rw [h.1, h.2.1, h.2.2]
  simp only [planeDet, cleared, gap3]
  refine ⟨?_, ?_, ?_⟩ <;> simp <;> ring

theorem gap_triangle3 (x : ℝ × ℝ) : x ∈ triangle cleared gap3 ↔ 0 ≤ 3 - x.1 ∧ 0 ≤ x.1 - 2 - x.2 ∧ 0 ≤ x.2 := by
  obtain ⟨h1, h2, h3⟩ := gap_bary3 x
  rw [mem_triangle (gap_ne gap_mem.2.2.1), h1, h2, h3]

theorem gap_interior3 {x : ℝ × ℝ} (h : x ∈ interior (triangle cleared gap3)) : 0 < 3 - x.1 ∧ 0 < x.1 - 2 - x.2 ∧ 0 < x.2 := by
  obtain ⟨h1, h2, h3⟩ := gap_bary3 x
  have hm := gap_mem.2.2.1
  rw [← h1, ← h2, ← h3]
  exact ⟨bary_interior (gap_ne hm) h (.inl rfl), bary_interior (gap_ne hm) h (.inr (.inl rfl)), bary_interior (gap_ne hm) h (.inr (.inr rfl))⟩

theorem gap_bary4 (x : ℝ × ℝ) : bary cleared gap4 x gap4.a = 1 - x.2 ∧ bary cleared gap4 x gap4.b = x.1 - 2 ∧ bary cleared gap4 x gap4.c = x.2 - x.1 + 2 := by
  have hm := gap_mem.2.2.2.1
  have h := bary_verts (gap_ne hm) x
  rw [gap_det hm] at h
  rw [h.1, h.2.1, h.2.2]
  simp only [planeDet, cleared, gap4]
  refine ⟨?_, ?_, ?_⟩ <;> simp <;> ring

theorem gap_triangle4 (x : ℝ × ℝ) : x ∈ triangle cleared gap4 ↔ 0 ≤ 1 - x.2 ∧ 0 ≤ x.1 - 2 ∧ 0 ≤ x.2 - x.1 + 2 := by
  obtain ⟨h1, h2, h3⟩ := gap_bary4 x
  rw [mem_triangle (gap_ne gap_mem.2.2.2.1), h1, h2, h3]

theorem gap_interior4 {x : ℝ × ℝ} (h : x ∈ interior (triangle cleared gap4)) : 0 < 1 - x.2 ∧ 0 < x.1 - 2 ∧ 0 < x.2 - x.1 + 2 := by
  obtain ⟨h1, h2, h3⟩ := gap_bary4 x
  have hm := gap_mem.2.2.2.1
  rw [← h1, ← h2, ← h3]
  exact ⟨bary_interior (gap_ne hm) h (.inl rfl), bary_interior (gap_ne hm) h (.inr (.inl rfl)), bary_interior (gap_ne hm) h (.inr (.inr rfl))⟩

theorem gap_bary5 (x : ℝ × ℝ) : bary cleared gap5 x gap5.a = 2 - x.1 ∧ bary cleared gap5 x gap5.b = x.1 - 1 - x.2 ∧ bary cleared gap5 x gap5.c = x.2 := by
  have hm := gap_mem.2.2.2.2.1
  have h := bary_verts (gap_ne hm) x
  rw [gap_det hm] at h
  rw [h.1, h.2.1, h.2.2]
  simp only [planeDet, cleared, gap5]
  refine ⟨?_, ?_, ?_⟩ <;> simp <;> ring

theorem gap_triangle5 (x : ℝ × ℝ) : x ∈ triangle cleared gap5 ↔ 0 ≤ 2 - x.1 ∧ 0 ≤ x.1 - 1 - x.2 ∧ 0 ≤ x.2 := by
  obtain ⟨h1, h2, h3⟩ := gap_bary5 x
  rw [mem_triangle (gap_ne gap_mem.2.2.2.2.1), h1, h2, h3]

theorem gap_interior5 {x : ℝ × ℝ} (h : x ∈ interior (triangle cleared gap5)) : 0 < 2 - x.1 ∧ 0 < x.1 - 1 - x.2 ∧ 0 < x.2 := by
  obtain ⟨h1, h2, h3⟩ := gap_bary5 x
  have hm := gap_mem.2.2.2.2.1
  rw [← h1, ← h2, ← h3]
  exact ⟨bary_interior (gap_ne hm) h (.inl rfl), bary_interior (gap_ne hm) h (.inr (.inl rfl)), bary_interior (gap_ne hm) h (.inr (.inr rfl))⟩

theorem gap_bary6 (x : ℝ × ℝ) : bary cleared gap6 x gap6.a = 1 - x.2 ∧ bary cleared gap6 x gap6.b = x.1 - 1 ∧ bary cleared gap6 x gap6.c = x.2 - x.1 + 1 := by
  have hm := gap_mem.2.2.2.2.2
  have h := bary_verts (gap_ne hm) x
  rw [gap_det hm] at h
  rw [h.1, h.2.1, h.2.2]
  simp only [planeDet, cleared, gap6]
  refine ⟨?_, ?_, ?_⟩ <;> simp <;> ring

theorem gap_triangle6 (x : ℝ × ℝ) : x ∈ triangle cleared gap6 ↔ 0 ≤ 1 - x.2 ∧ 0 ≤ x.1 - 1 ∧ 0 ≤ x.2 - x.1 + 1 := by
  obtain ⟨h1, h2, h3⟩ := gap_bary6 x
  rw [mem_triangle (gap_ne gap_mem.2.2.2.2.2), h1, h2, h3]

theorem gap_interior6 {x : ℝ × ℝ} (h : x ∈ interior (triangle cleared gap6)) : 0 < 1 - x.2 ∧ 0 < x.1 - 1 ∧ 0 < x.2 - x.1 + 1 := by
  obtain ⟨h1, h2, h3⟩ := gap_bary6 x
  have hm := gap_mem.2.2.2.2.2
  rw [← h1, ← h2, ← h3]
  exact ⟨bary_interior (gap_ne hm) h (.inl rfl), bary_interior (gap_ne hm) h (.inr (.inl rfl)), bary_interior (gap_ne hm) h (.inr (.inr rfl))⟩

theorem cleared_embedded : Embedded cleared where
  apart := by
    have key : ∀ {t t' : Tri cleared.nv}, (∀ x, x ∈ interior (triangle cleared t) → x ∈ interior (triangle cleared t') → False) →
        Disjoint (interior (triangle cleared t)) (interior (triangle cleared t')) := fun h => Set.disjoint_left.mpr fun x hx hx' => h x hx hx'
    show List.Pairwise _ [gap1, gap2, gap3, gap4, gap5, gap6]
    simp only [List.pairwise_cons, List.mem_cons, List.not_mem_nil, or_false, forall_eq_or_imp, forall_eq, IsEmpty.forall_iff, implies_true, List.Pairwise.nil, and_true]
    refine ⟨⟨key fun x h h' => ?_, key fun x h h' => ?_, key fun x h h' => ?_, key fun x h h' => ?_, key fun x h h' => ?_⟩, ⟨key fun x h h' => ?_, key fun x h h' => ?_, key fun x h h' => ?_, key fun x h h' => ?_⟩, ⟨key fun x h h' => ?_, key fun x h h' => ?_, key fun x h h' => ?_⟩, ⟨key fun x h h' => ?_, key fun x h h' => ?_⟩, key fun x h h' => ?_⟩
    · linarith [(gap_interior1 h).1, (gap_interior1 h).2.1, (gap_interior1 h).2.2, (gap_interior2 h').1, (gap_interior2 h').2.1, (gap_interior2 h').2.2]
    · linarith [(gap_interior1 h).1, (gap_interior1 h).2.1, (gap_interior1 h).2.2, (gap_interior3 h').1, (gap_interior3 h').2.1, (gap_interior3 h').2.2]
    · linarith [(gap_interior1 h).1, (gap_interior1 h).2.1, (gap_interior1 h).2.2, (gap_interior4 h').1, (gap_interior4 h').2.1, (gap_interior4 h').2.2]
    · linarith [(gap_interior1 h).1, (gap_interior1 h).2.1, (gap_interior1 h).2.2, (gap_interior5 h').1, (gap_interior5 h').2.1, (gap_interior5 h').2.2]
    · linarith [(gap_interior1 h).1, (gap_interior1 h).2.1, (gap_interior1 h).2.2, (gap_interior6 h').1, (gap_interior6 h').2.1, (gap_interior6 h').2.2]
    · linarith [(gap_interior2 h).1, (gap_interior2 h).2.1, (gap_interior2 h).2.2, (gap_interior3 h').1, (gap_interior3 h').2.1, (gap_interior3 h').2.2]
    · linarith [(gap_interior2 h).1, (gap_interior2 h).2.1, (gap_interior2 h).2.2, (gap_interior4 h').1, (gap_interior4 h').2.1, (gap_interior4 h').2.2]
    · linarith [(gap_interior2 h).1, (gap_interior2 h).2.1, (gap_interior2 h).2.2, (gap_interior5 h').1, (gap_interior5 h').2.1, (gap_interior5 h').2.2]
    · linarith [(gap_interior2 h).1, (gap_interior2 h).2.1, (gap_interior2 h).2.2, (gap_interior6 h').1, (gap_interior6 h').2.1, (gap_interior6 h').2.2]
    · linarith [(gap_interior3 h).1, (gap_interior3 h).2.1, (gap_interior3 h).2.2, (gap_interior4 h').1, (gap_interior4 h').2.1, (gap_interior4 h').2.2]
    · linarith [(gap_interior3 h).1, (gap_interior3 h).2.1, (gap_interior3 h).2.2, (gap_interior5 h').1, (gap_interior5 h').2.1, (gap_interior5 h').2.2]
    · linarith [(gap_interior3 h).1, (gap_interior3 h).2.1, (gap_interior3 h).2.2, (gap_interior6 h').1, (gap_interior6 h').2.1, (gap_interior6 h').2.2]
    · linarith [(gap_interior4 h).1, (gap_interior4 h).2.1, (gap_interior4 h).2.2, (gap_interior5 h').1, (gap_interior5 h').2.1, (gap_interior5 h').2.2]
    · linarith [(gap_interior4 h).1, (gap_interior4 h).2.1, (gap_interior4 h).2.2, (gap_interior6 h').1, (gap_interior6 h').2.1, (gap_interior6 h').2.2]
    · linarith [(gap_interior5 h).1, (gap_interior5 h).2.1, (gap_interior5 h).2.2, (gap_interior6 h').1, (gap_interior6 h').2.1, (gap_interior6 h').2.2]
  meet := by
    intro t ht t' ht' x hx hx'
    refine bary_hull (gap_ne ht) hx fun k hk h0 => mem_image_of_mem _ ⟨hk, ?_⟩
    rcases gap_tris ht with rfl | rfl | rfl | rfl | rfl | rfl <;> rcases gap_tris ht' with rfl | rfl | rfl | rfl | rfl | rfl <;> rcases hk with rfl | rfl | rfl
    all_goals first
      | exact .inl rfl
      | exact .inr (.inl rfl)
      | exact .inr (.inr rfl)
      | exfalso
        simp only [gap_triangle1, gap_triangle2, gap_triangle3, gap_triangle4, gap_triangle5, gap_triangle6] at hx hx'
        simp only [gap_bary1 x, gap_bary2 x, gap_bary3 x, gap_bary4 x, gap_bary5 x, gap_bary6 x] at h0
        linarith [hx.1, hx.2.1, hx.2.2, hx'.1, hx'.2.1, hx'.2.2]

theorem blocked_segs {s : Seg ℝ blocked.nv} (hs : s ∈ blocked.segs) : s = ⟨1, (3 : Fin 8), (0 : Fin 8), 1⟩ ∨
    s = ⟨4, (5 : Fin 8), (6 : Fin 8), 1⟩ ∨
    s = ⟨2, (1 : Fin 8), (2 : Fin 8), 1⟩ ∨
    s = ⟨2, (7 : Fin 8), (4 : Fin 8), 1⟩ ∨
    s = ⟨3, (0 : Fin 8), (1 : Fin 8), 1⟩ ∨
    s = ⟨3, (2 : Fin 8), (3 : Fin 8), 1⟩ ∨
    s = ⟨3, (4 : Fin 8), (5 : Fin 8), 1⟩ ∨
    s = ⟨3, (6 : Fin 8), (7 : Fin 8), 1⟩ := by
  rcases List.mem_cons.mp hs with h | hs
  · exact .inl h
  rcases List.mem_cons.mp hs with h | hs
  · exact .inr (.inl h)
  rcases List.mem_cons.mp hs with h | hs
  · exact .inr (.inr (.inl h))
  rcases List.mem_cons.mp hs with h | hs
  · exact .inr (.inr (.inr (.inl h)))
  rcases List.mem_cons.mp hs with h | hs
  · exact .inr (.inr (.inr (.inr (.inl h))))
  rcases List.mem_cons.mp hs with h | hs
  · exact .inr (.inr (.inr (.inr (.inr (.inl h)))))
  rcases List.mem_cons.mp hs with h | hs
  · exact .inr (.inr (.inr (.inr (.inr (.inr (.inl h))))))
  · exact .inr (.inr (.inr (.inr (.inr (.inr (.inr (List.mem_singleton.mp hs)))))))

theorem cleared_segs {s : Seg ℝ cleared.nv} (hs : s ∈ cleared.segs) : s = ⟨1, (3 : Fin 8), (0 : Fin 8), 1⟩ ∨
    s = ⟨4, (5 : Fin 8), (6 : Fin 8), 1⟩ ∨
    s = ⟨3, (0 : Fin 8), (1 : Fin 8), 1⟩ ∨
    s = ⟨3, (2 : Fin 8), (3 : Fin 8), 1⟩ ∨
    s = ⟨3, (4 : Fin 8), (5 : Fin 8), 1⟩ ∨
    s = ⟨3, (6 : Fin 8), (7 : Fin 8), 1⟩ ∨
    s = ⟨3, (1 : Fin 8), (4 : Fin 8), 1⟩ ∨
    s = ⟨3, (7 : Fin 8), (2 : Fin 8), 1⟩ := by
  rcases List.mem_cons.mp hs with h | hs
  · exact .inl h
  rcases List.mem_cons.mp hs with h | hs
  · exact .inr (.inl h)
  rcases List.mem_cons.mp hs with h | hs
  · exact .inr (.inr (.inl h))
  rcases List.mem_cons.mp hs with h | hs
  · exact .inr (.inr (.inr (.inl h)))
  rcases List.mem_cons.mp hs with h | hs
  · exact .inr (.inr (.inr (.inr (.inl h))))
  rcases List.mem_cons.mp hs with h | hs
  · exact .inr (.inr (.inr (.inr (.inr (.inl h)))))
  rcases List.mem_cons.mp hs with h | hs
  · exact .inr (.inr (.inr (.inr (.inr (.inr (.inl h))))))
  · exact .inr (.inr (.inr (.inr (.inr (.inr (.inr (List.mem_singleton.mp hs)))))))

theorem blocked_sub {t : Tri blocked.nv} (h : t ∈ blocked.tris) : (t : Tri cleared.nv) ∈ cleared.tris := by
  obtain ⟨m1, m2, m3, m4, -⟩ := gap_mem
  rcases blocked_tris h with rfl | rfl | rfl | rfl
  exacts [m1, m2, m3, m4]

theorem blocked_proper : Proper blocked where
  area t ht := by
    rw [show blocked.det t = 1 from gap_det (blocked_sub ht)]
    exact one_pos
  segs s hs := by
    rcases blocked_segs hs with rfl | rfl | rfl | rfl | rfl | rfl | rfl | rfl
    · exact ⟨gap2, List.mem_cons_of_mem _ List.mem_cons_self, by decide⟩
    · exact ⟨gap3, List.mem_cons_of_mem _ (List.mem_cons_of_mem _ List.mem_cons_self), by decide⟩
    · exact ⟨gap1, List.mem_cons_self, by decide⟩
    · exact ⟨gap4, List.mem_cons_of_mem _ (List.mem_cons_of_mem _ (List.mem_cons_of_mem _ List.mem_cons_self)), by decide⟩
    · exact ⟨gap1, List.mem_cons_self, by decide⟩
    · exact ⟨gap2, List.mem_cons_of_mem _ List.mem_cons_self, by decide⟩
    · exact ⟨gap3, List.mem_cons_of_mem _ (List.mem_cons_of_mem _ List.mem_cons_self), by decide⟩
    · exact ⟨gap4, List.mem_cons_of_mem _ (List.mem_cons_of_mem _ (List.mem_cons_of_mem _ List.mem_cons_self)), by decide⟩
  boundary := by simp [blocked]
  triAttrs t ht := by
    rcases blocked_tris ht with rfl | rfl | rfl | rfl <;> decide
  segAttrs s hs := by
    rcases blocked_segs hs with rfl | rfl | rfl | rfl | rfl | rfl | rfl | rfl <;> norm_num

theorem cleared_proper : Proper cleared where
  area t ht := by
    rw [gap_det ht]
    exact one_pos
  segs s hs := by
    rcases cleared_segs hs with rfl | rfl | rfl | rfl | rfl | rfl | rfl | rfl
    · exact ⟨gap2, List.mem_cons_of_mem _ List.mem_cons_self, by decide⟩
    · exact ⟨gap3, List.mem_cons_of_mem _ (List.mem_cons_of_mem _ List.mem_cons_self), by decide⟩
    · exact ⟨gap1, List.mem_cons_self, by decide⟩
    · exact ⟨gap2, List.mem_cons_of_mem _ List.mem_cons_self, by decide⟩
    · exact ⟨gap3, List.mem_cons_of_mem _ (List.mem_cons_of_mem _ List.mem_cons_self), by decide⟩
    · exact ⟨gap4, List.mem_cons_of_mem _ (List.mem_cons_of_mem _ (List.mem_cons_of_mem _ List.mem_cons_self)), by decide⟩
    · exact ⟨gap5, List.mem_cons_of_mem _ (List.mem_cons_of_mem _ (List.mem_cons_of_mem _ (List.mem_cons_of_mem _ List.mem_cons_self))), by decide⟩
    · exact ⟨gap6, List.mem_cons_of_mem _ (List.mem_cons_of_mem _ (List.mem_cons_of_mem _ (List.mem_cons_of_mem _ (List.mem_cons_of_mem _ List.mem_cons_self)))), by decide⟩
  boundary := by simp [cleared]
  triAttrs t ht := by
    rcases gap_tris ht with rfl | rfl | rfl | rfl | rfl | rfl <;> decide
  segAttrs s hs := by
    rcases cleared_segs hs with rfl | rfl | rfl | rfl | rfl | rfl | rfl | rfl <;> norm_num

theorem blocked_embedded : Embedded blocked where
  apart := by
    have h : List.Sublist blocked.tris (cleared.tris : List (Tri cleared.nv)) := List.sublist_append_left (l₁ := [gap1, gap2, gap3, gap4]) (l₂ := [gap5, gap6])
    exact cleared_embedded.apart.sublist h
  meet t ht t' ht' x hx hx' := cleared_embedded.meet t (blocked_sub ht) t' (blocked_sub ht') x hx hx'

theorem blocked_sensible : Sensible blocked blockedMats where
  pecs p hp := by
    simp only [blockedMats, List.mem_cons, List.not_mem_nil, or_false] at hp
    rcases hp with rfl | rfl | rfl <;> norm_num
  opens o ho := absurd ho List.not_mem_nil
  dielectrics d hd := by
    obtain rfl := List.mem_singleton.mp hd
    exact ⟨by norm_num, gap2, List.mem_cons_of_mem _ List.mem_cons_self, le_refl _⟩
  names := by simp [blockedMats]
  tags := by simp [blockedMats]
  openNames := by simp [blockedMats]
  permittivities d hd := by
    obtain rfl := List.mem_singleton.mp hd
    norm_num

theorem cleared_sensible : Sensible cleared clearedMats where
  pecs p hp := by
    simp only [clearedMats, List.mem_cons, List.not_mem_nil, or_false] at hp
    rcases hp with rfl | rfl <;> norm_num
  opens o ho := absurd ho List.not_mem_nil
  dielectrics d hd := by
    obtain rfl := List.mem_singleton.mp hd
    exact ⟨by norm_num, gap2, List.mem_cons_of_mem _ List.mem_cons_self, le_refl _⟩
  names := by simp [clearedMats]
  tags := by simp [clearedMats]
  openNames := by simp [clearedMats]
  permittivities d hd := by
    obtain rfl := List.mem_singleton.mp hd
    norm_num

theorem blocked_numbering : Numbering blockedMats blockedMats.pecs where
  all := List.Perm.refl _
  ids := by
    intro i h
    match i, h with
    | 0, _ => show getMaterialIdFromName "Conductor_0" = .ok 0; decide +kernel
    | 1, _ => show getMaterialIdFromName "Conductor_1" = .ok 1; decide +kernel
    | 2, _ => show getMaterialIdFromName "Conductor_2" = .ok 2; decide +kernel
  nonempty := by simp [blockedMats]

theorem cleared_numbering : Numbering clearedMats clearedMats.pecs where
  all := List.Perm.refl _
  ids := by
    intro i h
    match i, h with
    | 0, _ => show getMaterialIdFromName "Conductor_0" = .ok 0; decide +kernel
    | 1, _ => show getMaterialIdFromName "Conductor_1" = .ok 1; decide +kernel
  nonempty := by simp [clearedMats]

theorem eight : ∀ v : Fin 8, v = 0 ∨ v = 1 ∨ v = 2 ∨ v = 3 ∨ v = 4 ∨ v = 5 ∨ v = 6 ∨ v = 7 := by decide

theorem blocked_joined : JoinedToConductors blocked blockedMats := by
  intro v
  have k1 : ∀ v : Fin blocked.nv, OnTag blocked 1 v → ∃ p ∈ blockedMats.pecs, ∃ w, OnTag blocked p.tag w ∧ Relation.ReflTransGen (Adjacent blocked) v w :=
    fun v hv => ⟨_, List.mem_cons_self, v, hv, .refl⟩
  have k2 : ∀ v : Fin blocked.nv, OnTag blocked 2 v → ∃ p ∈ blockedMats.pecs, ∃ w, OnTag blocked p.tag w ∧ Relation.ReflTransGen (Adjacent blocked) v w :=
    fun v hv => ⟨_, List.mem_cons_of_mem _ (List.mem_cons_of_mem _ List.mem_cons_self), v, hv, .refl⟩
  have k4 : ∀ v : Fin blocked.nv, OnTag blocked 4 v → ∃ p ∈ blockedMats.pecs, ∃ w, OnTag blocked p.tag w ∧ Relation.ReflTransGen (Adjacent blocked) v w :=
    fun v hv => ⟨_, List.mem_cons_of_mem _ List.mem_cons_self, v, hv, .refl⟩
  rcases eight v with rfl | rfl | rfl | rfl | rfl | rfl | rfl | rfl
  · exact k1 _ ⟨_, List.mem_cons_self, rfl, .inr rfl⟩
  · exact k2 _ ⟨_, List.mem_cons_of_mem _ (List.mem_cons_of_mem _ List.mem_cons_self), rfl, .inl rfl⟩
  · exact k2 _ ⟨_, List.mem_cons_of_mem _ (List.mem_cons_of_mem _ List.mem_cons_self), rfl, .inr rfl⟩
  · exact k1 _ ⟨_, List.mem_cons_self, rfl, .inl rfl⟩
  · exact k2 _ ⟨_, List.mem_cons_of_mem _ (List.mem_cons_of_mem _ (List.mem_cons_of_mem _ List.mem_cons_self)), rfl, .inr rfl⟩
  · exact k4 _ ⟨_, List.mem_cons_of_mem _ List.mem_cons_self, rfl, .inl rfl⟩
  · exact k4 _ ⟨_, List.mem_cons_of_mem _ List.mem_cons_self, rfl, .inr rfl⟩
  · exact k2 _ ⟨_, List.mem_cons_of_mem _ (List.mem_cons_of_mem _ (List.mem_cons_of_mem _ List.mem_cons_self)), rfl, .inl rfl⟩

theorem cleared_joined : JoinedToConductors cleared clearedMats := by
  intro v
  obtain ⟨m1, m2, m3, m4, m5, m6⟩ := gap_mem
  have h0 : OnTag cleared 1 (0 : Fin 8) := ⟨_, List.mem_cons_self, rfl, .inr rfl⟩
  have h6 : OnTag cleared 4 (6 : Fin 8) := ⟨_, List.mem_cons_of_mem _ List.mem_cons_self, rfl, .inr rfl⟩
  have k1 : ∀ v : Fin cleared.nv, Relation.ReflTransGen (Adjacent cleared) v (0 : Fin 8) → ∃ p ∈ clearedMats.pecs, ∃ w, OnTag cleared p.tag w ∧ Relation.ReflTransGen (Adjacent cleared) v w :=
    fun v hv => ⟨_, List.mem_cons_self, (0 : Fin 8), h0, hv⟩
  have k4 : ∀ v : Fin cleared.nv, Relation.ReflTransGen (Adjacent cleared) v (6 : Fin 8) → ∃ p ∈ clearedMats.pecs, ∃ w, OnTag cleared p.tag w ∧ Relation.ReflTransGen (Adjacent cleared) v w :=
    fun v hv => ⟨_, List.mem_cons_of_mem _ List.mem_cons_self, (6 : Fin 8), h6, hv⟩
  rcases eight v with rfl | rfl | rfl | rfl | rfl | rfl | rfl | rfl
  · exact k1 _ .refl
  · exact k1 _ (.single ⟨gap1, m1, .inr (.inl rfl), .inl rfl⟩)
  · exact k1 _ (.single ⟨gap1, m1, .inr (.inr rfl), .inl rfl⟩)
  · exact k1 _ (.single ⟨gap2, m2, .inr (.inr rfl), .inl rfl⟩)
  · exact k4 _ (.single ⟨gap3, m3, .inl rfl, .inr (.inr rfl)⟩)
  · exact k4 _ (.single ⟨gap3, m3, .inr (.inl rfl), .inr (.inr rfl)⟩)
  · exact k4 _ .refl
  · exact k4 _ (.single ⟨gap4, m4, .inr (.inr rfl), .inr (.inl rfl)⟩)

theorem blocked_apart : ConductorsApart blocked blockedMats := by
  have hv : ∀ k v, OnTag blocked k v → (k = 1 ∧ (v = (3 : Fin 8) ∨ v = (0 : Fin 8))) ∨ (k = 4 ∧ (v = (5 : Fin 8) ∨ v = (6 : Fin 8))) ∨
      (k = 2 ∧ (v = (1 : Fin 8) ∨ v = (2 : Fin 8) ∨ v = (7 : Fin 8) ∨ v = (4 : Fin 8))) ∨ k = 3 := by
    rintro k v ⟨s, hs, rfl, hv⟩
    rcases blocked_segs hs with rfl | rfl | rfl | rfl | rfl | rfl | rfl | rfl
    · exact .inl ⟨rfl, hv⟩
    · exact .inr (.inl ⟨rfl, hv⟩)
    · exact .inr (.inr (.inl ⟨rfl, hv.elim .inl fun h => .inr (.inl h)⟩))
    · exact .inr (.inr (.inl ⟨rfl, .inr (.inr hv)⟩))
    all_goals exact .inr (.inr (.inr rfl))
  have no : ∀ v : Fin 8, ¬ ((v = 3 ∨ v = 0) ∧ (v = 5 ∨ v = 6)) ∧ ¬ ((v = 3 ∨ v = 0) ∧ (v = 1 ∨ v = 2 ∨ v = 7 ∨ v = 4)) ∧ ¬ ((v = 5 ∨ v = 6) ∧ (v = 1 ∨ v = 2 ∨ v = 7 ∨ v = 4)) := by
    decide
  have h3 : ∀ p ∈ blockedMats.pecs, p.tag ≠ 3 := by
    intro p hp
    simp only [blockedMats, List.mem_cons, List.not_mem_nil, or_false] at hp
    rcases hp with rfl | rfl | rfl <;> norm_num
  intro p hp q hq hne v k1 k2
  have n := no v
  rcases hv _ _ k1 with ⟨e, a⟩ | ⟨e, a⟩ | ⟨e, a⟩ | e <;> rcases hv _ _ k2 with ⟨e', a'⟩ | ⟨e', a'⟩ | ⟨e', a'⟩ | e'
  all_goals first
    | exact h3 _ hp e
    | exact h3 _ hq e'
    | exact hne (e.trans e'.symm)
    | exact n.1 ⟨a, a'⟩
    | exact n.1 ⟨a', a⟩
    | exact n.2.1 ⟨a, a'⟩
    | exact n.2.1 ⟨a', a⟩
    | exact n.2.2 ⟨a, a'⟩
    | exact n.2.2 ⟨a', a⟩

theorem cleared_apart : ConductorsApart cleared clearedMats := by
  have hv : ∀ k v, OnTag cleared k v → (k = 1 ∧ (v = (3 : Fin 8) ∨ v = (0 : Fin 8))) ∨ (k = 4 ∧ (v = (5 : Fin 8) ∨ v = (6 : Fin 8))) ∨ k = 3 := by
    rintro k v ⟨s, hs, rfl, hv⟩
    rcases cleared_segs hs with rfl | rfl | rfl | rfl | rfl | rfl | rfl | rfl
    · exact .inl ⟨rfl, hv⟩
    · exact .inr (.inl ⟨rfl, hv⟩)
    all_goals exact .inr (.inr rfl)
  have no : ∀ v : Fin 8, ¬ ((v = 3 ∨ v = 0) ∧ (v = 5 ∨ v = 6)) := by decide
  have h3 : ∀ p ∈ clearedMats.pecs, p.tag ≠ 3 := by
    intro p hp
    simp only [clearedMats, List.mem_cons, List.not_mem_nil, or_false] at hp
    rcases hp with rfl | rfl <;> norm_num
  intro p hp q hq hne v k1 k2
  have n := no v
  rcases hv _ _ k1 with ⟨e, a⟩ | ⟨e, a⟩ | e <;> rcases hv _ _ k2 with ⟨e', a'⟩ | ⟨e', a'⟩ | e'
  all_goals first
    | exact h3 _ hp e
    | exact h3 _ hq e'
    | exact hne (e.trans e'.symm)
    | exact n ⟨a, a'⟩
    | exact n ⟨a', a⟩

/-- the space the conductor leaves -/
theorem gap_between {x : ℝ × ℝ} (h : x ∈ covered cleared \ covered blocked) : 1 ≤ x.1 ∧ x.1 ≤ 2 := by
  obtain ⟨⟨t, ht, hx⟩, hn⟩ := h
  rcases gap_tris ht with rfl | rfl | rfl | rfl | rfl | rfl
  · exact absurd ⟨gap1, List.mem_cons_self, hx⟩ hn
  · exact absurd ⟨gap2, List.mem_cons_of_mem _ List.mem_cons_self, hx⟩ hn
  · exact absurd ⟨gap3, List.mem_cons_of_mem _ (List.mem_cons_of_mem _ List.mem_cons_self), hx⟩ hn
  · exact absurd ⟨gap4, List.mem_cons_of_mem _ (List.mem_cons_of_mem _ (List.mem_cons_of_mem _ List.mem_cons_self)), hx⟩ hn
  · obtain ⟨h1, h2, h3⟩ := (gap_triangle5 x).mp hx
    exact ⟨by linarith, by linarith⟩
  · obtain ⟨h1, h2, h3⟩ := (gap_triangle6 x).mp hx
    exact ⟨by linarith, by linarith⟩

theorem blocked_covered {x : ℝ × ℝ} (h : x ∈ covered blocked) : (x.1 ≤ 1 ∨ 2 ≤ x.1) ∧ 0 ≤ x.2 ∧ x.2 ≤ 1 := by
  obtain ⟨t, ht, hx⟩ := h
  rcases blocked_tris ht with rfl | rfl | rfl | rfl
  · obtain ⟨h1, h2, h3⟩ := (gap_triangle1 x).mp hx
    exact ⟨.inl (by linarith), by linarith, by linarith⟩
  · obtain ⟨h1, h2, h3⟩ := (gap_triangle2 x).mp hx
    exact ⟨.inl (by linarith), by linarith, by linarith⟩
  · obtain ⟨h1, h2, h3⟩ := (gap_triangle3 x).mp hx
    exact ⟨.inr (by linarith), by linarith, by linarith⟩
  · obtain ⟨h1, h2, h3⟩ := (gap_triangle4 x).mp hx
    exact ⟨.inr (by linarith), by linarith, by linarith⟩

theorem blocked_removed : Removed blocked cleared blockedMats clearedMats 2 where
  region := by
    rintro x ⟨t, ht, hx⟩
    exact ⟨t, blocked_sub ht, hx⟩
  material t ht t' ht' := by
    rintro ⟨x, hx, hx'⟩
    replace ht := blocked_sub ht
    replace hx : x ∈ interior (triangle cleared t) := hx
    rcases gap_tris ht with rfl | rfl | rfl | rfl | rfl | rfl <;> rcases gap_tris ht' with rfl | rfl | rfl | rfl | rfl | rfl
    all_goals first
      | rfl
      | exfalso
        first
          | replace hx := gap_interior1 hx
          | replace hx := gap_interior2 hx
          | replace hx := gap_interior3 hx
          | replace hx := gap_interior4 hx
          | replace hx := gap_interior5 hx
          | replace hx := gap_interior6 hx
        first
          | replace hx' := gap_interior1 hx'
          | replace hx' := gap_interior2 hx'
          | replace hx' := gap_interior3 hx'
          | replace hx' := gap_interior4 hx'
          | replace hx' := gap_interior5 hx'
          | replace hx' := gap_interior6 hx'
        linarith [hx.1, hx.2.1, hx.2.2, hx'.1, hx'.2.1, hx'.2.2]
  freed x hx hcl := by
    have h1 : 1 ≤ x.1 ∧ x.1 ≤ 2 := by
      have hc : IsClosed {y : ℝ × ℝ | 1 ≤ y.1 ∧ y.1 ≤ 2} := (isClosed_le continuous_const continuous_fst).inter (isClosed_le continuous_fst continuous_const)
      exact hc.closure_subset_iff.mpr (fun y hy => gap_between hy) hcl
    obtain ⟨h, h2, h3⟩ := blocked_covered hx
    rcases h with h | h
    · have e : x.1 = 1 := le_antisymm h h1.1
      refine ⟨_, List.mem_cons_of_mem _ (List.mem_cons_of_mem _ List.mem_cons_self), rfl, 1 - x.2, x.2, by linarith, h2, by ring, Prod.ext ?_ ?_⟩ <;> simp [blocked, e]
    · have e : x.1 = 2 := le_antisymm h1.2 h
      refine ⟨_, List.mem_cons_of_mem _ (List.mem_cons_of_mem _ (List.mem_cons_of_mem _ List.mem_cons_self)), rfl, x.2, 1 - x.2, h2, by linarith, by ring, Prod.ext ?_ ?_⟩ <;> simp [blocked, e]
      ring
  conductors := by simp [blockedMats, clearedMats]
  dielectrics := rfl
  others c hc := by
    have hk : c.tag = 1 ∨ c.tag = 4 := by
      simp only [clearedMats, List.mem_cons, List.not_mem_nil, or_false] at hc
      rcases hc with rfl | rfl
      · exact .inl rfl
      · exact .inr rfl
    ext x
    constructor
    · rintro ⟨s, hs, ha, hx⟩
      rcases cleared_segs hs with rfl | rfl | rfl | rfl | rfl | rfl | rfl | rfl
      · exact ⟨_, List.mem_cons_self, ha, hx⟩
      · exact ⟨_, List.mem_cons_of_mem _ List.mem_cons_self, ha, hx⟩
      all_goals
        rcases hk with hk | hk <;> rw [hk] at ha <;> exact absurd ha (by norm_num)
    · rintro ⟨s, hs, ha, hx⟩
      rcases blocked_segs hs with rfl | rfl | rfl | rfl | rfl | rfl | rfl | rfl
      · exact ⟨_, List.mem_cons_self, ha, hx⟩
      · exact ⟨_, List.mem_cons_of_mem _ List.mem_cons_self, ha, hx⟩
      all_goals
        rcases hk with hk | hk <;> rw [hk] at ha <;> exact absurd ha (by norm_num)

theorem blocked_nested : Nested blocked cleared := by
  intro q hq
  rcases gap_tris hq with rfl | rfl | rfl | rfl | rfl | rfl
  · exact .inl ⟨gap1, List.mem_cons_self, subset_rfl⟩
  · exact .inl ⟨gap2, List.mem_cons_of_mem _ List.mem_cons_self, subset_rfl⟩
  · exact .inl ⟨gap3, List.mem_cons_of_mem _ (List.mem_cons_of_mem _ List.mem_cons_self), subset_rfl⟩
  · exact .inl ⟨gap4, List.mem_cons_of_mem _ (List.mem_cons_of_mem _ (List.mem_cons_of_mem _ List.mem_cons_self)), subset_rfl⟩
  · refine .inr (Set.disjoint_left.mpr fun x hx hx' => ?_)
    obtain ⟨h1, h2, h3⟩ := gap_interior5 hx
    rcases (blocked_covered hx').1 with h | h <;> linarith
  · refine .inr (Set.disjoint_left.mpr fun x hx hx' => ?_)
    obtain ⟨h1, h2, h3⟩ := gap_interior6 hx
    have := (blocked_covered hx').2
    rcases (blocked_covered hx').1 with h | h <;> linarith

/-- The conductor between the plates is removed: any run before, and runs on fine meshes afterwards. -/
example (V : Int → ℝ) {p : Nat} (hp : 1 ≤ p) : ∃ (S : Shapes blocked) (Q : Rule ℝ) (s : Solver (blocked.femWith S Q)) (W : ℝ),
    ClosedRun blocked realNothing inverseReal blockedMats false S Q p s ∧ Reports inverseReal blockedMats s V W ∧ ∀ (flatness ε : ℝ), 0 < ε → ∃ size > 0,
      ∀ (M : Triangulation ℝ) (A' : Analytic ℝ) (P' : LinSolver ℝ) (S' : Shapes M) (Q' : Rule ℝ) (p' : Nat) (s' : Solver (M.femWith S' Q')),
        ExactSolver P' → ClosedRun M A' P' clearedMats false S' Q' p' s' → SameCrossSection cleared M → Fine M flatness size →
        ∃ W', Reports P' clearedMats s' V W' ∧ W' ≤ W + ε := by
  obtain ⟨S, Q, s, h⟩ := closedRun_exists blocked_numbering blocked_proper blocked_embedded blocked_sensible blocked_joined blocked_apart realNothing inverseReal false hp
  obtain ⟨W, e1, e2⟩ := C107_runs blocked_numbering cleared_numbering rfl rfl inverseReal_exact h cleared_embedded ⟨_, List.mem_cons_of_mem _ (List.mem_cons_of_mem _ List.mem_cons_self), rfl⟩ blocked_removed V
  exact ⟨S, Q, s, W, h, e1, e2⟩

/-- It is removed and the mesh is kept elsewhere: elements of order 1, then of order 2. -/
example (V : Int → ℝ) : ∃ (S : Shapes blocked) (Q : Rule ℝ) (s : Solver (blocked.femWith S Q)) (S' : Shapes cleared) (Q' : Rule ℝ) (s' : Solver (cleared.femWith S' Q')) (W W' : ℝ),
    ClosedRun blocked realNothing inverseReal blockedMats false S Q 1 s ∧ ClosedRun cleared realNothing inverseReal clearedMats false S' Q' 2 s' ∧
      Reports inverseReal blockedMats s V W ∧ Reports inverseReal clearedMats s' V W' ∧ W' ≤ W := by
  obtain ⟨S, Q, s, h⟩ := closedRun_exists blocked_numbering blocked_proper blocked_embedded blocked_sensible blocked_joined blocked_apart realNothing inverseReal false (le_refl 1)
  obtain ⟨S', Q', s', h'⟩ := closedRun_exists cleared_numbering cleared_proper cleared_embedded cleared_sensible cleared_joined cleared_apart realNothing inverseReal false one_le_two
  obtain ⟨W, W', e1, e2, e3⟩ := C107_nested blocked_numbering cleared_numbering rfl rfl inverseReal_exact inverseReal_exact h h' ⟨_, List.mem_cons_of_mem _ (List.mem_cons_of_mem _ List.mem_cons_self), rfl⟩ blocked_removed
    blocked_nested one_le_two V
  exact ⟨S, Q, s, S', Q', s', W, W', h, h', e1, e2, e3⟩

end Tulip.Props
