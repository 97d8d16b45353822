import Verif.Proofs.Halved
import Verif.Props.Limit

/-!
# The mesh with every triangle cut into four is a mesh of the same cross-section
-/

namespace Tulip
open Set Spec

variable {T : Triangulation ℝ}

/-- The part at the first corner. -/
noncomputable def qa (T : Triangulation ℝ) (t : Tri T.nv) : Tri (halved T).nv := ⟨t.attr, mid T t.a t.a, mid T t.a t.b, mid T t.c t.a⟩
/-- The part at the second corner. -/
noncomputable def qb (T : Triangulation ℝ) (t : Tri T.nv) : Tri (halved T).nv := ⟨t.attr, mid T t.a t.b, mid T t.b t.b, mid T t.b t.c⟩
/-- The part at the third corner. -/
noncomputable def qc (T : Triangulation ℝ) (t : Tri T.nv) : Tri (halved T).nv := ⟨t.attr, mid T t.c t.a, mid T t.b t.c, mid T t.c t.c⟩
/-- The part in the middle. -/
noncomputable def qd (T : Triangulation ℝ) (t : Tri T.nv) : Tri (halved T).nv := ⟨t.attr, mid T t.a t.b, mid T t.b t.c, mid T t.c t.a⟩

theorem quarters_eq (t : Tri T.nv) : quarters T t = [qa T t, qb T t, qc T t, qd T t] := rfl

theorem mem_quarters_iff {t : Tri T.nv} {q : Tri (halved T).nv} : q ∈ quarters T t ↔ q = qa T t ∨ q = qb T t ∨ q = qc T t ∨ q = qd T t := by
  constructor
  · exact quarters_or
  · intro h
    rw [quarters_eq]
    rcases h with rfl | rfl | rfl | rfl
    · exact List.mem_cons_self
    · exact List.mem_cons_of_mem _ List.mem_cons_self
    · exact List.mem_cons_of_mem _ (List.mem_cons_of_mem _ List.mem_cons_self)
    · exact List.mem_cons_of_mem _ (List.mem_cons_of_mem _ (List.mem_cons_of_mem _ List.mem_cons_self))

section
variable (hT : Proper T) {t : Tri T.nv} (ht : t ∈ T.tris)
include hT ht

theorem quarter_det_ne {q : Tri (halved T).nv} (hq : q ∈ quarters T t) : (halved T).det q ≠ 0 := by
  rw [quarters_det ht hq]
  have := hT.area t ht
  positivity

theorem quarter_coords {q : Tri (halved T).nv} (hq : q ∈ quarters T t) (x : ℝ × ℝ) {α β γ : ℝ} (hs : α + β + γ = 1)
    (e : x = α • (halved T).coord q.a + β • (halved T).coord q.b + γ • (halved T).coord q.c) :
      bary (halved T) q x q.a = α ∧ bary (halved T) q x q.b = β ∧ bary (halved T) q x q.c = γ := by
  have := bary_unique (quarter_det_ne hT ht hq) hs
  rwa [← e] at this

theorem bary_qa (x : ℝ × ℝ) : bary (halved T) (qa T t) x (mid T t.a t.a) = 2 * bary T t x t.a - 1 ∧
    bary (halved T) (qa T t) x (mid T t.a t.b) = 2 * bary T t x t.b ∧ bary (halved T) (qa T t) x (mid T t.c t.a) = 2 * bary T t x t.c := by
  have hsum := bary_sum (hT.area t ht).ne' x
  have hpt := bary_point (hT.area t ht).ne' x
  have ha : bary T t x t.a = 1 - bary T t x t.b - bary T t x t.c := by linarith
  obtain ⟨e1, e2, e3, e4, e5, e6⟩ := mid_points ht
  refine quarter_coords hT ht (mem_quarters_iff.mpr (.inl rfl)) x (by linarith) ?_
  simp only [qa, e1, e4, e6]
  conv_lhs => rw [hpt]
  rw [ha]
  unfold middle
  module

theorem bary_qb (x : ℝ × ℝ) : bary (halved T) (qb T t) x (mid T t.a t.b) = 2 * bary T t x t.a ∧
    bary (halved T) (qb T t) x (mid T t.b t.b) = 2 * bary T t x t.b - 1 ∧ bary (halved T) (qb T t) x (mid T t.b t.c) = 2 * bary T t x t.c := by
  have hsum := bary_sum (hT.area t ht).ne' x
  have hpt := bary_point (hT.area t ht).ne' x
  have ha : bary T t x t.a = 1 - bary T t x t.b - bary T t x t.c := by linarith
  obtain ⟨e1, e2, e3, e4, e5, e6⟩ := mid_points ht
  refine quarter_coords hT ht (mem_quarters_iff.mpr (.inr (.inl rfl))) x (by linarith) ?_
  simp only [qb, e2, e4, e5]
  conv_lhs => rw [hpt]
  rw [ha]
  unfold middle
  module

theorem bary_qc (x : ℝ × ℝ) : bary (halved T) (qc T t) x (mid T t.c t.a) = 2 * bary T t x t.a ∧
    bary (halved T) (qc T t) x (mid T t.b t.c) = 2 * bary T t x t.b ∧ bary (halved T) (qc T t) x (mid T t.c t.c) = 2 * bary T t x t.c - 1 := by
  have hsum := bary_sum (hT.area t ht).ne' x
  have hpt := bary_point (hT.area t ht).ne' x
  have ha : bary T t x t.a = 1 - bary T t x t.b - bary T t x t.c := by linarith
  obtain ⟨e1, e2, e3, e4, e5, e6⟩ := mid_points ht
  refine quarter_coords hT ht (mem_quarters_iff.mpr (.inr (.inr (.inl rfl)))) x (by linarith) ?_
  simp only [qc, e3, e5, e6]
  conv_lhs => rw [hpt]
  rw [ha]
  unfold middle
  module

theorem bary_qd (x : ℝ × ℝ) : bary (halved T) (qd T t) x (mid T t.a t.b) = 1 - 2 * bary T t x t.c ∧
    bary (halved T) (qd T t) x (mid T t.b t.c) = 1 - 2 * bary T t x t.a ∧ bary (halved T) (qd T t) x (mid T t.c t.a) = 1 - 2 * bary T t x t.b := by
  have hsum := bary_sum (hT.area t ht).ne' x
  have hpt := bary_point (hT.area t ht).ne' x
  have ha : bary T t x t.a = 1 - bary T t x t.b - bary T t x t.c := by linarith
  obtain ⟨e1, e2, e3, e4, e5, e6⟩ := mid_points ht
  refine quarter_coords hT ht (mem_quarters_iff.mpr (.inr (.inr (.inr rfl)))) x (by linarith) ?_
  simp only [qd, e4, e5, e6]
  conv_lhs => rw [hpt]
  rw [ha]
  unfold middle
  module

theorem mem_qa (x : ℝ × ℝ) : x ∈ triangle (halved T) (qa T t) ↔ 0 ≤ 2 * bary T t x t.a - 1 ∧ 0 ≤ 2 * bary T t x t.b ∧ 0 ≤ 2 * bary T t x t.c := by
  obtain ⟨k1, k2, k3⟩ := bary_qa hT ht x
  rw [mem_triangle (quarter_det_ne hT ht (mem_quarters_iff.mpr (.inl rfl))), ← k1, ← k2, ← k3]
  rfl

theorem mem_qb (x : ℝ × ℝ) : x ∈ triangle (halved T) (qb T t) ↔ 0 ≤ 2 * bary T t x t.a ∧ 0 ≤ 2 * bary T t x t.b - 1 ∧ 0 ≤ 2 * bary T t x t.c := by
  obtain ⟨k1, k2, k3⟩ := bary_qb hT ht x
  rw [mem_triangle (quarter_det_ne hT ht (mem_quarters_iff.mpr (.inr (.inl rfl)))), ← k1, ← k2, ← k3]
  rfl

theorem mem_qc (x : ℝ × ℝ) : x ∈ triangle (halved T) (qc T t) ↔ 0 ≤ 2 * bary T t x t.a ∧ 0 ≤ 2 * bary T t x t.b ∧ 0 ≤ 2 * bary T t x t.c - 1 := by
  obtain ⟨k1, k2, k3⟩ := bary_qc hT ht x
  rw [mem_triangle (quarter_det_ne hT ht (mem_quarters_iff.mpr (.inr (.inr (.inl rfl))))), ← k1, ← k2, ← k3]
  rfl

theorem mem_qd (x : ℝ × ℝ) : x ∈ triangle (halved T) (qd T t) ↔ 0 ≤ 1 - 2 * bary T t x t.c ∧ 0 ≤ 1 - 2 * bary T t x t.a ∧ 0 ≤ 1 - 2 * bary T t x t.b := by
  obtain ⟨k1, k2, k3⟩ := bary_qd hT ht x
  rw [mem_triangle (quarter_det_ne hT ht (mem_quarters_iff.mpr (.inr (.inr (.inr rfl))))), ← k1, ← k2, ← k3]
  rfl

theorem quarter_subset {q : Tri (halved T).nv} (hq : q ∈ quarters T t) : triangle (halved T) q ⊆ triangle T t := by
  intro x hx
  have hsum := bary_sum (hT.area t ht).ne' x
  rw [mem_triangle (hT.area t ht).ne']
  rcases mem_quarters_iff.mp hq with rfl | rfl | rfl | rfl
  · obtain ⟨h1, h2, h3⟩ := (mem_qa hT ht x).mp hx
    exact ⟨by linarith, by linarith, by linarith⟩
  · obtain ⟨h1, h2, h3⟩ := (mem_qb hT ht x).mp hx
    exact ⟨by linarith, by linarith, by linarith⟩
  · obtain ⟨h1, h2, h3⟩ := (mem_qc hT ht x).mp hx
    exact ⟨by linarith, by linarith, by linarith⟩
  · obtain ⟨h1, h2, h3⟩ := (mem_qd hT ht x).mp hx
    exact ⟨by linarith, by linarith, by linarith⟩

theorem quarters_cover {x : ℝ × ℝ} (hx : x ∈ triangle T t) : ∃ q ∈ quarters T t, x ∈ triangle (halved T) q := by
  obtain ⟨h1, h2, h3⟩ := (mem_triangle (hT.area t ht).ne' x).mp hx
  by_cases ka : 1 ≤ 2 * bary T t x t.a
  · exact ⟨qa T t, mem_quarters_iff.mpr (.inl rfl), (mem_qa hT ht x).mpr ⟨by linarith, by linarith, by linarith⟩⟩
  by_cases kb : 1 ≤ 2 * bary T t x t.b
  · exact ⟨qb T t, mem_quarters_iff.mpr (.inr (.inl rfl)), (mem_qb hT ht x).mpr ⟨by linarith, by linarith, by linarith⟩⟩
  by_cases kc : 1 ≤ 2 * bary T t x t.c
  · exact ⟨qc T t, mem_quarters_iff.mpr (.inr (.inr (.inl rfl))), (mem_qc hT ht x).mpr ⟨by linarith, by linarith, by linarith⟩⟩
  · exact ⟨qd T t, mem_quarters_iff.mpr (.inr (.inr (.inr rfl))), (mem_qd hT ht x).mpr ⟨by linarith, by linarith, by linarith⟩⟩

/-- The vertices of a part that carry a point are determined by its coordinates in the triangle. -/
theorem quarter_carries {q : Tri (halved T).nv} (hq : q ∈ quarters T t) {x : ℝ × ℝ} (hx : x ∈ triangle (halved T) q) {k : Fin (halved T).nv}
    (hk : IsVertex q k) (h0 : 0 < bary (halved T) q x k) : ∃ v w, k = mid T v w ∧ 0 < bary T t x v ∧ 0 < bary T t x w ∧
      (v = w → 1 < 2 * bary T t x v) ∧ (v ≠ w → 1 < 2 * (bary T t x v + bary T t x w)) := by
  have hsum := bary_sum (hT.area t ht).ne' x
  obtain ⟨n1, n2, n3⟩ := det_ne (hT.area t ht).ne'
  rcases mem_quarters_iff.mp hq with rfl | rfl | rfl | rfl
  · obtain ⟨h1, h2, h3⟩ := (mem_qa hT ht x).mp hx
    obtain ⟨k1, k2, k3⟩ := bary_qa hT ht x
    rcases hk with rfl | rfl | rfl
    · have := k1 ▸ h0
      exact ⟨_, _, rfl, by linarith, by linarith, fun _ => by linarith, fun h => absurd rfl h⟩
    · have := k2 ▸ h0
      exact ⟨_, _, rfl, by linarith, by linarith, fun h => by first | exact absurd h n1 | exact absurd h n1.symm | exact absurd h n2 | exact absurd h n2.symm | exact absurd h n3 | exact absurd h n3.symm, fun _ => by linarith⟩
    · have := k3 ▸ h0
      exact ⟨_, _, rfl, by linarith, by linarith, fun h => by first | exact absurd h n1 | exact absurd h n1.symm | exact absurd h n2 | exact absurd h n2.symm | exact absurd h n3 | exact absurd h n3.symm, fun _ => by linarith⟩
  · obtain ⟨h1, h2, h3⟩ := (mem_qb hT ht x).mp hx
    obtain ⟨k1, k2, k3⟩ := bary_qb hT ht x
    rcases hk with rfl | rfl | rfl
    · have := k1 ▸ h0
      exact ⟨_, _, rfl, by linarith, by linarith, fun h => by first | exact absurd h n1 | exact absurd h n1.symm | exact absurd h n2 | exact absurd h n2.symm | exact absurd h n3 | exact absurd h n3.symm, fun _ => by linarith⟩
    · have := k2 ▸ h0
      exact ⟨_, _, rfl, by linarith, by linarith, fun _ => by linarith, fun h => absurd rfl h⟩
    · have := k3 ▸ h0
      exact ⟨_, _, rfl, by linarith, by linarith, fun h => by first | exact absurd h n1 | exact absurd h n1.symm | exact absurd h n2 | exact absurd h n2.symm | exact absurd h n3 | exact absurd h n3.symm, fun _ => by linarith⟩
  · obtain ⟨h1, h2, h3⟩ := (mem_qc hT ht x).mp hx
    obtain ⟨k1, k2, k3⟩ := bary_qc hT ht x
    rcases hk with rfl | rfl | rfl
    · have := k1 ▸ h0
      exact ⟨_, _, rfl, by linarith, by linarith, fun h => by first | exact absurd h n1 | exact absurd h n1.symm | exact absurd h n2 | exact absurd h n2.symm | exact absurd h n3 | exact absurd h n3.symm, fun _ => by linarith⟩
    · have := k2 ▸ h0
      exact ⟨_, _, rfl, by linarith, by linarith, fun h => by first | exact absurd h n1 | exact absurd h n1.symm | exact absurd h n2 | exact absurd h n2.symm | exact absurd h n3 | exact absurd h n3.symm, fun _ => by linarith⟩
    · have := k3 ▸ h0
      exact ⟨_, _, rfl, by linarith, by linarith, fun _ => by linarith, fun h => absurd rfl h⟩
  · obtain ⟨h1, h2, h3⟩ := (mem_qd hT ht x).mp hx
    obtain ⟨k1, k2, k3⟩ := bary_qd hT ht x
    rcases hk with rfl | rfl | rfl
    · have := k1 ▸ h0
      exact ⟨_, _, rfl, by linarith, by linarith, fun h => by first | exact absurd h n1 | exact absurd h n1.symm | exact absurd h n2 | exact absurd h n2.symm | exact absurd h n3 | exact absurd h n3.symm, fun _ => by linarith⟩
    · have := k2 ▸ h0
      exact ⟨_, _, rfl, by linarith, by linarith, fun h => by first | exact absurd h n1 | exact absurd h n1.symm | exact absurd h n2 | exact absurd h n2.symm | exact absurd h n3 | exact absurd h n3.symm, fun _ => by linarith⟩
    · have := k3 ▸ h0
      exact ⟨_, _, rfl, by linarith, by linarith, fun h => by first | exact absurd h n1 | exact absurd h n1.symm | exact absurd h n2 | exact absurd h n2.symm | exact absurd h n3 | exact absurd h n3.symm, fun _ => by linarith⟩

/-- And conversely. -/
theorem quarter_carried {q : Tri (halved T).nv} (hq : q ∈ quarters T t) {x : ℝ × ℝ} (hx : x ∈ triangle (halved T) q) {v w : Fin T.nv}
    (hv : 0 < bary T t x v) (hw : 0 < bary T t x w) (h1 : v = w → 1 < 2 * bary T t x v) (h2 : v ≠ w → 1 < 2 * (bary T t x v + bary T t x w)) :
    IsVertex q (mid T v w) := by
  have hsum := bary_sum (hT.area t ht).ne' x
  obtain ⟨n1, n2, n3⟩ := det_ne (hT.area t ht).ne'
  have vv : IsVertex t v := by
    by_contra h
    rw [bary_off h] at hv
    exact lt_irrefl _ hv
  have vw : IsVertex t w := by
    by_contra h
    rw [bary_off h] at hw
    exact lt_irrefl _ hw
  have va : IsVertex t t.a := .inl rfl
  have vb : IsVertex t t.b := .inr (.inl rfl)
  have vc : IsVertex t t.c := .inr (.inr rfl)
  have s1 := mid_comm ht va vb
  have s2 := mid_comm ht vb vc
  have s3 := mid_comm ht vc va
  have hcase : ((q = qa T t ∧ 1 ≤ 2 * bary T t x t.a) ∨ (q = qb T t ∧ 1 ≤ 2 * bary T t x t.b) ∨ (q = qc T t ∧ 1 ≤ 2 * bary T t x t.c) ∨
      (q = qd T t ∧ 2 * bary T t x t.a ≤ 1 ∧ 2 * bary T t x t.b ≤ 1 ∧ 2 * bary T t x t.c ≤ 1)) := by
    rcases mem_quarters_iff.mp hq with rfl | rfl | rfl | rfl
    · exact .inl ⟨rfl, by linarith [((mem_qa hT ht x).mp hx).1]⟩
    · exact .inr (.inl ⟨rfl, by linarith [((mem_qb hT ht x).mp hx).2.1]⟩)
    · exact .inr (.inr (.inl ⟨rfl, by linarith [((mem_qc hT ht x).mp hx).2.2]⟩))
    · obtain ⟨a, b, c⟩ := (mem_qd hT ht x).mp hx
      exact .inr (.inr (.inr ⟨rfl, by linarith, by linarith, by linarith⟩))
  obtain ⟨m1, m2, m3⟩ := (mem_triangle (hT.area t ht).ne' x).mp (quarter_subset hT ht hq hx)
  rcases hcase with ⟨rfl, hc⟩ | ⟨rfl, hc⟩ | ⟨rfl, hc⟩ | ⟨rfl, hc1, hc2, hc3⟩ <;>
    rcases vv with rfl | rfl | rfl <;> rcases vw with rfl | rfl | rfl <;>
    first
    | (exact .inl rfl) | (exact .inr (.inl rfl)) | (exact .inr (.inr rfl))
    | (exact .inl s1.symm) | (exact .inl s2.symm) | (exact .inl s3.symm)
    | (exact .inr (.inl s1.symm)) | (exact .inr (.inl s2.symm)) | (exact .inr (.inl s3.symm))
    | (exact .inr (.inr s1.symm)) | (exact .inr (.inr s2.symm)) | (exact .inr (.inr s3.symm))
    | (exact absurd (h1 rfl) (by linarith))
    | (exact absurd (h2 n1) (by linarith)) | (exact absurd (h2 n1.symm) (by linarith))
    | (exact absurd (h2 n2) (by linarith)) | (exact absurd (h2 n2.symm) (by linarith))
    | (exact absurd (h2 n3) (by linarith)) | (exact absurd (h2 n3.symm) (by linarith))

end
end Tulip
