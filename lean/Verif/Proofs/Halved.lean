import Verif.Proofs.Barycentric
import Mathlib.Data.Sym.Sym2
import Mathlib.Data.Fintype.EquivFin
import Mathlib.Data.Fintype.Sets

/-!
# Cutting every triangle of a mesh into four
-/

namespace Tulip
open Set Spec

variable {T : Triangulation ℝ}

open Classical in
/-- Vertices and sides of the mesh. -/
noncomputable def halvedDofs (T : Triangulation ℝ) : Finset (Sym2 (Fin T.nv)) :=
  Finset.univ.filter (fun e => e.IsDiag ∨ ∃ t ∈ T.tris, ∀ v ∈ e, IsVertex t v)

theorem diag_mem (v : Fin T.nv) : s(v, v) ∈ halvedDofs T := by
  unfold halvedDofs
  simp

theorem side_mem {t : Tri T.nv} (ht : t ∈ T.tris) {v w : Fin T.nv} (hv : IsVertex t v) (hw : IsVertex t w) : s(v, w) ∈ halvedDofs T := by
  unfold halvedDofs
  simp only [Finset.mem_filter, Finset.mem_univ, true_and]
  refine Or.inr ⟨t, ht, fun u hu => ?_⟩
  rcases Sym2.mem_iff.mp hu with rfl | rfl <;> assumption

open Classical in
/-- Number of the vertex in the middle between two vertices. -/
noncomputable def mid (T : Triangulation ℝ) (v w : Fin T.nv) : Fin (halvedDofs T).card :=
  if h : s(v, w) ∈ halvedDofs T then (halvedDofs T).equivFin ⟨s(v, w), h⟩ else (halvedDofs T).equivFin ⟨s(v, v), diag_mem v⟩

/-- The middle between two points. -/
noncomputable def middle (x y : ℝ × ℝ) : ℝ × ℝ := (2⁻¹ : ℝ) • x + (2⁻¹ : ℝ) • y

theorem middle_comm (x y : ℝ × ℝ) : middle x y = middle y x := add_comm _ _
theorem middle_self (x : ℝ × ℝ) : middle x x = x := by
  unfold middle
  rw [← add_smul]
  norm_num

/-- The parts of a triangle. -/
noncomputable def quarters (T : Triangulation ℝ) (t : Tri T.nv) : List (Tri (halvedDofs T).card) :=
  [⟨t.attr, mid T t.a t.a, mid T t.a t.b, mid T t.c t.a⟩, ⟨t.attr, mid T t.a t.b, mid T t.b t.b, mid T t.b t.c⟩,
   ⟨t.attr, mid T t.c t.a, mid T t.b t.c, mid T t.c t.c⟩, ⟨t.attr, mid T t.a t.b, mid T t.b t.c, mid T t.c t.a⟩]

/-- The mesh with every triangle cut into four at the middles of its sides. -/
noncomputable def halved (T : Triangulation ℝ) : Triangulation ℝ where
  nv := (halvedDofs T).card
  coord := fun k => Sym2.lift ⟨fun v w => middle (T.coord v) (T.coord w), fun _ _ => middle_comm _ _⟩ ((halvedDofs T).equivFin.symm k).1
  tris := T.tris.flatMap (quarters T)
  segs := T.segs.flatMap (fun s => [⟨s.attr, mid T s.a s.a, mid T s.a s.b, s.len / 2⟩, ⟨s.attr, mid T s.a s.b, mid T s.b s.b, s.len / 2⟩])

theorem mid_edge {v w : Fin T.nv} (h : s(v, w) ∈ halvedDofs T) : ((halvedDofs T).equivFin.symm (mid T v w)).1 = s(v, w) := by
  unfold mid
  rw [dif_pos h, Equiv.symm_apply_apply]

theorem mid_coord {v w : Fin T.nv} (h : s(v, w) ∈ halvedDofs T) : (halved T).coord (mid T v w) = middle (T.coord v) (T.coord w) := by
  show Sym2.lift _ ((halvedDofs T).equivFin.symm (mid T v w)).1 = _
  rw [mid_edge h]
  rfl

theorem mid_inj {v w v' w' : Fin T.nv} (h : s(v, w) ∈ halvedDofs T) (h' : s(v', w') ∈ halvedDofs T) :
    mid T v w = mid T v' w' ↔ s(v, w) = s(v', w') := by
  constructor
  · intro e
    rw [← mid_edge h, e, mid_edge h']
  · intro e
    refine (halvedDofs T).equivFin.symm.injective (Subtype.ext ?_)
    rw [mid_edge h, mid_edge h', e]

theorem mid_comm {t : Tri T.nv} (ht : t ∈ T.tris) {v w : Fin T.nv} (hv : IsVertex t v) (hw : IsVertex t w) : mid T v w = mid T w v :=
  (mid_inj (side_mem ht hv hw) (side_mem ht hw hv)).mpr Sym2.eq_swap

theorem mid_surj (k : Fin (halvedDofs T).card) : ∃ v w, s(v, w) ∈ halvedDofs T ∧ k = mid T v w := by
  obtain ⟨e, he⟩ : ∃ e, e = (halvedDofs T).equivFin.symm k := ⟨_, rfl⟩
  obtain ⟨e, hm⟩ := e
  induction e with
  | h v w =>
    refine ⟨v, w, hm, ?_⟩
    refine (halvedDofs T).equivFin.symm.injective (Subtype.ext ?_)
    rw [mid_edge hm, ← he]

theorem mid_points {t : Tri T.nv} (ht : t ∈ T.tris) :
    (halved T).coord (mid T t.a t.a) = T.coord t.a ∧ (halved T).coord (mid T t.b t.b) = T.coord t.b ∧ (halved T).coord (mid T t.c t.c) = T.coord t.c ∧
    (halved T).coord (mid T t.a t.b) = middle (T.coord t.a) (T.coord t.b) ∧ (halved T).coord (mid T t.b t.c) = middle (T.coord t.b) (T.coord t.c) ∧
    (halved T).coord (mid T t.c t.a) = middle (T.coord t.c) (T.coord t.a) := by
  have va : IsVertex t t.a := .inl rfl
  have vb : IsVertex t t.b := .inr (.inl rfl)
  have vc : IsVertex t t.c := .inr (.inr rfl)
  refine ⟨?_, ?_, ?_, mid_coord (side_mem ht va vb), mid_coord (side_mem ht vb vc), mid_coord (side_mem ht vc va)⟩
  · rw [mid_coord (side_mem ht va va), middle_self]
  · rw [mid_coord (side_mem ht vb vb), middle_self]
  · rw [mid_coord (side_mem ht vc vc), middle_self]

theorem quarters_mem {t : Tri T.nv} (ht : t ∈ T.tris) {q : Tri (halved T).nv} (hq : q ∈ quarters T t) : q ∈ (halved T).tris :=
  List.mem_flatMap.mpr ⟨t, ht, hq⟩

theorem mem_quarters {q : Tri (halved T).nv} (hq : q ∈ (halved T).tris) : ∃ t ∈ T.tris, q ∈ quarters T t := List.mem_flatMap.mp hq

theorem quarters_or {t : Tri T.nv} {q : Tri (halved T).nv} (hq : q ∈ quarters T t) :
    q = ⟨t.attr, mid T t.a t.a, mid T t.a t.b, mid T t.c t.a⟩ ∨ q = ⟨t.attr, mid T t.a t.b, mid T t.b t.b, mid T t.b t.c⟩ ∨
      q = ⟨t.attr, mid T t.c t.a, mid T t.b t.c, mid T t.c t.c⟩ ∨ q = ⟨t.attr, mid T t.a t.b, mid T t.b t.c, mid T t.c t.a⟩ := by
  obtain ⟨q', hq'⟩ : ∃ q' : Tri (halvedDofs T).card, q' = q := ⟨q, rfl⟩
  have h : q' ∈ quarters T t := hq' ▸ hq
  subst hq'
  unfold quarters at h
  rcases List.mem_cons.mp h with h | h
  · exact .inl h
  rcases List.mem_cons.mp h with h | h
  · exact .inr (.inl h)
  rcases List.mem_cons.mp h with h | h
  · exact .inr (.inr (.inl h))
  · exact .inr (.inr (.inr (List.mem_singleton.mp h)))

theorem quarters_attr {t : Tri T.nv} {q : Tri (halved T).nv} (hq : q ∈ quarters T t) : q.attr = t.attr := by
  rcases quarters_or hq with rfl | rfl | rfl | rfl <;> rfl

theorem quarters_det {t : Tri T.nv} (ht : t ∈ T.tris) {q : Tri (halved T).nv} (hq : q ∈ quarters T t) : (halved T).det q = T.det t / 4 := by
  obtain ⟨e1, e2, e3, e4, e5, e6⟩ := mid_points ht
  rcases quarters_or hq with rfl | rfl | rfl | rfl <;> unfold Triangulation.det <;> simp only [e1, e2, e3, e4, e5, e6, middle, Prod.fst_add, Prod.snd_add,
    Prod.smul_fst, Prod.smul_snd, smul_eq_mul] <;> ring

/-- Coordinates of a point in a part of a triangle. -/
theorem quarter_bary (hT : Proper T) {t : Tri T.nv} (ht : t ∈ T.tris) {q : Tri (halved T).nv} (hq : q ∈ quarters T t) (x : ℝ × ℝ) :
    (q = ⟨t.attr, mid T t.a t.a, mid T t.a t.b, mid T t.c t.a⟩ ∧ bary (halved T) q x q.a = 2 * bary T t x t.a - 1 ∧
      bary (halved T) q x q.b = 2 * bary T t x t.b ∧ bary (halved T) q x q.c = 2 * bary T t x t.c) ∨
    (q = ⟨t.attr, mid T t.a t.b, mid T t.b t.b, mid T t.b t.c⟩ ∧ bary (halved T) q x q.a = 2 * bary T t x t.a ∧
      bary (halved T) q x q.b = 2 * bary T t x t.b - 1 ∧ bary (halved T) q x q.c = 2 * bary T t x t.c) ∨
    (q = ⟨t.attr, mid T t.c t.a, mid T t.b t.c, mid T t.c t.c⟩ ∧ bary (halved T) q x q.a = 2 * bary T t x t.a ∧
      bary (halved T) q x q.b = 2 * bary T t x t.b ∧ bary (halved T) q x q.c = 2 * bary T t x t.c - 1) ∨
    (q = ⟨t.attr, mid T t.a t.b, mid T t.b t.c, mid T t.c t.a⟩ ∧ bary (halved T) q x q.a = 1 - 2 * bary T t x t.c ∧
      bary (halved T) q x q.b = 1 - 2 * bary T t x t.a ∧ bary (halved T) q x q.c = 1 - 2 * bary T t x t.b) := by
  have hd := (hT.area t ht).ne'
  have hdq : (halved T).det q ≠ 0 := by
    rw [quarters_det ht hq]
    have := hT.area t ht
    positivity
  have hsum := bary_sum hd x
  have hpt := bary_point hd x
  obtain ⟨e1, e2, e3, e4, e5, e6⟩ := mid_points ht
  have key : ∀ α β γ : ℝ, α + β + γ = 1 → x = α • (halved T).coord q.a + β • (halved T).coord q.b + γ • (halved T).coord q.c →
      bary (halved T) q x q.a = α ∧ bary (halved T) q x q.b = β ∧ bary (halved T) q x q.c = γ := fun α β γ hs e => by
    have := bary_unique hdq hs
    rwa [← e] at this
  have ha : bary T t x t.a = 1 - bary T t x t.b - bary T t x t.c := by linarith
  rcases quarters_or hq with rfl | rfl | rfl | rfl
  · refine .inl ⟨rfl, key _ _ _ (by linarith) ?_⟩
    simp only [e1, e4, e6]
    conv_lhs => rw [hpt]
    rw [ha]
    unfold middle
    module
  · refine .inr (.inl ⟨rfl, key _ _ _ (by linarith) ?_⟩)
    simp only [e2, e4, e5]
    conv_lhs => rw [hpt]
    rw [ha]
    unfold middle
    module
  · refine .inr (.inr (.inl ⟨rfl, key _ _ _ (by linarith) ?_⟩))
    simp only [e3, e5, e6]
    conv_lhs => rw [hpt]
    rw [ha]
    unfold middle
    module
  · refine .inr (.inr (.inr ⟨rfl, key _ _ _ (by linarith) ?_⟩))
    simp only [e4, e5, e6]
    conv_lhs => rw [hpt]
    rw [ha]
    unfold middle
    module

end Tulip
