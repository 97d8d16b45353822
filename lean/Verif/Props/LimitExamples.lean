import Verif.Props.LimitMeshes

/-!
# C101: an example
-/

namespace Tulip.Props
open Tulip Tulip.Spec MeasureTheory Set Matrix

/-- the unit square, cut along a diagonal; conductors on the left and on the right -/
noncomputable def square : Triangulation ℝ where
  nv := 4
  coord := ![(0, 0), (1, 0), (1, 1), (0, 1)]
  tris := [⟨1, 0, 1, 2⟩, ⟨2, 0, 2, 3⟩]
  segs := [⟨1, 3, 0, 1⟩, ⟨2, 1, 2, 1⟩, ⟨3, 0, 1, 1⟩, ⟨3, 2, 3, 1⟩]

/-- two conductors, and a dielectric above the diagonal -/
noncomputable def squareMats : Materials ℝ where
  pecs := [⟨"Conductor_0", 1, 0⟩, ⟨"Conductor_1", 2, 0⟩]
  dielectrics := [⟨"Dielectric_1", 2, 4⟩]
  openBoundaries := []

/-- the lower triangle -/
def lower : Tri square.nv := ⟨1, (0 : Fin 4), (1 : Fin 4), (2 : Fin 4)⟩
/-- the upper triangle -/
def upper : Tri square.nv := ⟨2, (0 : Fin 4), (2 : Fin 4), (3 : Fin 4)⟩

theorem square_tris {t : Tri square.nv} (h : t ∈ square.tris) : t = lower ∨ t = upper := by
  rcases List.mem_cons.mp h with h | h
  · exact .inl h
  · exact .inr (List.mem_singleton.mp h)

theorem square_det : square.det lower = 1 ∧ square.det upper = 1 := by
  constructor <;> simp [Triangulation.det, square, lower, upper]

theorem square_numbering : Numbering squareMats squareMats.pecs where
  all := List.Perm.refl _
  ids := by
    intro i h
    match i, h with
    | 0, _ => show getMaterialIdFromName "Conductor_0" = .ok 0; decide +kernel
    | 1, _ => show getMaterialIdFromName "Conductor_1" = .ok 1; decide +kernel
  nonempty := by simp [squareMats]

theorem square_segs {s : Seg ℝ square.nv} (hs : s ∈ square.segs) : s = ⟨1, (3 : Fin 4), (0 : Fin 4), 1⟩ ∨ s = ⟨2, (1 : Fin 4), (2 : Fin 4), 1⟩ ∨
    s = ⟨3, (0 : Fin 4), (1 : Fin 4), 1⟩ ∨ s = ⟨3, (2 : Fin 4), (3 : Fin 4), 1⟩ := by
  rcases List.mem_cons.mp hs with h | hs
  · exact .inl h
  rcases List.mem_cons.mp hs with h | hs
  · exact .inr (.inl h)
  rcases List.mem_cons.mp hs with h | hs
  · exact .inr (.inr (.inl h))
  · exact .inr (.inr (.inr (List.mem_singleton.mp hs)))

theorem square_proper : Proper square where
  area t ht := by
    rcases square_tris ht with rfl | rfl
    · rw [square_det.1]; exact one_pos
    · rw [square_det.2]; exact one_pos
  segs s hs := by
    have := square_segs hs
    have hl : lower ∈ square.tris := List.mem_cons_self
    have hu : upper ∈ square.tris := List.mem_cons_of_mem _ List.mem_cons_self
    rcases this with rfl | rfl | rfl | rfl
    · exact ⟨upper, hu, by decide⟩
    · exact ⟨lower, hl, by decide⟩
    · exact ⟨lower, hl, by decide⟩
    · exact ⟨upper, hu, by decide⟩
  boundary := by simp [square]
  triAttrs t ht := by
    rcases square_tris ht with rfl | rfl <;> decide
  segAttrs s hs := by
    rcases square_segs hs with rfl | rfl | rfl | rfl <;> norm_num

theorem square_bary (x : ℝ × ℝ) : bary square lower x lower.b = x.1 - x.2 ∧ bary square upper x upper.c = x.2 - x.1 := by
  have h1 := (bary_verts (T := square) (t := lower) (by rw [square_det.1]; exact one_ne_zero) x).2.1
  have h2 := (bary_verts (T := square) (t := upper) (by rw [square_det.2]; exact one_ne_zero) x).2.2
  rw [square_det.1] at h1
  rw [square_det.2] at h2
  rw [h1, h2]
  constructor <;> simp [planeDet, square, lower, upper]

theorem square_meet {x : ℝ × ℝ} (hl : x ∈ triangle square lower) (hu : x ∈ triangle square upper) :
    x ∈ convexHull ℝ (square.coord '' {v | IsVertex lower v ∧ IsVertex upper v}) := by
  have hd : square.det lower ≠ 0 := by rw [square_det.1]; exact one_ne_zero
  have hd' : square.det upper ≠ 0 := by rw [square_det.2]; exact one_ne_zero
  have h1 := bary_nonneg hd hl lower.b
  have h2 := bary_nonneg hd' hu upper.c
  refine bary_hull hd hl fun k hk h0 => mem_image_of_mem _ ⟨hk, ?_⟩
  rcases hk with rfl | rfl | rfl
  · exact .inl rfl
  · rw [(square_bary x).1] at h0
    rw [(square_bary x).2] at h2
    linarith
  · exact .inr (.inl rfl)

theorem square_embedded : Embedded square where
  apart := by
    refine .cons (fun t ht => ?_) (.cons (fun t ht => absurd ht List.not_mem_nil) .nil)
    obtain rfl := List.mem_singleton.mp ht
    refine Set.disjoint_left.mpr fun x hx hx' => ?_
    have hd : square.det lower ≠ 0 := by rw [square_det.1]; exact one_ne_zero
    have hd' : square.det upper ≠ 0 := by rw [square_det.2]; exact one_ne_zero
    have h1 := bary_interior hd hx (k := lower.b) (.inr (.inl rfl))
    have h2 := bary_interior hd' hx' (k := upper.c) (.inr (.inr rfl))
    rw [(square_bary x).1] at h1
    rw [(square_bary x).2] at h2
    linarith
  meet := by
    intro t ht t' ht' x hx hx'
    have hself : ∀ t ∈ square.tris, x ∈ triangle square t → x ∈ convexHull ℝ (square.coord '' {v | IsVertex t v ∧ IsVertex t v}) := fun t ht hx =>
      bary_hull (square_proper.area t ht).ne' hx fun k hk _ => mem_image_of_mem _ ⟨hk, hk⟩
    rcases square_tris ht with rfl | rfl <;> rcases square_tris ht' with rfl | rfl
    · exact hself _ ht hx
    · exact square_meet hx hx'
    · have := square_meet hx' hx
      have e : {v | IsVertex upper v ∧ IsVertex lower v} = {v | IsVertex lower v ∧ IsVertex upper v} := by ext; exact and_comm
      exact e ▸ this
    · exact hself _ ht hx

theorem square_sensible : Sensible square squareMats where
  pecs p hp := by
    simp only [squareMats, List.mem_cons, List.not_mem_nil, or_false] at hp
    rcases hp with rfl | rfl <;> norm_num
  opens o ho := absurd ho List.not_mem_nil
  dielectrics d hd := by
    obtain rfl := List.mem_singleton.mp hd
    exact ⟨by norm_num, upper, List.mem_cons_of_mem _ List.mem_cons_self, le_refl _⟩
  names := by simp [squareMats]
  tags := by simp [squareMats]
  openNames := by simp [squareMats]
  permittivities d hd := by
    obtain rfl := List.mem_singleton.mp hd
    norm_num

theorem square_onTag {tag : Int} {v : Fin square.nv} : OnTag square tag v ↔ (tag = 1 ∧ (v = (3 : Fin 4) ∨ v = (0 : Fin 4))) ∨ (tag = 2 ∧ (v = (1 : Fin 4) ∨ v = (2 : Fin 4))) ∨ tag = 3 := by
  constructor
  · rintro ⟨s, hs, rfl, hv⟩
    rcases square_segs hs with rfl | rfl | rfl | rfl
    · exact .inl ⟨rfl, hv⟩
    · exact .inr (.inl ⟨rfl, hv⟩)
    · exact .inr (.inr rfl)
    · exact .inr (.inr rfl)
  · rintro (⟨rfl, hv⟩ | ⟨rfl, hv⟩ | rfl)
    · exact ⟨_, List.mem_cons_self, rfl, hv⟩
    · exact ⟨_, List.mem_cons_of_mem _ List.mem_cons_self, rfl, hv⟩
    · by_cases h : v = (0 : Fin 4) ∨ v = (1 : Fin 4)
      · exact ⟨_, List.mem_cons_of_mem _ (List.mem_cons_of_mem _ List.mem_cons_self), rfl, h⟩
      · refine ⟨_, List.mem_cons_of_mem _ (List.mem_cons_of_mem _ (List.mem_cons_of_mem _ List.mem_cons_self)), rfl, ?_⟩
        have : ∀ w : Fin 4, ¬ (w = 0 ∨ w = 1) → w = 2 ∨ w = 3 := by decide
        exact this v h

theorem square_joined : JoinedToConductors square squareMats := by
  intro v
  have h : (∃ tag ∈ [1, 2], OnTag square tag v) := by
    have : ∀ v : Fin 4, (v = 3 ∨ v = 0) ∨ (v = 1 ∨ v = 2) := by decide
    rcases this v with h | h
    · exact ⟨1, by simp, square_onTag.mpr (.inl ⟨rfl, h⟩)⟩
    · exact ⟨2, by simp, square_onTag.mpr (.inr (.inl ⟨rfl, h⟩))⟩
  obtain ⟨tag, ht, hv⟩ := h
  simp only [List.mem_cons, List.not_mem_nil, or_false] at ht
  rcases ht with rfl | rfl
  · exact ⟨_, List.mem_cons_self, v, hv, .refl⟩
  · exact ⟨_, List.mem_cons_of_mem _ List.mem_cons_self, v, hv, .refl⟩

theorem square_apart : ConductorsApart square squareMats := by
  intro p hp q hq hne v h1 h2
  replace h1 := square_onTag.mp h1
  replace h2 := square_onTag.mp h2
  simp only [squareMats, List.mem_cons, List.not_mem_nil, or_false] at hp hq
  rcases hp with rfl | rfl <;> rcases hq with rfl | rfl
  · exact hne rfl
  · have : ∀ w : Fin 4, ¬ (((1 : Int) = 1 ∧ (w = 3 ∨ w = 0) ∨ (1 : Int) = 2 ∧ (w = 1 ∨ w = 2) ∨ (1 : Int) = 3) ∧
        ((2 : Int) = 1 ∧ (w = 3 ∨ w = 0) ∨ (2 : Int) = 2 ∧ (w = 1 ∨ w = 2) ∨ (2 : Int) = 3)) := by decide
    exact this v ⟨h1, h2⟩
  · have : ∀ w : Fin 4, ¬ (((1 : Int) = 1 ∧ (w = 3 ∨ w = 0) ∨ (1 : Int) = 2 ∧ (w = 1 ∨ w = 2) ∨ (1 : Int) = 3) ∧
        ((2 : Int) = 1 ∧ (w = 3 ∨ w = 0) ∨ (2 : Int) = 2 ∧ (w = 1 ∨ w = 2) ∨ (2 : Int) = 3)) := by decide
    exact this v ⟨h2, h1⟩
  · exact hne rfl

/-- an exact linear solver -/
noncomputable def inverseReal : LinSolver ℝ := fun _ A b _ => A⁻¹ *ᵥ b

theorem inverseReal_exact : ExactSolver inverseReal := by
  intro n A b x0 h
  unfold inverseReal
  rw [mulVec_mulVec, Matrix.mul_nonsing_inv _ (isUnit_iff_ne_zero.mpr h), one_mulVec]

/-- no absorbing condition, no moments -/
def realNothing : Analytic ℝ := ⟨fun _ => 0, fun _ _ _ _ => 0⟩

/-- The hypotheses of C101 hold for the square with two conductors and a dielectric, with elements of order 3: runs on finer
and finer meshes, whose energies reach the least energy. -/
example (V : Int → ℝ) {ε : ℝ} (hε : 0 < ε) : ∃ (T' : Triangulation ℝ) (S : Shapes T') (Q : Rule ℝ) (s : Solver (T'.femWith S Q)) (W : ℝ),
    SameCrossSection square T' ∧ ClosedRun T' realNothing inverseReal squareMats false S Q 3 s ∧ Reports inverseReal squareMats s V W ∧
      sInf (potentialEnergies square squareMats false V) ≤ W ∧ W ≤ sInf (potentialEnergies square squareMats false V) + ε :=
  C101_reached square_numbering rfl square_proper square_embedded square_sensible square_joined square_apart realNothing inverseReal_exact false V
    (by norm_num) hε

end Tulip.Props
