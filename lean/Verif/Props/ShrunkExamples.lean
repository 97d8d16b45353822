import Verif.Props.Shrunk

/-!
# C105: an example
-/

namespace Tulip.Props
open Tulip Tulip.Spec MeasureTheory Set

/-- The capacitor `square` after its plate on the right has been moved from 1 to 2. -/
noncomputable def wide : Triangulation ℝ where
  nv := 6
  coord := ![(0, 0), (1, 0), (1, 1), (0, 1), (2, 0), (2, 1)]
  tris := [⟨1, 0, 1, 2⟩, ⟨2, 0, 2, 3⟩, ⟨1, 1, 4, 5⟩, ⟨1, 1, 5, 2⟩]
  segs := [⟨1, 3, 0, 1⟩, ⟨2, 4, 5, 1⟩, ⟨3, 0, 1, 1⟩, ⟨3, 1, 4, 1⟩, ⟨3, 5, 2, 1⟩, ⟨3, 2, 3, 1⟩]

def wide1 : Tri wide.nv := ⟨1, (0 : Fin 6), (1 : Fin 6), (2 : Fin 6)⟩
def wide2 : Tri wide.nv := ⟨2, (0 : Fin 6), (2 : Fin 6), (3 : Fin 6)⟩
def wide3 : Tri wide.nv := ⟨1, (1 : Fin 6), (4 : Fin 6), (5 : Fin 6)⟩
def wide4 : Tri wide.nv := ⟨1, (1 : Fin 6), (5 : Fin 6), (2 : Fin 6)⟩

theorem wide_tris {t : Tri wide.nv} (h : t ∈ wide.tris) : t = wide1 ∨ t = wide2 ∨ t = wide3 ∨ t = wide4 := by
  rcases List.mem_cons.mp h with h | h
  · exact .inl h
  rcases List.mem_cons.mp h with h | h
  · exact .inr (.inl h)
  rcases List.mem_cons.mp h with h | h
  · exact .inr (.inr (.inl h))
  · exact .inr (.inr (.inr (List.mem_singleton.mp h)))

theorem wide_mem : wide1 ∈ wide.tris ∧ wide2 ∈ wide.tris ∧ wide3 ∈ wide.tris ∧ wide4 ∈ wide.tris :=
  ⟨List.mem_cons_self, List.mem_cons_of_mem _ List.mem_cons_self, List.mem_cons_of_mem _ (List.mem_cons_of_mem _ List.mem_cons_self),
    List.mem_cons_of_mem _ (List.mem_cons_of_mem _ (List.mem_cons_of_mem _ List.mem_cons_self))⟩

theorem wide_det : wide.det wide1 = 1 ∧ wide.det wide2 = 1 ∧ wide.det wide3 = 1 ∧ wide.det wide4 = 1 := by
  refine ⟨?_, ?_, ?_, ?_⟩ <;> simp [Triangulation.det, wide, wide1, wide2, wide3, wide4] <;> norm_num

theorem wide_ne {t : Tri wide.nv} (h : t ∈ wide.tris) : wide.det t ≠ 0 := by
  obtain ⟨h1, h2, h3, h4⟩ := wide_det
  rcases wide_tris h with rfl | rfl | rfl | rfl
  · rw [h1]; exact one_ne_zero
  · rw [h2]; exact one_ne_zero
  · rw [h3]; exact one_ne_zero
  · rw [h4]; exact one_ne_zero

theorem wide_bary (x : ℝ × ℝ) :
    (bary wide wide1 x wide1.a = 1 - x.1 ∧ bary wide wide1 x wide1.b = x.1 - x.2 ∧ bary wide wide1 x wide1.c = x.2) ∧
    (bary wide wide2 x wide2.a = 1 - x.2 ∧ bary wide wide2 x wide2.b = x.1 ∧ bary wide wide2 x wide2.c = x.2 - x.1) ∧
    (bary wide wide3 x wide3.a = 2 - x.1 ∧ bary wide wide3 x wide3.b = x.1 - 1 - x.2 ∧ bary wide wide3 x wide3.c = x.2) ∧
    (bary wide wide4 x wide4.a = 1 - x.2 ∧ bary wide wide4 x wide4.b = x.1 - 1 ∧ bary wide wide4 x wide4.c = x.2 - x.1 + 1) := by
  obtain ⟨d1, d2, d3, d4⟩ := wide_det
  obtain ⟨m1, m2, m3, m4⟩ := wide_mem
  have h1 := bary_verts (wide_ne m1) x
  have h2 := bary_verts (wide_ne m2) x
  have h3 := bary_verts (wide_ne m3) x
  have h4 := bary_verts (wide_ne m4) x
  rw [d1] at h1
  rw [d2] at h2
  rw [d3] at h3
  rw [d4] at h4
  rw [h1.1, h1.2.1, h1.2.2, h2.1, h2.2.1, h2.2.2, h3.1, h3.2.1, h3.2.2, h4.1, h4.2.1, h4.2.2]
  simp only [planeDet, wide, wide1, wide2, wide3, wide4]
  refine ⟨⟨?_, ?_, ?_⟩, ⟨?_, ?_, ?_⟩, ⟨?_, ?_, ?_⟩, ?_, ?_, ?_⟩ <;> simp <;> ring

theorem wide_triangles (x : ℝ × ℝ) : (x ∈ triangle wide wide1 ↔ 0 ≤ x.2 ∧ x.2 ≤ x.1 ∧ x.1 ≤ 1) ∧ (x ∈ triangle wide wide2 ↔ 0 ≤ x.1 ∧ x.1 ≤ x.2 ∧ x.2 ≤ 1) ∧
    (x ∈ triangle wide wide3 ↔ 0 ≤ x.2 ∧ x.2 ≤ x.1 - 1 ∧ x.1 ≤ 2) ∧ (x ∈ triangle wide wide4 ↔ 1 ≤ x.1 ∧ x.1 - 1 ≤ x.2 ∧ x.2 ≤ 1) := by
  obtain ⟨m1, m2, m3, m4⟩ := wide_mem
  obtain ⟨⟨a1, a2, a3⟩, ⟨b1, b2, b3⟩, ⟨c1, c2, c3⟩, e1, e2, e3⟩ := wide_bary x
  rw [mem_triangle (wide_ne m1), mem_triangle (wide_ne m2), mem_triangle (wide_ne m3), mem_triangle (wide_ne m4), a1, a2, a3, b1, b2, b3, c1, c2, c3, e1, e2, e3]
  refine ⟨?_, ?_, ?_, ?_⟩ <;> constructor <;> rintro ⟨a, b, c⟩ <;> exact ⟨by linarith, by linarith, by linarith⟩

theorem wide_interior {x : ℝ × ℝ} : (x ∈ interior (triangle wide wide1) → x.2 < x.1 ∧ x.1 < 1) ∧ (x ∈ interior (triangle wide wide2) → x.1 < x.2 ∧ x.1 < 1 ∧ x.2 < 1) ∧
    (x ∈ interior (triangle wide wide3) → x.2 < x.1 - 1 ∧ 1 < x.1) ∧ (x ∈ interior (triangle wide wide4) → x.1 - 1 < x.2 ∧ 1 < x.1) := by
  obtain ⟨m1, m2, m3, m4⟩ := wide_mem
  obtain ⟨⟨a1, a2, a3⟩, ⟨b1, b2, b3⟩, ⟨c1, c2, c3⟩, e1, e2, e3⟩ := wide_bary x
  refine ⟨fun h => ?_, fun h => ?_, fun h => ?_, fun h => ?_⟩
  · have h1 := bary_interior (wide_ne m1) h (.inl rfl)
    have h2 := bary_interior (wide_ne m1) h (.inr (.inl rfl))
    rw [a1] at h1; rw [a2] at h2
    exact ⟨by linarith, by linarith⟩
  · have h1 := bary_interior (wide_ne m2) h (.inl rfl)
    have h2 := bary_interior (wide_ne m2) h (.inr (.inr rfl))
    rw [b1] at h1; rw [b3] at h2
    exact ⟨by linarith, by linarith, by linarith⟩
  · have h1 := bary_interior (wide_ne m3) h (.inr (.inl rfl))
    have h2 := bary_interior (wide_ne m3) h (.inr (.inr rfl))
    rw [c2] at h1; rw [c3] at h2
    exact ⟨by linarith, by linarith⟩
  · have h1 := bary_interior (wide_ne m4) h (.inr (.inl rfl))
    have h2 := bary_interior (wide_ne m4) h (.inr (.inr rfl))
    rw [e2] at h1; rw [e3] at h2
    exact ⟨by linarith, by linarith⟩

theorem wide_embedded : Embedded wide where
  apart := by
    have key : ∀ {t t' : Tri wide.nv}, (∀ x, x ∈ interior (triangle wide t) → x ∈ interior (triangle wide t') → False) →
        Disjoint (interior (triangle wide t)) (interior (triangle wide t')) := fun h => Set.disjoint_left.mpr fun x hx hx' => h x hx hx'
    show List.Pairwise _ [wide1, wide2, wide3, wide4]
    simp only [List.pairwise_cons, List.mem_cons, List.not_mem_nil, or_false, forall_eq_or_imp, forall_eq, IsEmpty.forall_iff, implies_true, List.Pairwise.nil, and_true]
    refine ⟨⟨key fun x h h' => ?_, key fun x h h' => ?_, key fun x h h' => ?_⟩, ⟨key fun x h h' => ?_, key fun x h h' => ?_⟩, key fun x h h' => ?_⟩
    · linarith [(wide_interior.1 h).1, (wide_interior.2.1 h').1]
    · linarith [(wide_interior.1 h).2, (wide_interior.2.2.1 h').2]
    · linarith [(wide_interior.1 h).2, (wide_interior.2.2.2 h').2]
    · linarith [(wide_interior.2.1 h).2.1, (wide_interior.2.2.1 h').2]
    · linarith [(wide_interior.2.1 h).2.1, (wide_interior.2.2.2 h').2]
    · linarith [(wide_interior.2.2.1 h).1, (wide_interior.2.2.2 h').1]
  meet := by
    intro t ht t' ht' x hx hx'
    refine bary_hull (wide_ne ht) hx fun k hk h0 => mem_image_of_mem _ ⟨hk, ?_⟩
    obtain ⟨⟨a1, a2, a3⟩, ⟨b1, b2, b3⟩, ⟨c1, c2, c3⟩, e1, e2, e3⟩ := wide_bary x
    obtain ⟨k1, k2, k3, k4⟩ := wide_triangles x
    rcases wide_tris ht with rfl | rfl | rfl | rfl <;> rcases wide_tris ht' with rfl | rfl | rfl | rfl <;> rcases hk with rfl | rfl | rfl
    all_goals first
      | exact .inl rfl
      | exact .inr (.inl rfl)
      | exact .inr (.inr rfl)
      | exfalso
        simp only [k1, k2, k3, k4] at hx hx'
        simp only [a1, a2, a3, b1, b2, b3, c1, c2, c3, e1, e2, e3] at h0
        linarith [hx.1, hx.2.1, hx.2.2, hx'.1, hx'.2.1, hx'.2.2]

theorem wide_covered : covered wide = Icc 0 2 ×ˢ Icc 0 1 := by
  ext x
  obtain ⟨k1, k2, k3, k4⟩ := wide_triangles x
  obtain ⟨m1, m2, m3, m4⟩ := wide_mem
  simp only [covered, mem_setOf_eq, mem_prod, mem_Icc]
  constructor
  · rintro ⟨t, ht, hx⟩
    rcases wide_tris ht with rfl | rfl | rfl | rfl
    · have := k1.mp hx
      exact ⟨⟨by linarith, by linarith⟩, by linarith, by linarith⟩
    · have := k2.mp hx
      exact ⟨⟨by linarith, by linarith⟩, by linarith, by linarith⟩
    · have := k3.mp hx
      exact ⟨⟨by linarith, by linarith⟩, by linarith, by linarith⟩
    · have := k4.mp hx
      exact ⟨⟨by linarith, by linarith⟩, by linarith, by linarith⟩
  · rintro ⟨⟨a, b⟩, c, d⟩
    rcases le_total x.1 1 with h1 | h1
    · rcases le_total x.2 x.1 with h | h
      · exact ⟨wide1, m1, k1.mpr ⟨c, h, h1⟩⟩
      · exact ⟨wide2, m2, k2.mpr ⟨a, h, d⟩⟩
    · rcases le_total x.2 (x.1 - 1) with h | h
      · exact ⟨wide3, m3, k3.mpr ⟨c, h, b⟩⟩
      · exact ⟨wide4, m4, k4.mpr ⟨h1, h, d⟩⟩

theorem wide_segs {s : Seg ℝ wide.nv} (hs : s ∈ wide.segs) : s = ⟨1, (3 : Fin 6), (0 : Fin 6), 1⟩ ∨ s = ⟨2, (4 : Fin 6), (5 : Fin 6), 1⟩ ∨ s.attr = 3 := by
  rcases List.mem_cons.mp hs with h | hs
  · exact .inl h
  rcases List.mem_cons.mp hs with h | hs
  · exact .inr (.inl h)
  rcases List.mem_cons.mp hs with h | hs
  · exact .inr (.inr (congrArg Seg.attr h))
  rcases List.mem_cons.mp hs with h | hs
  · exact .inr (.inr (congrArg Seg.attr h))
  rcases List.mem_cons.mp hs with h | hs
  · exact .inr (.inr (congrArg Seg.attr h))
  · exact .inr (.inr (congrArg Seg.attr (List.mem_singleton.mp hs)))

theorem wide_shrunk : Shrunk square wide squareMats 2 where
  region := by
    rw [square_covered, wide_covered]
    exact prod_mono_left (Icc_subset_Icc_right one_le_two)
  material t ht t' ht' := by
    rintro ⟨x, hx, hx'⟩
    have hs := square_triangles x
    rcases square_tris ht with rfl | rfl <;> rcases wide_tris ht' with rfl | rfl | rfl | rfl
    · rfl
    · linarith [(hs.1.mp (interior_subset hx)).2.1, (wide_interior.2.1 hx').1]
    · rfl
    · rfl
    · linarith [(hs.2.mp (interior_subset hx)).2.1, (wide_interior.1 hx').1]
    · rfl
    · linarith [(hs.2.mp (interior_subset hx)).2.1, (hs.2.mp (interior_subset hx)).2.2, (wide_interior.2.2.1 hx').2]
    · linarith [(hs.2.mp (interior_subset hx)).2.1, (hs.2.mp (interior_subset hx)).2.2, (wide_interior.2.2.2 hx').2]
  freed x hx hcl := by
    have hsub : covered wide \ covered square ⊆ {y : ℝ × ℝ | 1 ≤ y.1} := by
      rw [square_covered, wide_covered]
      rintro y ⟨⟨⟨h1, h2⟩, h3⟩, hn⟩
      by_contra hlt
      exact hn ⟨⟨h1, (not_le.mp hlt).le⟩, h3⟩
    have h1 : 1 ≤ x.1 := (isClosed_le continuous_const continuous_fst).closure_subset_iff.mpr hsub hcl
    rw [square_covered] at hx
    exact capacitor_boundary.2.mpr ⟨le_antisymm hx.1.2 h1, hx.2⟩
  surface x hx hxT := by
    obtain ⟨s, hs, ha, hx⟩ := hx
    rcases wide_segs hs with rfl | rfl | h
    · exact absurd ha (by norm_num)
    · have : x.1 = 2 := by
        obtain ⟨a, b, ha, hb, hab, rfl⟩ := hx
        simp [wide]
        linarith
      rw [square_covered] at hxT
      linarith [hxT.1.2]
    · rw [h] at ha
      exact absurd ha (by norm_num)
  others c hc hck := by
    have h1 : c.tag = 1 := by
      simp only [squareMats, List.mem_cons, List.not_mem_nil, or_false] at hc
      rcases hc with rfl | rfl
      · rfl
      · exact absurd rfl hck
    rw [h1]
    ext x
    constructor
    · rintro ⟨s, hs, ha, hx⟩
      rcases wide_segs hs with rfl | rfl | h
      · exact ⟨⟨1, (3 : Fin 4), (0 : Fin 4), 1⟩, List.mem_cons_self, rfl, hx⟩
      · exact absurd ha (by norm_num)
      · rw [h] at ha
        exact absurd ha (by norm_num)
    · rintro ⟨s, hs, ha, hx⟩
      rcases square_segs hs with rfl | rfl | rfl | rfl
      · exact ⟨⟨1, (3 : Fin 6), (0 : Fin 6), 1⟩, List.mem_cons_self, rfl, hx⟩
      all_goals exact absurd ha (by norm_num)

/-- Moving a plate of the capacitor away: any run before, and runs on fine meshes afterwards. -/
example (V : Int → ℝ) {p : Nat} (hp : 1 ≤ p) : ∃ (S : Shapes square) (Q : Rule ℝ) (s : Solver (square.femWith S Q)) (W : ℝ),
    ClosedRun square realNothing inverseReal squareMats false S Q p s ∧ Reports inverseReal squareMats s V W ∧ ∀ (flatness ε : ℝ), 0 < ε → ∃ size > 0,
      ∀ (M : Triangulation ℝ) (A' : Analytic ℝ) (P' : LinSolver ℝ) (S' : Shapes M) (Q' : Rule ℝ) (p' : Nat) (s' : Solver (M.femWith S' Q')),
        ExactSolver P' → ClosedRun M A' P' squareMats false S' Q' p' s' → SameCrossSection wide M → Fine M flatness size →
        ∃ W', Reports P' squareMats s' V W' ∧ W' ≤ W + ε := by
  obtain ⟨S, Q, s, h4⟩ := closedRun_exists square_numbering square_proper square_embedded square_sensible square_joined square_apart realNothing inverseReal false hp
  obtain ⟨W, e1, e2⟩ := C105_runs square_numbering rfl inverseReal_exact h4 wide_embedded ⟨_, List.mem_cons_of_mem _ List.mem_cons_self, rfl⟩ wide_shrunk V
  exact ⟨S, Q, s, W, h4, e1, e2⟩

/-- Without the dielectric, the least energy is not above that of the narrow capacitor (it is half of it). -/
example (V : Int → ℝ) : sInf (potentialEnergies wide squareMats true V) ≤ (V 2 - V 1) ^ 2 / 2 :=
  csInf_le (energies_below square_sensible.permittivities wide true V)
    (C105_potentials square_proper square_embedded wide_embedded ⟨_, List.mem_cons_of_mem _ List.mem_cons_self, rfl⟩ wide_shrunk true V
      ⟨_, capacitor_potential V, (capacitor_least V).1.symm⟩)

theorem wide_all {s : Seg ℝ wide.nv} (hs : s ∈ wide.segs) : s = ⟨1, (3 : Fin 6), (0 : Fin 6), 1⟩ ∨ s = ⟨2, (4 : Fin 6), (5 : Fin 6), 1⟩ ∨
    s = ⟨3, (0 : Fin 6), (1 : Fin 6), 1⟩ ∨ s = ⟨3, (1 : Fin 6), (4 : Fin 6), 1⟩ ∨ s = ⟨3, (5 : Fin 6), (2 : Fin 6), 1⟩ ∨ s = ⟨3, (2 : Fin 6), (3 : Fin 6), 1⟩ := by
  rcases List.mem_cons.mp hs with h | hs
  · exact .inl h
  rcases List.mem_cons.mp hs with h | hs
  · exact .inr (.inl h)
  rcases List.mem_cons.mp hs with h | hs
  · exact .inr (.inr (.inl h))
  rcases List.mem_cons.mp hs with h | hs
  · exact .inr (.inr (.inr (.inl h)))
  rcases List.mem_cons.mp hs with h | hs
  · exact .inr (.inr (.inr (.inr (.inl h))))
  · exact .inr (.inr (.inr (.inr (.inr (List.mem_singleton.mp hs)))))

theorem wide_proper : Proper wide where
  area t ht := by
    obtain ⟨h1, h2, h3, h4⟩ := wide_det
    rcases wide_tris ht with rfl | rfl | rfl | rfl
    · rw [h1]; exact one_pos
    · rw [h2]; exact one_pos
    · rw [h3]; exact one_pos
    · rw [h4]; exact one_pos
  segs s hs := by
    obtain ⟨m1, m2, m3, m4⟩ := wide_mem
    rcases wide_all hs with rfl | rfl | rfl | rfl | rfl | rfl
    · exact ⟨wide2, m2, by decide⟩
    · exact ⟨wide3, m3, by decide⟩
    · exact ⟨wide1, m1, by decide⟩
    · exact ⟨wide3, m3, by decide⟩
    · exact ⟨wide4, m4, by decide⟩
    · exact ⟨wide2, m2, by decide⟩
  boundary := by simp [wide]
  triAttrs t ht := by
    rcases wide_tris ht with rfl | rfl | rfl | rfl <;> decide
  segAttrs s hs := by
    rcases wide_all hs with rfl | rfl | rfl | rfl | rfl | rfl <;> norm_num

theorem wide_sensible : Sensible wide squareMats where
  pecs := square_sensible.pecs
  opens := square_sensible.opens
  dielectrics d hd := by
    obtain rfl := List.mem_singleton.mp hd
    exact ⟨by norm_num, wide2, wide_mem.2.1, le_refl _⟩
  names := square_sensible.names
  tags := square_sensible.tags
  openNames := square_sensible.openNames
  permittivities := square_sensible.permittivities

theorem wide_joined : JoinedToConductors wide squareMats := by
  obtain ⟨m1, m2, m3, m4⟩ := wide_mem
  have h0 : OnTag wide 1 (0 : Fin 6) := ⟨_, List.mem_cons_self, rfl, .inr rfl⟩
  have h3 : OnTag wide 1 (3 : Fin 6) := ⟨_, List.mem_cons_self, rfl, .inl rfl⟩
  have h4 : OnTag wide 2 (4 : Fin 6) := ⟨_, List.mem_cons_of_mem _ List.mem_cons_self, rfl, .inl rfl⟩
  have h5 : OnTag wide 2 (5 : Fin 6) := ⟨_, List.mem_cons_of_mem _ List.mem_cons_self, rfl, .inr rfl⟩
  have left : ∀ v : Fin wide.nv, Adjacent wide v (0 : Fin 6) → ∃ p ∈ squareMats.pecs, ∃ w, OnTag wide p.tag w ∧ Relation.ReflTransGen (Adjacent wide) v w :=
    fun v hv => ⟨_, List.mem_cons_self, (0 : Fin 6), h0, .single hv⟩
  intro v
  have : ∀ v : Fin 6, v = 0 ∨ v = 1 ∨ v = 2 ∨ v = 3 ∨ v = 4 ∨ v = 5 := by decide
  rcases this v with rfl | rfl | rfl | rfl | rfl | rfl
  · exact ⟨_, List.mem_cons_self, _, h0, .refl⟩
  · exact left _ ⟨wide1, m1, .inr (.inl rfl), .inl rfl⟩
  · exact left _ ⟨wide2, m2, .inr (.inl rfl), .inl rfl⟩
  · exact ⟨_, List.mem_cons_self, _, h3, .refl⟩
  · exact ⟨_, List.mem_cons_of_mem _ List.mem_cons_self, _, h4, .refl⟩
  · exact ⟨_, List.mem_cons_of_mem _ List.mem_cons_self, _, h5, .refl⟩

theorem wide_apart : ConductorsApart wide squareMats := by
  have h1 : ∀ v, OnTag wide 1 v → v = (3 : Fin 6) ∨ v = (0 : Fin 6) := by
    rintro v ⟨s, hs, ha, hv⟩
    rcases wide_segs hs with rfl | rfl | h
    · exact hv
    · exact absurd ha (by norm_num)
    · exact absurd (ha.symm.trans h) (by norm_num)
  have h2 : ∀ v, OnTag wide 2 v → v = (4 : Fin 6) ∨ v = (5 : Fin 6) := by
    rintro v ⟨s, hs, ha, hv⟩
    rcases wide_segs hs with rfl | rfl | h
    · exact absurd ha (by norm_num)
    · exact hv
    · exact absurd (ha.symm.trans h) (by norm_num)
  have h3 : ∀ v : Fin 6, ¬ ((v = 3 ∨ v = 0) ∧ (v = 4 ∨ v = 5)) := by decide
  intro p hp q hq hne v k1 k2
  simp only [squareMats, List.mem_cons, List.not_mem_nil, or_false] at hp hq
  rcases hp with rfl | rfl <;> rcases hq with rfl | rfl
  · exact hne rfl
  · exact h3 v ⟨h1 v k1, h2 v k2⟩
  · exact h3 v ⟨h1 v k2, h2 v k1⟩
  · exact hne rfl

theorem wide_nested : Nested square wide := by
  intro q hq
  rcases wide_tris hq with rfl | rfl | rfl | rfl
  · exact .inl ⟨lower, List.mem_cons_self, fun x hx => (square_triangles x).1.mpr ((wide_triangles x).1.mp hx)⟩
  · exact .inl ⟨upper, List.mem_cons_of_mem _ List.mem_cons_self, fun x hx => (square_triangles x).2.mpr ((wide_triangles x).2.1.mp hx)⟩
  · refine .inr (Set.disjoint_left.mpr fun x hx hx' => ?_)
    rw [square_covered] at hx'
    linarith [(wide_interior.2.2.1 hx).2, hx'.1.2]
  · refine .inr (Set.disjoint_left.mpr fun x hx hx' => ?_)
    rw [square_covered] at hx'
    linarith [(wide_interior.2.2.2 hx).2, hx'.1.2]

/-- The plate is moved away, and the mesh is kept where it was: elements of order 1, then of order 2. -/
example (V : Int → ℝ) : ∃ (S : Shapes square) (Q : Rule ℝ) (s : Solver (square.femWith S Q)) (S' : Shapes wide) (Q' : Rule ℝ) (s' : Solver (wide.femWith S' Q')) (W W' : ℝ),
    ClosedRun square realNothing inverseReal squareMats false S Q 1 s ∧ ClosedRun wide realNothing inverseReal squareMats false S' Q' 2 s' ∧
      Reports inverseReal squareMats s V W ∧ Reports inverseReal squareMats s' V W' ∧ W' ≤ W := by
  obtain ⟨S, Q, s, h⟩ := closedRun_exists square_numbering square_proper square_embedded square_sensible square_joined square_apart realNothing inverseReal false (le_refl 1)
  obtain ⟨S', Q', s', h'⟩ := closedRun_exists square_numbering wide_proper wide_embedded wide_sensible wide_joined wide_apart realNothing inverseReal false one_le_two
  obtain ⟨W, W', e1, e2, e3⟩ := C105_nested square_numbering rfl inverseReal_exact inverseReal_exact h h' ⟨_, List.mem_cons_of_mem _ List.mem_cons_self, rfl⟩ wide_shrunk
    wide_nested one_le_two V
  exact ⟨S, Q, s, S', Q', s', W, W', h, h', e1, e2, e3⟩

end Tulip.Props
