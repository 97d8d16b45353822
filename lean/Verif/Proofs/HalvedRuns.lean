import Verif.Proofs.HalvedFacts
import Mathlib.Analysis.SpecificLimits.Basic

/-!
# Meshes as fine as one wants
-/

namespace Tulip
open Set Spec Props

variable {T : Triangulation ℝ}

theorem seg_vertices (hT : Proper T) {s : Seg ℝ T.nv} (hs : s ∈ T.segs) : ∃ t ∈ T.tris, IsVertex t s.a ∧ IsVertex t s.b := by
  obtain ⟨t, ht, hm⟩ := hT.segs s hs
  unfold Tri.sides at hm
  simp only [List.mem_cons, Prod.mk.injEq, List.not_mem_nil, or_false] at hm
  refine ⟨t, ht, ?_⟩
  rcases hm with ⟨e1, e2⟩ | ⟨e1, e2⟩ | ⟨e1, e2⟩ <;> rw [e1, e2] <;> simp [IsVertex]

theorem quarter_sides {t : Tri T.nv} (ht : t ∈ T.tris) {q : Tri (halved T).nv} (hq : q ∈ quarters T t) {k l : Fin (halved T).nv}
    (hk : IsVertex q k) (hl : IsVertex q l) : ∃ v w, IsVertex t v ∧ IsVertex t w ∧
      (halved T).coord k - (halved T).coord l = (2⁻¹ : ℝ) • (T.coord v - T.coord w) := by
  have va : IsVertex t t.a := .inl rfl
  have vb : IsVertex t t.b := .inr (.inl rfl)
  have vc : IsVertex t t.c := .inr (.inr rfl)
  obtain ⟨e1, e2, e3, e4, e5, e6⟩ := mid_points ht
  rcases mem_quarters_iff.mp hq with rfl | rfl | rfl | rfl <;> rcases hk with rfl | rfl | rfl <;> rcases hl with rfl | rfl | rfl <;>
    simp only [qa, qb, qc, qd, e1, e2, e3, e4, e5, e6, middle] <;>
    first
    | exact ⟨_, _, va, va, by module⟩
    | exact ⟨_, _, va, vb, by module⟩
    | exact ⟨_, _, va, vc, by module⟩
    | exact ⟨_, _, vb, va, by module⟩
    | exact ⟨_, _, vb, vc, by module⟩
    | exact ⟨_, _, vc, va, by module⟩
    | exact ⟨_, _, vc, vb, by module⟩

theorem halved_fine {κ δ : ℝ} (h : Fine T κ δ) : Fine (halved T) κ (δ / 2) := by
  intro q hq k l hk hl
  obtain ⟨t, ht, hqt⟩ := mem_quarters hq
  obtain ⟨v, w, hv, hw, e⟩ := quarter_sides ht hqt hk hl
  obtain ⟨h1, h2⟩ := h t ht v w hv hw
  have hd : dist ((halved T).coord k) ((halved T).coord l) = dist (T.coord v) (T.coord w) / 2 := by
    rw [dist_eq_norm, dist_eq_norm, e, norm_smul]
    norm_num
    ring
  rw [hd, quarters_det ht hqt]
  constructor <;> linarith [h2, h1, show (dist (T.coord v) (T.coord w) / 2) ^ 2 = dist (T.coord v) (T.coord w) ^ 2 / 4 by ring]

theorem halved_onTag (hT : Proper T) {tag : Int} {v w : Fin T.nv} (he : s(v, w) ∈ halvedDofs T) (h : OnTag (halved T) tag (mid T v w)) :
    OnTag T tag v ∧ OnTag T tag w := by
  obtain ⟨s', hs', rfl, hv⟩ := h
  obtain ⟨s, hs, hm⟩ := List.mem_flatMap.mp hs'
  obtain ⟨t, ht, va, vb⟩ := seg_vertices hT hs
  have key : ∀ a b, s(a, b) ∈ halvedDofs T → mid T v w = mid T a b → (OnTag T s.attr a) → (OnTag T s.attr b) → OnTag T s.attr v ∧ OnTag T s.attr w := by
    intro a b hab e oa ob
    have := (mid_inj he hab).mp e
    rcases Sym2.eq_iff.mp this with ⟨rfl, rfl⟩ | ⟨rfl, rfl⟩
    · exact ⟨oa, ob⟩
    · exact ⟨ob, oa⟩
  have oa : OnTag T s.attr s.a := ⟨s, hs, rfl, .inl rfl⟩
  have ob : OnTag T s.attr s.b := ⟨s, hs, rfl, .inr rfl⟩
  rcases List.mem_cons.mp hm with rfl | hm
  · rcases hv with e | e
    · exact key _ _ (diag_mem _) e oa oa
    · exact key _ _ (side_mem ht va vb) e oa ob
  · obtain rfl := List.mem_singleton.mp hm
    rcases hv with e | e
    · exact key _ _ (side_mem ht va vb) e oa ob
    · exact key _ _ (diag_mem _) e ob ob

theorem halved_apart (hT : Proper T) {mats : Materials ℝ} (h : ConductorsApart T mats) : ConductorsApart (halved T) mats := by
  intro p hp q hq hne k h1 h2
  obtain ⟨v, w, he, rfl⟩ := mid_surj (T := T) k
  exact h p hp q hq hne v (halved_onTag hT he h1).1 (halved_onTag hT he h2).1

theorem mid_adjacent (hT : Proper T) {t : Tri T.nv} (ht : t ∈ T.tris) {v w : Fin T.nv} (hv : IsVertex t v) (hw : IsVertex t w) :
    Adjacent (halved T) (mid T v v) (mid T v w) := by
  have va : IsVertex t t.a := .inl rfl
  have vb : IsVertex t t.b := .inr (.inl rfl)
  have vc : IsVertex t t.c := .inr (.inr rfl)
  have s1 := mid_comm ht va vb
  have s2 := mid_comm ht vb vc
  have s3 := mid_comm ht vc va
  have hq : ∀ q, (q = qa T t ∨ q = qb T t ∨ q = qc T t ∨ q = qd T t) → q ∈ (halved T).tris := fun q h => quarters_mem ht (mem_quarters_iff.mpr h)
  have ha := hq (qa T t) (.inl rfl)
  have hb := hq (qb T t) (.inr (.inl rfl))
  have hc := hq (qc T t) (.inr (.inr (.inl rfl)))
  rcases hv with rfl | rfl | rfl
  · refine ⟨_, ha, .inl rfl, ?_⟩
    rcases hw with rfl | rfl | rfl
    · exact .inl rfl
    · exact .inr (.inl rfl)
    · exact .inr (.inr s3.symm)
  · refine ⟨_, hb, .inr (.inl rfl), ?_⟩
    rcases hw with rfl | rfl | rfl
    · exact .inl s1.symm
    · exact .inr (.inl rfl)
    · exact .inr (.inr rfl)
  · refine ⟨_, hc, .inr (.inr rfl), ?_⟩
    rcases hw with rfl | rfl | rfl
    · exact .inl rfl
    · exact .inr (.inl s2.symm)
    · exact .inr (.inr rfl)

theorem halved_adjacent_symm {v w : Fin T.nv} (h : Adjacent T v w) : Adjacent T w v := by
  obtain ⟨t, ht, h1, h2⟩ := h
  exact ⟨t, ht, h2, h1⟩

theorem halved_joined (hT : Proper T) {mats : Materials ℝ} (h : JoinedToConductors T mats) : JoinedToConductors (halved T) mats := by
  have hpath : ∀ {v w : Fin T.nv}, Relation.ReflTransGen (Adjacent T) v w → Relation.ReflTransGen (Adjacent (halved T)) (mid T v v) (mid T w w) := by
    intro v w hvw
    induction hvw with
    | refl => exact .refl
    | tail _ hadj ih =>
      obtain ⟨t, ht, h1, h2⟩ := hadj
      refine (ih.tail (mid_adjacent hT ht h1 h2)).tail ?_
      rw [mid_comm ht h1 h2]
      exact halved_adjacent_symm (mid_adjacent hT ht h2 h1)
  intro k
  obtain ⟨v, w, he, rfl⟩ := mid_surj (T := T) k
  obtain ⟨p, hp, u, ⟨s, hs, ha, hu⟩, hvu⟩ := h v
  refine ⟨p, hp, mid T u u, ?_, ?_⟩
  · rcases hu with rfl | rfl
    · exact ⟨_, List.mem_flatMap.mpr ⟨s, hs, List.mem_cons_self⟩, ha, .inl rfl⟩
    · exact ⟨_, List.mem_flatMap.mpr ⟨s, hs, List.mem_cons_of_mem _ List.mem_cons_self⟩, ha, .inr rfl⟩
  · by_cases hvw : v = w
    · subst hvw
      exact hpath hvu
    · have : ∃ t ∈ T.tris, ∀ u ∈ s(v, w), IsVertex t u := by
        unfold halvedDofs at he
        simp only [Finset.mem_filter, Finset.mem_univ, true_and] at he
        rcases he with he | he
        · exact absurd he hvw
        · exact he
      obtain ⟨t, ht, hm⟩ := this
      exact .head (halved_adjacent_symm (mid_adjacent hT ht (hm v (Sym2.mem_mk_left v w)) (hm w (Sym2.mem_mk_right v w)))) (hpath hvu)

theorem halved_sensible {mats : Materials ℝ} (h : Sensible T mats) : Sensible (halved T) mats :=
  ⟨h.pecs, h.opens, fun d hd => by
    obtain ⟨h1, t, ht, h2⟩ := h.dielectrics d hd
    exact ⟨h1, qa T t, quarters_mem ht (mem_quarters_iff.mpr (.inl rfl)), h2⟩, h.names, h.tags, h.openNames, h.permittivities⟩

/-- What is asked of the mesh of a closed run. -/
structure RunMesh (T : Triangulation ℝ) (mats : Materials ℝ) : Prop where
  proper : Proper T
  embedded : Embedded T
  sensible : Sensible T mats
  joined : JoinedToConductors T mats
  apart : ConductorsApart T mats

theorem RunMesh.halved {mats : Materials ℝ} (h : RunMesh T mats) : RunMesh (halved T) mats :=
  ⟨halved_proper h.proper, halved_embedded h.proper h.embedded, halved_sensible h.sensible, halved_joined h.proper h.joined,
    halved_apart h.proper h.apart⟩

/-- Meshes of the cross-section as fine as one wants. -/
theorem fine_meshes {mats : Materials ℝ} (h : RunMesh T mats) : ∃ flatness, ∀ size > 0, ∃ T', RunMesh T' mats ∧ SameCrossSection T T' ∧ Fine T' flatness size := by
  obtain ⟨κ, δ, hκ⟩ : ∃ κ δ, Fine T κ δ := by
    have h1 : ∃ δ : ℝ, ∀ t ∈ T.tris, ∀ v w : Fin T.nv, dist (T.coord v) (T.coord w) ≤ δ := by
      obtain ⟨δ, hδ⟩ := (Set.toFinite (Set.range fun p : Fin T.nv × Fin T.nv => dist (T.coord p.1) (T.coord p.2))).bddAbove
      exact ⟨δ, fun t _ v w => hδ ⟨(v, w), rfl⟩⟩
    obtain ⟨δ, hδ⟩ := h1
    obtain ⟨κ, hκ⟩ := ((T.tris.finite_toSet).image fun t => δ ^ 2 / T.det t).bddAbove
    refine ⟨κ, δ, fun t ht v w _ _ => ⟨hδ t ht v w, ?_⟩⟩
    have hd := h.proper.area t ht
    have h2 : δ ^ 2 / T.det t ≤ κ := hκ ⟨t, ht, rfl⟩
    rw [div_le_iff₀ hd] at h2
    refine le_trans ?_ h2
    exact pow_le_pow_left₀ dist_nonneg (hδ t ht v w) 2
  refine ⟨κ, fun size hs => ?_⟩
  have hiter : ∀ n : ℕ, ∃ T', RunMesh T' mats ∧ SameCrossSection T T' ∧ Fine T' κ (δ / 2 ^ n) := by
    intro n
    induction n with
    | zero => exact ⟨T, h, sameCrossSection_refl h.embedded.apart, by simpa using hκ⟩
    | succ n ih =>
      obtain ⟨T', h1, h2, h3⟩ := ih
      refine ⟨Tulip.halved T', h1.halved, sameCrossSection_trans h2 (halved_same h1.proper h1.embedded), ?_⟩
      have := halved_fine h3
      rwa [div_div, ← pow_succ] at this
  obtain ⟨n, hn⟩ : ∃ n : ℕ, δ / 2 ^ n < size := by
    obtain ⟨n, hn⟩ := exists_pow_lt_of_lt_one (show 0 < size / (|δ| + 1) by positivity) (show (1 / 2 : ℝ) < 1 by norm_num)
    refine ⟨n, ?_⟩
    rw [lt_div_iff₀ (by positivity)] at hn
    calc δ / 2 ^ n = (1 / 2) ^ n * δ := by rw [one_div, inv_pow]; ring
      _ ≤ (1 / 2) ^ n * (|δ| + 1) := by
        refine mul_le_mul_of_nonneg_left ?_ (by positivity)
        linarith [le_abs_self δ]
      _ < size := hn
  obtain ⟨T', h1, h2, h3⟩ := hiter n
  exact ⟨T', h1, h2, fun t ht v w hv hw => ⟨(h3 t ht v w hv hw).1.trans hn.le, (h3 t ht v w hv hw).2⟩⟩

end Tulip
