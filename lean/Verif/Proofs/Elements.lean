import Verif.Spec.Elements
import Verif.Proofs.Triangles

/-!
# Elements of any order on triangles: the discrete problem is elliptic
-/

set_option linter.unusedSectionVars false

namespace Tulip
open Matrix Spec MvPolynomial

section
variable {𝕜 : Type} [Field 𝕜] {T : Triangulation 𝕜}

theorem totalDegree_pderiv_le (P : MvPolynomial (Fin 2) 𝕜) (i : Fin 2) : (pderiv i P).totalDegree ≤ P.totalDegree := by
  refine Finset.sup_le fun m hm => ?_
  have h : coeff m (pderiv i P) ≠ 0 := mem_support_iff.mp hm
  rw [coeff_pderiv] at h
  have h2 : coeff (m + Finsupp.single i 1) P ≠ 0 := fun e => h (by rw [e, zero_mul])
  have h3 := le_totalDegree (mem_support_iff.mpr h2)
  refine le_trans ?_ h3
  rw [Finsupp.sum_add_index' (by simp) (by simp)]
  exact Nat.le_add_right _ _

theorem totalDegree_lin (P Q : MvPolynomial (Fin 2) 𝕜) (a b : 𝕜) {p : Nat} (hP : P.totalDegree ≤ p) (hQ : Q.totalDegree ≤ p) :
    (P * C a + Q * C b).totalDegree ≤ p := by
  refine (totalDegree_add _ _).trans (max_le ?_ ?_)
  · refine (totalDegree_mul _ _).trans ?_
    rw [totalDegree_C]
    exact hP
  · refine (totalDegree_mul _ _).trans ?_
    rw [totalDegree_C]
    exact hQ

theorem totalDegree_gradient (t : Tri T.nv) (P : MvPolynomial (Fin 2) 𝕜) :
    (T.gradient t P).1.totalDegree ≤ P.totalDegree ∧ (T.gradient t P).2.totalDegree ≤ P.totalDegree :=
  ⟨totalDegree_lin _ _ _ _ (totalDegree_pderiv_le P 0) (totalDegree_pderiv_le P 1),
   totalDegree_lin _ _ _ _ (totalDegree_pderiv_le P 0) (totalDegree_pderiv_le P 1)⟩

theorem totalDegree_comb {n p : Nat} (u : Fin n → 𝕜) (B : Fin n → MvPolynomial (Fin 2) 𝕜) (h : ∀ i, (B i).totalDegree ≤ p) :
    (∑ i, C (u i) * B i).totalDegree ≤ p := by
  refine (totalDegree_finset_sum _ _).trans (Finset.sup_le fun i _ => ?_)
  refine (totalDegree_mul _ _).trans ?_
  rw [totalDegree_C, zero_add]
  exact h i

/-- Only constants have no derivatives. -/
theorem eq_C_of_pderiv [CharZero 𝕜] {P : MvPolynomial (Fin 2) 𝕜} (h : ∀ i, pderiv i P = 0) : P = C (coeff 0 P) := by
  ext m
  rw [coeff_C]
  split
  · next e => rw [e]
  · next e =>
    obtain ⟨i, hi⟩ : ∃ i, m i ≠ 0 := by
      by_contra hne
      push Not at hne
      exact e (Finsupp.ext fun i => (hne i).symm)
    have h2 := congrArg (coeff (m - Finsupp.single i 1)) (h i)
    rw [coeff_pderiv, coeff_zero] at h2
    have e2 : m - Finsupp.single i 1 + Finsupp.single i 1 = m := by
      refine tsub_add_cancel_of_le (Finsupp.single_le_iff.mpr ?_)
      omega
    rw [e2] at h2
    exact (mul_eq_zero.mp h2).resolve_right (Nat.cast_add_one_ne_zero _)

theorem gradient_comb (t : Tri T.nv) {n : Nat} (u : Fin n → 𝕜) (B : Fin n → MvPolynomial (Fin 2) 𝕜) :
    T.gradient t (∑ i, C (u i) * B i) =
      (∑ i, C (u i) * (T.gradient t (B i)).1, ∑ i, C (u i) * (T.gradient t (B i)).2) := by
  have h : ∀ j : Fin 2, pderiv j (∑ i, C (u i) * B i) = ∑ i, C (u i) * pderiv j (B i) := by
    intro j
    rw [map_sum]
    exact Finset.sum_congr rfl fun i _ => pderiv_C_mul
  unfold Triangulation.gradient
  rw [h, h]
  refine Prod.ext ?_ ?_ <;>
  · simp only [Finset.sum_mul, ← Finset.sum_add_distrib]
    exact Finset.sum_congr rfl fun i _ => by ring

/-- No gradient: constant. -/
theorem eq_C_of_gradient [CharZero 𝕜] {t : Tri T.nv} (hd : T.det t ≠ 0) {P : MvPolynomial (Fin 2) 𝕜}
    (h : T.gradient t P = (0, 0)) : P = C (coeff 0 P) := by
  obtain ⟨_, gb, gc⟩ := gradHat_verts hd
  have h1 := congrArg Prod.fst h
  have h2 := congrArg Prod.snd h
  simp only [Triangulation.gradient, gb, gc] at h1 h2
  have hD : (C ((((T.coord t.c).2 - (T.coord t.a).2) / T.det t) * (((T.coord t.b).1 - (T.coord t.a).1) / T.det t) -
      (((T.coord t.a).2 - (T.coord t.b).2) / T.det t) * (((T.coord t.a).1 - (T.coord t.c).1) / T.det t)) :
      MvPolynomial (Fin 2) 𝕜) ≠ 0 := by
    rw [Ne, C_eq_zero]
    have e : (((T.coord t.c).2 - (T.coord t.a).2) / T.det t) * (((T.coord t.b).1 - (T.coord t.a).1) / T.det t) -
      (((T.coord t.a).2 - (T.coord t.b).2) / T.det t) * (((T.coord t.a).1 - (T.coord t.c).1) / T.det t) = T.det t / T.det t / T.det t := by
      unfold Triangulation.det
      ring
    rw [e, div_self hd]
    exact one_div_ne_zero hd
  refine eq_C_of_pderiv (Fin.forall_fin_two.mpr ⟨?_, ?_⟩)
  · refine (mul_eq_zero.mp ?_).resolve_right hD
    simp only [C_sub, C_mul]
    linear_combination C (((T.coord t.b).1 - (T.coord t.a).1) / T.det t) * h1 - C (((T.coord t.a).2 - (T.coord t.b).2) / T.det t) * h2
  · refine (mul_eq_zero.mp ?_).resolve_right hD
    simp only [C_sub, C_mul]
    linear_combination C (((T.coord t.c).2 - (T.coord t.a).2) / T.det t) * h2 - C (((T.coord t.a).1 - (T.coord t.c).1) / T.det t) * h1

variable {S : Shapes T} {Q : Rule 𝕜} {p : Nat}

theorem mem_domWith {q : DomPt 𝕜 S.n S.ne S.nd} :
    q ∈ (T.femWith S Q).dom ↔ ∃ t ∈ T.tris, ∃ r ∈ Q.tri, q = T.domPoint S t r := by
  show q ∈ T.tris.flatMap _ ↔ _
  simp [List.mem_flatMap, eq_comm]

theorem behind_some {s : Seg 𝕜 T.nv} {t : Tri T.nv} (h : T.behind s = some t) : t ∈ T.tris ∧ (s.a, s.b) ∈ t.sides := by
  unfold Triangulation.behind at h
  exact ⟨List.mem_of_find?_eq_some h, by simpa using List.find?_some h⟩

theorem behind_exists {s : Seg 𝕜 T.nv} (h : IsSide T s.a s.b) : ∃ t, T.behind s = some t := by
  obtain ⟨t, ht, hs⟩ := h
  cases e : T.behind s with
  | some t => exact ⟨t, rfl⟩
  | none =>
    unfold Triangulation.behind at e
    rw [List.find?_eq_none] at e
    exact absurd hs (by simpa using e t ht)

theorem mem_bdrWith {q : BdrPt 𝕜 S.n S.nd} (h : q ∈ (T.femWith S Q).bdr) :
    ∃ s ∈ T.segs, ∃ t ∈ T.tris, (s.a, s.b) ∈ t.sides ∧ T.behind s = some t ∧ ∃ r ∈ Q.seg, q = T.bdrPoint S s t r := by
  change q ∈ T.segs.flatMap _ at h
  obtain ⟨s, hs, h⟩ := List.mem_flatMap.mp h
  obtain ⟨t, ht, h⟩ := List.mem_flatMap.mp h
  have ht : T.behind s = some t := by simpa using ht
  obtain ⟨h1, h2⟩ := behind_some ht
  obtain ⟨r, hr, rfl⟩ := List.mem_map.mp h
  exact ⟨s, hs, t, h1, h2, ht, r, hr, rfl⟩

theorem eval_comb {n : Nat} (x : Fin 2 → 𝕜) (u : Fin n → 𝕜) (B : Fin n → MvPolynomial (Fin 2) 𝕜) :
    eval x (∑ i, C (u i) * B i) = ∑ i, u i * eval x (B i) := by
  rw [map_sum]
  exact Finset.sum_congr rfl fun i _ => by rw [map_mul, eval_C]

theorem vectorAt_gradN (t : Tri T.nv) (r : 𝕜 × 𝕜 × 𝕜) (u : Fin S.n → 𝕜) :
    vectorAt (T.domPoint S t r).gradN u =
      (eval ![r.2.1, r.2.2] (T.gradient t (∑ i, C (u i) * S.N t i)).1,
       eval ![r.2.1, r.2.2] (T.gradient t (∑ i, C (u i) * S.N t i)).2) := by
  rw [gradient_comb]
  dsimp only
  rw [eval_comb, eval_comb]
  rfl

theorem onBoundaryWith_iff {tag : Int} {i : Fin S.n} :
    OnBoundary (T.femWith S Q) tag i ↔ ∃ s ∈ T.segs, s.attr = tag ∧ i ∈ S.onSeg s := by
  unfold OnBoundary
  constructor
  · rintro ⟨b, hb, rfl, hv⟩
    obtain ⟨s, hs, rfl⟩ := List.mem_map.mp hb
    exact ⟨s, hs, rfl, hv⟩
  · rintro ⟨s, hs, rfl, hv⟩
    exact ⟨_, List.mem_map_of_mem hs, rfl, hv⟩

theorem sideValue_comb (t : Tri T.nv) (v w : Fin T.nv) (x y : 𝕜) (u : Fin S.n → 𝕜) :
    eval (Triangulation.onSide t v w x y) (∑ i, C (u i) * S.N t i) = ∑ i, u i * sideValue S t v w x y i :=
  eval_comb _ _ _

theorem Spec.Elements.sum_side (h : Elements S p) {t : Tri T.nv} (ht : t ∈ T.tris) (v w : Fin T.nv) (x y : 𝕜) :
    ∑ i, sideValue S t v w x y i = 1 := by
  have := congrArg (eval (Triangulation.onSide t v w x y)) (h.unity t ht)
  rwa [map_sum, map_one] at this

/-- Values at the two ends of a segment. -/
theorem eval_linearOn_side {t : Tri T.nv} (hd : T.det t ≠ 0) {v w : Fin T.nv} (hv : IsVertex t v) (hw : IsVertex t w)
    (f : Fin T.nv → 𝕜) {x y : 𝕜} (hxy : x + y = 1) :
    eval (Triangulation.onSide t v w x y) (linearOn t f) = x * f v + y * f w := by
  obtain ⟨h1, h2, h3⟩ := det_ne hd
  have hx : x = 1 - y := eq_sub_of_add_eq hxy
  unfold linearOn Triangulation.onSide
  simp only [map_add, map_mul, map_sub, map_one, eval_C, eval_X, Matrix.cons_val_zero, Matrix.cons_val_one]
  rcases hv with rfl | rfl | rfl <;> rcases hw with rfl | rfl | rfl <;>
    simp only [h1, h2, h3, h1.symm, h2.symm, h3.symm, if_true, if_false] <;> rw [hx] <;> ring

/-- No nodal function of a boundary segment is constant in the triangle behind. -/
theorem Spec.Elements.not_constant (h : Elements S p) {s : Seg 𝕜 T.nv} (hs : s ∈ T.segs) {t : Tri T.nv} (ht : t ∈ T.tris)
    (hd : T.det t ≠ 0) (hst : (s.a, s.b) ∈ t.sides) {k : Fin S.n} (hk : k ∈ S.onSeg s) (c : 𝕜) : S.N t k ≠ C c := by
  intro e
  obtain ⟨va, vb⟩ := side_vertices hst
  have hne := side_ne hd hst
  have hside : ∀ x y : 𝕜, sideValue S t s.a s.b x y k = c := fun x y => by unfold sideValue; rw [e, eval_C]
  have hc : ∀ i ∈ S.onSeg s, c - (if i = k then 1 else 0) = 0 := by
    refine h.basisSeg s hs t ht hst (fun i => c - if i = k then 1 else 0) fun x y hxy => ?_
    simp only [sub_mul, Finset.sum_sub_distrib, ← Finset.mul_sum, h.sum_side ht, ite_mul, one_mul, zero_mul,
      Finset.sum_ite_eq', Finset.mem_univ, if_true, hside, mul_one, sub_self]
  have hc1 : c = 1 := by
    have := hc k hk
    rw [if_pos rfl] at this
    exact sub_eq_zero.mp this
  have only : ∀ i ∈ S.onSeg s, i = k := by
    intro i hi
    by_contra hik
    have := hc i hi
    rw [if_neg hik, sub_zero, hc1] at this
    exact one_ne_zero this
  obtain ⟨u, hu⟩ := h.linear (fun v => if v = s.a then 1 else 0)
  have key : ∀ x y : 𝕜, x + y = 1 → u k = x := by
    intro x y hxy
    have e1 := congrArg (eval (Triangulation.onSide t s.a s.b x y)) (hu t ht)
    rw [sideValue_comb, eval_linearOn_side hd va vb _ hxy, if_pos rfl, if_neg hne.symm, mul_one, mul_zero, add_zero,
      Finset.sum_eq_single k, hside, hc1, mul_one] at e1
    · exact e1
    · intro i _ hik
      rw [h.offSeg s hs t ht hst i (fun hi => hik (only i hi)) x y hxy, mul_zero]
    · intro hk'
      exact absurd (Finset.mem_univ _) hk'
  have a1 := key 1 0 (add_zero 1)
  have a2 := key 0 1 (zero_add 1)
  exact one_ne_zero (a1.symm.trans a2)

end

section
variable {𝕜 : Type} [Field 𝕜] [LinearOrder 𝕜] [IsStrictOrderedRing 𝕜] {T : Triangulation 𝕜} {mats : Materials 𝕜}
  {A : Analytic 𝕜} {S : Shapes T} {Q : Rule 𝕜} {p : Nat}

theorem elements_separate (h : Elements S p) (ha : ConductorsApart T mats) : Separate (T.femWith S Q) mats := by
  intro p hp q hq k h1 h2
  obtain ⟨s, hs, e1, hk1⟩ := onBoundaryWith_iff.mp h1
  obtain ⟨s', hs', e2, hk2⟩ := onBoundaryWith_iff.mp h2
  by_contra hne
  obtain ⟨v, v1, v2⟩ := h.meet s hs s' hs' k hk1 hk2
  exact ha p hp q hq hne v ⟨s, hs, e1, v1⟩ ⟨s', hs', e2, v2⟩

theorem elements_buildable (hT : Proper T) (hm : Sensible T mats) : Buildable (T.femWith S Q) mats where
  bdr := by
    constructor
    · intro b hb
      obtain ⟨s, hs, rfl⟩ := List.mem_map.mp hb
      exact List.mem_dedup.mpr (List.mem_map_of_mem hs)
    · intro a ha
      obtain ⟨s, hs, rfl⟩ := List.mem_map.mp (List.mem_dedup.mp ha)
      exact hT.segAttrs s hs
  bdrAttrs := by
    obtain ⟨s, hs⟩ := List.exists_mem_of_ne_nil _ hT.boundary
    exact List.ne_nil_of_mem (List.mem_dedup.mpr (List.mem_map_of_mem hs))
  points := by
    intro q hq
    obtain ⟨s, hs, _, _, _, _, _, _, rfl⟩ := mem_bdrWith hq
    exact hT.segAttrs s hs
  pecs := hm.pecs
  opens := hm.opens
  names := hm.names
  dielectrics := by
    intro d hd
    obtain ⟨h1, t, ht, h2⟩ := hm.dielectrics d hd
    exact ⟨h1, t.attr, List.mem_dedup.mpr (List.mem_map_of_mem ht), h2⟩

/-- A polynomial whose gradient vanishes at the points is constant. -/
theorem constant_of_points (hQ : Adequate Q p) {t : Tri T.nv} (hd : T.det t ≠ 0) {P : MvPolynomial (Fin 2) 𝕜}
    (hP : P.totalDegree ≤ p)
    (h0 : ∀ r ∈ Q.tri, eval ![r.2.1, r.2.2] (T.gradient t P).1 = 0 ∧ eval ![r.2.1, r.2.2] (T.gradient t P).2 = 0) :
    P = C (coeff 0 P) := by
  obtain ⟨d1, d2⟩ := totalDegree_gradient t P
  refine eq_C_of_gradient hd (Prod.ext ?_ ?_)
  · exact hQ.determines _ (d1.trans hP) fun r hr => (h0 r hr).1
  · exact hQ.determines _ (d2.trans hP) fun r hr => (h0 r hr).2

theorem elements_weights (hT : Proper T) (hQ : Adequate Q p) : ∀ q ∈ (T.femWith S Q).dom, 0 < q.w := by
  intro q hq
  obtain ⟨t, ht, r, hr, rfl⟩ := mem_domWith.mp hq
  exact mul_pos (div_pos (hT.area t ht) two_pos) (hQ.tri r hr)

theorem elements_fluxes (h : Elements S p) (hQ : Adequate Q p) (d : Fin S.nd → 𝕜)
    (hd : ∀ q ∈ (T.femWith S Q).dom, vectorAt q.R d = (0, 0)) : ∀ k, d k = 0 := by
  refine h.basisR d fun t ht => ⟨?_, ?_⟩
  · refine hQ.determines _ (totalDegree_comb _ _ fun k => (h.degreeR t ht k).1) fun r hr => ?_
    rw [eval_comb]
    exact congrArg Prod.fst (hd _ (mem_domWith.mpr ⟨t, ht, r, hr, rfl⟩))
  · refine hQ.determines _ (totalDegree_comb _ _ fun k => (h.degreeR t ht k).2) fun r hr => ?_
    rw [eval_comb]
    exact congrArg Prod.snd (hd _ (mem_domWith.mpr ⟨t, ht, r, hr, rfl⟩))

theorem elements_constant (h : Elements S p) (hT : Proper T) (hQ : Adequate Q p) {u : Fin S.n → 𝕜}
    (hg : ∀ q ∈ (T.femWith S Q).dom, vectorAt q.gradN u = (0, 0)) {t : Tri T.nv} (ht : t ∈ T.tris) :
    ∃ c, ∑ i, C (u i) * S.N t i = C c := by
  refine ⟨_, constant_of_points hQ (hT.det_ne t ht) (totalDegree_comb _ _ fun i => h.degreeN t ht i) fun r hr => ?_⟩
  have := (vectorAt_gradN t r u).symm.trans (hg _ (mem_domWith.mpr ⟨t, ht, r, hr, rfl⟩))
  exact ⟨congrArg Prod.fst this, congrArg Prod.snd this⟩

/-- Constants in triangles with a common vertex are the same. -/
theorem Spec.Elements.constant_common (h : Elements S p) {u : Fin S.n → 𝕜} {t t' : Tri T.nv} (ht : t ∈ T.tris)
    (ht' : t' ∈ T.tris) {v : Fin T.nv} (hv : IsVertex t v) (hv' : IsVertex t' v) {c c' : 𝕜}
    (e : ∑ i, C (u i) * S.N t i = C c) (e' : ∑ i, C (u i) * S.N t' i = C c') : c = c' := by
  have a := congrArg (eval (Triangulation.onSide t v v 1 0)) e
  have a' := congrArg (eval (Triangulation.onSide t' v v 1 0)) e'
  rw [sideValue_comb, eval_C] at a a'
  rw [← a, ← a']
  exact Finset.sum_congr rfl fun i _ => by rw [h.continuous t ht t' ht' v v hv hv hv' hv' 1 0 (add_zero 1) i]

/-- A potential without gradient that vanishes on the conductors vanishes. -/
theorem elements_potentials (h : Elements S p) (hT : Proper T) (hQ : Adequate Q p) (hj : JoinedToConductors T mats)
    (u : Fin S.n → 𝕜) (h0 : ∀ k : Fin S.n, (∃ p ∈ mats.pecs, OnBoundary (T.femWith S Q) p.tag k) → u k = 0)
    (hg : ∀ q ∈ (T.femWith S Q).dom, vectorAt q.gradN u = (0, 0)) : ∀ k, u k = 0 := by
  refine h.basisN u fun t ht => ?_
  obtain ⟨c, hc⟩ := elements_constant h hT hQ hg ht
  obtain ⟨p, hp, w, ⟨s, hs, hsp, hw⟩, hvw⟩ := hj t.a
  have step : ∀ w, Relation.ReflTransGen (Adjacent T) t.a w → ∀ t' ∈ T.tris, IsVertex t' w →
      ∑ i, C (u i) * S.N t' i = C c := by
    intro w hw
    induction hw with
    | refl =>
      intro t' ht' hv
      obtain ⟨c', hc'⟩ := elements_constant h hT hQ hg ht'
      rw [hc', h.constant_common ht' ht hv (Or.inl rfl) hc' hc]
    | tail _ hab ih =>
      intro t' ht' hv
      obtain ⟨t2, ht2, va, vb⟩ := hab
      obtain ⟨c', hc'⟩ := elements_constant h hT hQ hg ht'
      rw [hc', h.constant_common ht' ht2 hv vb hc' (ih t2 ht2 va)]
  obtain ⟨t', ht', hst⟩ := hT.segs s hs
  obtain ⟨va, vb⟩ := side_vertices hst
  have hc' := step w hvw t' ht' (by rcases hw with rfl | rfl; exacts [va, vb])
  have a := congrArg (eval (Triangulation.onSide t' s.a s.b 1 0)) hc'
  rw [sideValue_comb, eval_C] at a
  have hz : c = 0 := by
    rw [← a]
    refine Finset.sum_eq_zero fun i _ => ?_
    by_cases hi : i ∈ S.onSeg s
    · rw [h0 i ⟨p, hp, onBoundaryWith_iff.mpr ⟨s, hs, hsp, hi⟩⟩, zero_mul]
    · rw [h.offSeg s hs t' ht' hst i hi 1 0 (add_zero 1), mul_zero]
  rw [hc, hz, C_0]

theorem elements_elliptic (h : Elements S p) (hT : Proper T) (hQ : Adequate Q p) (hm : Sensible T mats)
    (hj : JoinedToConductors T mats) (ho : OpenAbsorb A T mats) : Elliptic A (T.femWith S Q) mats where
  weights := elements_weights hT hQ
  permittivities := hm.permittivities
  opens := by
    intro q hq hopen
    obtain ⟨s, hs, t, _, _, _, r, hr, rfl⟩ := mem_bdrWith hq
    obtain ⟨hl, ha⟩ := ho s hs hopen
    obtain ⟨r1, r2, r3⟩ := hQ.seg r hr
    exact mul_nonneg (mul_nonneg hl r1) (ha _ _ (sub_nonneg.mpr r3) r2 (sub_add_cancel _ _))
  nodes := by
    rintro k ⟨c, hc, hk⟩
    obtain ⟨s, hs, _, hk⟩ := onBoundaryWith_iff.mp hk
    obtain ⟨t, ht, hst⟩ := hT.segs s hs
    have hd := hT.det_ne t ht
    by_contra hne
    push Not at hne
    refine h.not_constant hs ht hd hst hk _ (constant_of_points hQ hd (h.degreeN t ht k) fun r hr => ?_)
    have := hne _ (mem_domWith.mpr ⟨t, ht, r, hr, rfl⟩)
    exact ⟨congrArg Prod.fst this, congrArg Prod.snd this⟩
  potentials := elements_potentials h hT hQ hj
  fluxes := elements_fluxes h hQ

theorem elements_constants (h : Elements S p) (hgrad : ∀ k, ∑ i, S.grad k i = 0) : RepresentsConstants (T.femWith S Q) where
  dom := by
    intro q hq
    obtain ⟨t, ht, r, hr, rfl⟩ := mem_domWith.mp hq
    have := congrArg (eval ![r.2.1, r.2.2]) (h.unity t ht)
    rwa [map_sum, map_one] at this
  bdr := by
    intro q hq
    obtain ⟨s, hs, t, ht, _, _, r, hr, rfl⟩ := mem_bdrWith hq
    exact h.sum_side ht _ _ _ _
  gradN := by
    intro q hq
    obtain ⟨t, ht, r, hr, rfl⟩ := mem_domWith.mp hq
    have e := vectorAt_gradN (S := S) t r (fun _ => 1)
    simp only [C_1, one_mul, h.unity t ht] at e
    have z : T.gradient t (1 : MvPolynomial (Fin 2) 𝕜) = (0, 0) := by
      unfold Triangulation.gradient
      simp
    rw [z] at e
    simp only [vectorAt, one_mul, map_zero] at e
    exact ⟨congrArg Prod.fst e, congrArg Prod.snd e⟩
  grad := by
    funext k
    show ∑ i, S.grad k i * 1 = 0
    simpa using hgrad k

/-- The discrete gradient of a constant vanishes. -/
theorem Spec.Elements.grad_one (h : Elements S p) (k : Fin S.ne) : ∑ i, S.grad k i = 0 := by
  revert k
  refine h.basisW _ fun t ht => ?_
  have e : (∑ k, C (∑ i, S.grad k i) * (S.W t k).1, ∑ k, C (∑ i, S.grad k i) * (S.W t k).2) = ((0, 0) : MvPolynomial (Fin 2) 𝕜 × MvPolynomial (Fin 2) 𝕜) := by
    have z : T.gradient t (∑ i, C (1 : 𝕜) * S.N t i) = (0, 0) := by
      simp only [C_1, one_mul, h.unity t ht]
      unfold Triangulation.gradient
      simp
    rw [gradient_comb] at z
    rw [← z]
    refine Prod.ext ?_ ?_ <;>
    · simp only [map_sum, Finset.sum_mul, C_1, one_mul]
      rw [Finset.sum_comm]
      refine Finset.sum_congr rfl fun i _ => ?_
      rw [← h.gradient t ht i]
  exact ⟨congrArg Prod.fst e, congrArg Prod.snd e⟩

theorem elements_gradient (h : Elements S p) {q : DomPt 𝕜 S.n S.ne S.nd} (hq : q ∈ (T.femWith S Q).dom) (u : Fin S.n → 𝕜) :
    vectorAt q.W (fun k => ∑ i, S.grad k i * u i) = vectorAt q.gradN u := by
  obtain ⟨t, ht, r, hr, rfl⟩ := mem_domWith.mp hq
  rw [vectorAt_gradN, gradient_comb]
  dsimp only
  simp only [← h.gradient t ht]
  refine Prod.ext ?_ ?_ <;>
  · simp only [vectorAt, Triangulation.domPoint, Finset.sum_mul, Finset.mul_sum, map_sum, map_mul, eval_C]
    rw [Finset.sum_comm]
    exact Finset.sum_congr rfl fun i _ => Finset.sum_congr rfl fun k _ => by ring

end
end Tulip
