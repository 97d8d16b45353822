import Verif.Proofs.Plates

/-!
# The field between parallel plates
-/

set_option linter.unusedSectionVars false

namespace Tulip
open Matrix Spec

section
variable {𝕜 : Type} [Field 𝕜] [LinearOrder 𝕜] [IsStrictOrderedRing 𝕜] {T : Triangulation 𝕜} {mats : Materials 𝕜}
  {A : Analytic 𝕜} {tag0 tag1 : Int} {x0 x1 : 𝕜}

theorem ParallelPlates_ne (hp : ParallelPlates T tag0 tag1 x0 x1) : tag0 ≠ tag1 := by
  rintro rfl
  obtain ⟨s, hs, e⟩ := hp.exists_
  exact lt_asymm (hp.left s hs e).2.2 (hp.right s hs e).2.2

theorem ParallelPlates_len (hp : ParallelPlates T tag0 tag1 x0 x1) (hm : Measured T) {s : Seg 𝕜 T.nv} (hs : s ∈ T.segs) :
    (T.coord s.b).2 - (T.coord s.a).2 = if s.attr = tag0 then -s.len else if s.attr = tag1 then s.len else 0 := by
  obtain ⟨h1, h2⟩ := hm s hs
  split
  · next e =>
    obtain ⟨a, b, c⟩ := hp.left s hs e
    rw [a, b, sub_self, zero_pow (by norm_num), zero_add] at h2
    have h3 : s.len ^ 2 = ((T.coord s.a).2 - (T.coord s.b).2) ^ 2 := by rw [h2]; ring
    rw [(sq_eq_sq₀ h1.le (sub_pos.mpr c).le).mp h3]
    ring
  · next e0 =>
    split
    · next e =>
      obtain ⟨a, b, c⟩ := hp.right s hs e
      rw [a, b, sub_self, zero_pow (by norm_num), zero_add] at h2
      exact ((sq_eq_sq₀ h1.le (sub_pos.mpr c).le).mp h2).symm
    · next e1 =>
      rw [hp.free s hs e0 e1, sub_self]

theorem sum_filter_tag (l : List (Seg 𝕜 T.nv)) (tag : Int) (f : Seg 𝕜 T.nv → 𝕜) :
    ((l.filter (fun s => s.attr = tag)).map f).sum = (l.map (fun s => if s.attr = tag then f s else 0)).sum := by
  induction l with
  | nil => rfl
  | cons s l ih =>
    rw [List.filter_cons, List.map_cons, List.sum_cons, ← ih]
    by_cases e : s.attr = tag
    · simp [e]
    · simp [e]

theorem sum_map_sub {α : Type _} (l : List α) (f g : α → 𝕜) :
    (l.map (fun a => f a - g a)).sum = (l.map f).sum - (l.map g).sum := by
  induction l with
  | nil => simp
  | cons a l ih =>
    simp only [List.map_cons, List.sum_cons, ih]
    ring

theorem sum_map_neg {α : Type _} (l : List α) (f : α → 𝕜) : (l.map (fun a => -f a)).sum = -(l.map f).sum := by
  induction l with
  | nil => simp
  | cons a l ih =>
    simp only [List.map_cons, List.sum_cons, ih]
    ring

theorem boundaryLength_pos (hp : ParallelPlates T tag0 tag1 x0 x1) (hm : Measured T) : 0 < boundaryLength T tag1 := by
  obtain ⟨s, hs, e⟩ := hp.exists_
  unfold boundaryLength
  refine List.sum_pos _ (fun x hx => ?_) ?_
  · obtain ⟨s, hs, rfl⟩ := List.mem_map.mp hx
    exact (hm s (List.mem_filter.mp hs).1).1
  · intro h
    have : s ∈ T.segs.filter (fun s => s.attr = tag1) := List.mem_filter.mpr ⟨hs, by simpa using e⟩
    rw [List.map_eq_nil_iff.mp h] at this
    cases this

/-- Both plates have the same length. -/
theorem boundaryLength_eq (hp : ParallelPlates T tag0 tag1 x0 x1) (hm : Measured T) (hc : Conforming T) (hT : Proper T) :
    boundaryLength T tag0 = boundaryLength T tag1 := by
  have h := divergence hc hT.det_ne (fun e => (T.coord e.2).2 - (T.coord e.1).2) (fun v w => by ring)
  have h0 : (T.tris.map (fun t => (T.coord t.b).2 - (T.coord t.a).2 + ((T.coord t.c).2 - (T.coord t.b).2) +
      ((T.coord t.a).2 - (T.coord t.c).2))).sum = 0 := by
    refine List.sum_eq_zero fun x hx => ?_
    obtain ⟨t, _, rfl⟩ := List.mem_map.mp hx
    ring
  have h := h.symm.trans h0
  have hs : (T.segs.map (fun s => (T.coord s.b).2 - (T.coord s.a).2)).sum =
      (T.segs.map (fun s => (if s.attr = tag1 then s.len else 0) - (if s.attr = tag0 then s.len else 0))).sum := by
    congr 1
    refine List.map_congr_left fun s hs => ?_
    rw [ParallelPlates_len hp hm hs]
    by_cases e0 : s.attr = tag0
    · have : s.attr ≠ tag1 := fun e => ParallelPlates_ne hp (e0.symm.trans e)
      simp [e0, ParallelPlates_ne hp]
    · by_cases e1 : s.attr = tag1
      · simp [e1, (ParallelPlates_ne hp).symm]
      · simp [e0, e1]
  have h := hs.symm.trans h
  rw [sum_map_sub] at h
  unfold boundaryLength
  rw [sum_filter_tag, sum_filter_tag]
  exact (sub_eq_zero.mp h).symm

/-- The electrical distance of the plates: positive. -/
theorem depth_pos (hp : ParallelPlates T tag0 tag1 x0 x1) (hm : Measured T) (hc : Conforming T) (hT : Proper T)
    {eps : Int → 𝕜} (he : ∀ t ∈ T.tris, 0 < eps t.attr) {depth : 𝕜 → 𝕜} (hd : ElectricalDepth T eps x0 depth) :
    0 < depth x1 := by
  obtain ⟨d0, hd⟩ := hd
  let δ : Fin T.nv → 𝕜 := fun v => depth (T.coord v).1
  have h := divergence hc hT.det_ne (fun e => (δ e.1 + δ e.2) / 2 * ((T.coord e.2).2 - (T.coord e.1).2))
    (fun v w => by ring)
  have hl : (T.tris.map (fun t => (δ t.a + δ t.b) / 2 * ((T.coord t.b).2 - (T.coord t.a).2) +
      (δ t.b + δ t.c) / 2 * ((T.coord t.c).2 - (T.coord t.b).2) +
      (δ t.c + δ t.a) / 2 * ((T.coord t.a).2 - (T.coord t.c).2))).sum =
      (T.tris.map (fun t => T.det t / 2 / eps t.attr)).sum := by
    congr 1
    refine List.map_congr_left fun t ht => ?_
    have hb : δ t.b = δ t.a + ((T.coord t.b).1 - (T.coord t.a).1) / eps t.attr :=
      eq_add_of_sub_eq' (hd t ht t.a t.b (by simp [IsVertex]) (by simp [IsVertex]))
    have hc : δ t.c = δ t.a + ((T.coord t.c).1 - (T.coord t.a).1) / eps t.attr :=
      eq_add_of_sub_eq' (hd t ht t.a t.c (by simp [IsVertex]) (by simp [IsVertex]))
    have := (he t ht).ne'
    rw [hb, hc]
    unfold Triangulation.det
    field_simp
    ring
  have hr : (T.segs.map (fun s => (δ s.a + δ s.b) / 2 * ((T.coord s.b).2 - (T.coord s.a).2))).sum =
      depth x1 * boundaryLength T tag1 := by
    unfold boundaryLength
    rw [sum_filter_tag, ← List.sum_map_mul_left]
    congr 1
    refine List.map_congr_left fun s hs => ?_
    rw [ParallelPlates_len hp hm hs]
    by_cases e0 : s.attr = tag0
    · obtain ⟨a, b, _⟩ := hp.left s hs e0
      simp only [δ, a, b, d0, e0, ParallelPlates_ne hp, if_false, if_true]
      ring
    · by_cases e1 : s.attr = tag1
      · obtain ⟨a, b, _⟩ := hp.right s hs e1
        simp only [δ, a, b, e0, e1, if_true, (ParallelPlates_ne hp).symm, if_false]
        ring
      · simp [e0, e1]
  have h := hl.symm.trans (h.trans hr)
  have hpos : 0 < (T.tris.map (fun t => T.det t / 2 / eps t.attr)).sum := by
    refine List.sum_pos _ (fun x hx => ?_) ?_
    · obtain ⟨t, ht, rfl⟩ := List.mem_map.mp hx
      exact div_pos (div_pos (hT.area t ht) (by norm_num)) (he t ht)
    · intro h0
      obtain ⟨s, hs⟩ := List.exists_mem_of_ne_nil _ hT.boundary
      obtain ⟨t, ht, _⟩ := hT.segs s hs
      rw [List.map_eq_nil_iff.mp h0] at ht
      cases ht
  rw [h] at hpos
  exact pos_of_mul_pos_left hpos (boundaryLength_pos hp hm).le

/-- Distance is the electrical distance in vacuum. -/
theorem distance_depth (x0 : 𝕜) {eps : Int → 𝕜} (he : ∀ t ∈ T.tris, eps t.attr = 1) :
    ElectricalDepth T eps x0 (fun x => x - x0) := by
  refine ⟨sub_self _, fun t ht v w _ _ => ?_⟩
  rw [he t ht]
  ring

/-- Where every vertex belongs to a triangle, it is joined with a plate. -/
theorem plates_joined {p0 p1 : PEC 𝕜} (h0 : p0 ∈ mats.pecs) (h1 : p1 ∈ mats.pecs)
    (hp : ParallelPlates T p0.tag p1.tag x0 x1) (hc : Conforming T) (hT : Proper T)
    (hv : ∀ v, ∃ t ∈ T.tris, IsVertex t v) : JoinedToConductors T mats := by
  classical
  intro v
  by_contra hno
  push Not at hno
  let I : Fin T.nv → 𝕜 := fun w => if Relation.ReflTransGen (Adjacent T) v w then 1 else 0
  have hadj : ∀ t ∈ T.tris, ∀ a b, IsVertex t a → IsVertex t b → I a = I b := by
    intro t ht a b ha hb
    have : Relation.ReflTransGen (Adjacent T) v a ↔ Relation.ReflTransGen (Adjacent T) v b :=
      ⟨fun h => h.tail ⟨t, ht, ha, hb⟩, fun h => h.tail ⟨t, ht, hb, ha⟩⟩
    simp only [I, this]
  have h := divergence hc hT.det_ne (fun e => (I e.1 + I e.2) / 2 * (((T.coord e.1).1 + (T.coord e.2).1) / 2 *
    ((T.coord e.2).2 - (T.coord e.1).2))) (fun v w => by ring)
  have hl : (T.tris.map (fun t => (I t.a + I t.b) / 2 * (((T.coord t.a).1 + (T.coord t.b).1) / 2 *
        ((T.coord t.b).2 - (T.coord t.a).2)) +
      (I t.b + I t.c) / 2 * (((T.coord t.b).1 + (T.coord t.c).1) / 2 * ((T.coord t.c).2 - (T.coord t.b).2)) +
      (I t.c + I t.a) / 2 * (((T.coord t.c).1 + (T.coord t.a).1) / 2 * ((T.coord t.a).2 - (T.coord t.c).2)))).sum =
      (T.tris.map (fun t => I t.a * (T.det t / 2))).sum := by
    congr 1
    refine List.map_congr_left fun t ht => ?_
    rw [← hadj t ht t.a t.b (by simp [IsVertex]) (by simp [IsVertex]),
      ← hadj t ht t.a t.c (by simp [IsVertex]) (by simp [IsVertex])]
    unfold Triangulation.det
    ring
  have hr : (T.segs.map (fun s => (I s.a + I s.b) / 2 * (((T.coord s.a).1 + (T.coord s.b).1) / 2 *
    ((T.coord s.b).2 - (T.coord s.a).2)))).sum = 0 := by
    refine List.sum_eq_zero fun x hx => ?_
    obtain ⟨s, hs, rfl⟩ := List.mem_map.mp hx
    have off : ∀ p ∈ mats.pecs, s.attr = p.tag → I s.a = 0 ∧ I s.b = 0 := by
      intro p hp e
      have hz : ∀ w, (w = s.a ∨ w = s.b) → I w = 0 := by
        intro w hw
        simp only [I]
        rw [if_neg (hno p hp w ⟨s, hs, e, hw⟩)]
      exact ⟨hz _ (Or.inl rfl), hz _ (Or.inr rfl)⟩
    by_cases e0 : s.attr = p0.tag
    · obtain ⟨a, b⟩ := off p0 h0 e0
      rw [a, b]
      ring
    · by_cases e1 : s.attr = p1.tag
      · obtain ⟨a, b⟩ := off p1 h1 e1
        rw [a, b]
        ring
      · rw [hp.free s hs e0 e1]
        ring
  have h := hl.symm.trans (h.trans hr)
  obtain ⟨t, ht, hvt⟩ := hv v
  have hpos : 0 < (T.tris.map (fun t => I t.a * (T.det t / 2))).sum := by
    have hIv : I v = 1 := by
      simp only [I]
      rw [if_pos Relation.ReflTransGen.refl]
    have nn : ∀ x ∈ T.tris.map (fun t => I t.a * (T.det t / 2)), 0 ≤ x := by
      intro x hx
      obtain ⟨s, hs, rfl⟩ := List.mem_map.mp hx
      refine mul_nonneg ?_ (div_pos (hT.area s hs) (by norm_num)).le
      simp only [I]
      split <;> norm_num
    have : I t.a * (T.det t / 2) ≤ (T.tris.map (fun t => I t.a * (T.det t / 2))).sum :=
      List.single_le_sum nn _ (List.mem_map_of_mem ht)
    refine lt_of_lt_of_le ?_ this
    rw [hadj t ht t.a v (by simp [IsVertex]) hvt, hIv, one_mul]
    exact div_pos (hT.area t ht) (by norm_num)
  exact hpos.ne' h

/-- The field between the plates. -/
def plateField (T : Triangulation 𝕜) (depth : 𝕜 → 𝕜) (x1 V0 V1 : 𝕜) : SolverSolution T.fem :=
  let phi : Fin T.nv → 𝕜 := fun v => V0 + (V1 - V0) / depth x1 * depth (T.coord v).1
  { phi := phi
    e := fun k => -∑ i, T.fem.grad k i * phi i
    d := uniformFlux T (-((V1 - V0) / depth x1), 0) }

theorem plates_apart {p0 p1 : PEC 𝕜} (hmem : ∀ p ∈ mats.pecs, p = p0 ∨ p = p1)
    (hp : ParallelPlates T p0.tag p1.tag x0 x1) (hx : x0 < x1) : ConductorsApart T mats := by
  have on0 : ∀ v, OnTag T p0.tag v → (T.coord v).1 = x0 := by
    rintro v ⟨s, hs, e, rfl | rfl⟩
    · exact (hp.left s hs e).1
    · exact (hp.left s hs e).2.1
  have on1 : ∀ v, OnTag T p1.tag v → (T.coord v).1 = x1 := by
    rintro v ⟨s, hs, e, rfl | rfl⟩
    · exact (hp.right s hs e).1
    · exact (hp.right s hs e).2.1
  intro p hp q hq hne v h1 h2
  rcases hmem p hp with rfl | rfl <;> rcases hmem q hq with rfl | rfl
  · exact hne rfl
  · exact hx.ne ((on0 v h1).symm.trans (on1 v h2))
  · exact hx.ne ((on0 v h2).symm.trans (on1 v h1))
  · exact hne rfl

/-- The projection of a constant displacement is exact. -/
theorem uniform_displacement (hd : ∀ t ∈ T.tris, T.det t ≠ 0) (eps : Int → 𝕜) (u : Fin T.nv → 𝕜) (g : 𝕜 × 𝕜)
    (hu : ∀ t ∈ T.tris, eps t.attr * (vectorAt (T.gradHat t) u).1 = -g.1 ∧
      eps t.attr * (vectorAt (T.gradHat t) u).2 = -g.2) :
    Displacement T.fem eps (fun k => -∑ i, T.fem.grad k i * u i) (uniformFlux T g) := by
  intro j
  congr 1
  refine List.map_congr_left fun q hq => ?_
  have hq' := hq
  obtain ⟨t, ht, hqt⟩ := mem_dom.mp hq
  have ha : q.attr = t.attr := by rcases hqt with rfl | rfl | rfl <;> rfl
  have hg : q.gradN = T.gradHat t := by rcases hqt with rfl | rfl | rfl <;> rfl
  have h1 : vectorAt q.R (uniformFlux T g) = g := uniformFlux_value hd two_ne_zero _ hq'
  have h2 : vectorAt q.W (fun k => ∑ i, T.fem.grad k i * u i) = vectorAt (T.gradHat t) u :=
    (fem_gradient hd two_ne_zero hq' _).trans (congrArg (fun g => vectorAt g _) hg)
  have h3 : vectorAt q.W (fun k => -∑ i, T.fem.grad k i * u i) =
      (-(vectorAt (T.gradHat t) u).1, -(vectorAt (T.gradHat t) u).2) := by
    have e1 := congrArg Prod.fst h2
    have e2 := congrArg Prod.snd h2
    refine Prod.ext ?_ ?_
    · refine Eq.trans ?_ (congrArg Neg.neg e1)
      simp only [vectorAt, neg_mul, Finset.sum_neg_distrib]
    · refine Eq.trans ?_ (congrArg Neg.neg e2)
      simp only [vectorAt, neg_mul, Finset.sum_neg_distrib]
  obtain ⟨k1, k2⟩ := hu t ht
  rw [h1, h3, ha]
  unfold inner2
  simp only
  rw [show g = (g.1, g.2) from rfl]
  simp only
  have k1' : g.1 = -(eps t.attr * (vectorAt (T.gradHat t) u).1) := by rw [k1, neg_neg]
  have k2' : g.2 = -(eps t.attr * (vectorAt (T.gradHat t) u).2) := by rw [k2, neg_neg]
  rw [k1', k2']
  ring

theorem plateField_prescribed {p0 p1 : PEC 𝕜} (h0 : p0 ∈ mats.pecs) (h1 : p1 ∈ mats.pecs)
    (hmem : ∀ p ∈ mats.pecs, p = p0 ∨ p = p1) (hopen : mats.openBoundaries = [])
    (hp : ParallelPlates T p0.tag p1.tag x0 x1) (hc : Conforming T) (hT : Proper T) (b : Bool)
    (he : ∀ t ∈ T.tris, 0 < declaredEps mats b t.attr) {depth : 𝕜 → 𝕜}
    (hd : ElectricalDepth T (declaredEps mats b) x0 depth) (hpos : 0 < depth x1) (V : Int → 𝕜) :
    PrescribedField A T.fem mats b V (plateField T depth x1 (V p0.tag) (V p1.tag)) := by
  set k := (V p1.tag - V p0.tag) / depth x1 with hk
  have hgrad : ∀ t ∈ T.tris, vectorAt (T.gradHat t) (plateField T depth x1 (V p0.tag) (V p1.tag)).phi =
      (k / declaredEps mats b t.attr, 0) := by
    intro t ht
    have hb := hd.2 t ht t.a t.b (by simp [IsVertex]) (by simp [IsVertex])
    have hc := hd.2 t ht t.a t.c (by simp [IsVertex]) (by simp [IsVertex])
    refine gradient_eq (hT.det_ne t ht) _ _ ?_ ?_
    · show V p0.tag + k * depth (T.coord t.b).1 - (V p0.tag + k * depth (T.coord t.a).1) = _
      rw [show V p0.tag + k * depth (T.coord t.b).1 - (V p0.tag + k * depth (T.coord t.a).1) =
        k * (depth (T.coord t.b).1 - depth (T.coord t.a).1) by ring, hb]
      unfold inner2
      ring
    · show V p0.tag + k * depth (T.coord t.c).1 - (V p0.tag + k * depth (T.coord t.a).1) = _
      rw [show V p0.tag + k * depth (T.coord t.c).1 - (V p0.tag + k * depth (T.coord t.a).1) =
        k * (depth (T.coord t.c).1 - depth (T.coord t.a).1) by ring, hc]
      unfold inner2
      ring
  refine ⟨?_, ?_, fun _ => rfl, ?_⟩
  · rintro v c ⟨p, hp', hv⟩ hval
    have e := hval p hp' hv
    obtain ⟨s, hs, es, hv⟩ := onBoundary_iff.mp hv
    show V p0.tag + k * depth (T.coord v).1 = c
    rcases hmem p hp' with rfl | rfl
    · obtain ⟨xa, xb, _⟩ := hp.left s hs es
      have : (T.coord v).1 = x0 := by rcases hv with rfl | rfl <;> assumption
      rw [this, hd.1, mul_zero, add_zero]
      exact e
    · obtain ⟨xa, xb, _⟩ := hp.right s hs es
      have : (T.coord v).1 = x1 := by rcases hv with rfl | rfl <;> assumption
      rw [this, hk, div_mul_cancel₀ _ hpos.ne', add_sub_cancel]
      exact e
  · intro (v : Fin T.nv) hv
    rw [hopen]
    have hw := weakForm_uniform hc hT.det_ne (by norm_num) two_ne_zero A (declaredEps mats b)
      (plateField T depth x1 (V p0.tag) (V p1.tag)).phi (k, 0) (fun t ht => by
        rw [hgrad t ht]
        exact ⟨mul_div_cancel₀ _ (he t ht).ne', mul_zero _⟩) v
    refine Eq.trans hw (List.sum_eq_zero fun x hx => ?_)
    obtain ⟨s, hs, rfl⟩ := List.mem_map.mp hx
    have off : ∀ p ∈ mats.pecs, s.attr = p.tag → (v : Fin T.nv) ≠ s.a ∧ (v : Fin T.nv) ≠ s.b := by
      intro p hp e
      exact ⟨fun h => hv p hp (onBoundary_iff.mpr ⟨s, hs, e, Or.inl h⟩),
        fun h => hv p hp (onBoundary_iff.mpr ⟨s, hs, e, Or.inr h⟩)⟩
    by_cases e0 : s.attr = p0.tag
    · obtain ⟨a, b⟩ := off p0 h0 e0
      rw [if_neg a, if_neg b]
      ring
    · by_cases e1 : s.attr = p1.tag
      · obtain ⟨a, b⟩ := off p1 h1 e1
        rw [if_neg a, if_neg b]
        ring
      · unfold across
        rw [hp.free s hs e0 e1]
        ring
  · exact uniform_displacement hT.det_ne _ _ _ (fun t ht => by
      have h := hgrad t ht
      have e1 := congrArg Prod.fst h
      have e2 := congrArg Prod.snd h
      exact ⟨(congrArg (declaredEps mats b t.attr * ·) e1).trans ((mul_div_cancel₀ _ (he t ht).ne').trans (neg_neg k).symm),
        (congrArg (declaredEps mats b t.attr * ·) e2).trans ((mul_zero _).trans neg_zero.symm)⟩)

theorem plateField_charges (hp : ParallelPlates T tag0 tag1 x0 x1) (hm : Measured T) (hc : Conforming T) (hT : Proper T)
    (depth : 𝕜 → 𝕜) (V0 V1 : 𝕜) :
    chargeOn (plateField T depth x1 V0 V1) tag1 = (V1 - V0) / depth x1 * boundaryLength T tag1 ∧
    chargeOn (plateField T depth x1 V0 V1) tag0 = -((V1 - V0) / depth x1 * boundaryLength T tag1) := by
  have key : ∀ tag, chargeOn (plateField T depth x1 V0 V1) tag = ((T.segs.filter (fun s => s.attr = tag)).map
      (fun s => (V1 - V0) / depth x1 * ((T.coord s.b).2 - (T.coord s.a).2))).sum := by
    intro tag
    unfold chargeOn
    refine (congrArg Neg.neg (outwardFlux_uniform hT.det_ne hT.segs (by norm_num) _ tag)).trans ?_
    rw [← sum_map_neg]
    congr 1
    refine List.map_congr_left fun s _ => ?_
    unfold across
    ring
  constructor
  · rw [key, boundaryLength, ← List.sum_map_mul_left]
    congr 1
    refine List.map_congr_left fun s hs => ?_
    obtain ⟨h1, h2⟩ := List.mem_filter.mp hs
    have h2 : s.attr = tag1 := by simpa using h2
    rw [ParallelPlates_len hp hm h1, h2, if_neg (ParallelPlates_ne hp).symm, if_pos rfl]
  · rw [key, ← boundaryLength_eq hp hm hc hT, boundaryLength, ← List.sum_map_mul_left, ← sum_map_neg]
    congr 1
    refine List.map_congr_left fun s hs => ?_
    obtain ⟨h1, h2⟩ := List.mem_filter.mp hs
    have h2 : s.attr = tag0 := by simpa using h2
    rw [ParallelPlates_len hp hm h1, h2, if_pos rfl]
    ring

end
end Tulip
