import Verif.Proofs.ElementPlates
import Verif.Spec.Patch

/-!
# Fields with uniform displacement, with elements of any order
-/

set_option linter.unusedSectionVars false

namespace Tulip
open Matrix Spec MvPolynomial

section
variable {𝕜 : Type} [Field 𝕜] [LinearOrder 𝕜] [IsStrictOrderedRing 𝕜] {T : Triangulation 𝕜} {S : Shapes T} {Q : Rule 𝕜}
  {p : Nat} {mats : Materials 𝕜} {A : Analytic 𝕜}

theorem weakFormWith_patch (h : Elements S p) (hT : Proper T) (hc : Conforming T) (hQ : ExactRule Q p) (eps : Int → 𝕜)
    (opens : List Int) (u : Fin S.n → 𝕜) (g : 𝕜 × 𝕜)
    (hu : ∀ t ∈ T.tris, ∀ r ∈ Q.tri, eps t.attr * (vectorAt (T.domPoint S t r).gradN u).1 = g.1 ∧
      eps t.attr * (vectorAt (T.domPoint S t r).gradN u).2 = g.2) (i : Fin S.n)
    (hs : ∀ s ∈ T.segs, i ∉ S.onSeg s ∨ (s.attr ∉ opens ∧ across T g (s.a, s.b) = 0) ∨
      (s.attr ∈ opens ∧ ∀ t ∈ T.tris, (s.a, s.b) ∈ t.sides → ∀ r ∈ Q.seg,
        s.len * A.abc (T.bdrPoint S s t r).pos * scalarAt (T.bdrPoint S s t r).N u = -across T g (s.a, s.b))) :
    weakForm A (T.femWith S Q) eps opens u i = 0 := by
  obtain ⟨J, hJ, hJ', e⟩ := uniform_boundary h hT hc hQ g i
  have hd : ((T.femWith S Q).dom.map (fun q => q.w * eps q.attr * inner2 (q.gradN i) (vectorAt q.gradN u))).sum =
      (T.segs.map (fun s => across T g (s.a, s.b) * J s)).sum := by
    refine Eq.trans ?_ e
    show ((T.tris.flatMap (fun t => Q.tri.map (T.domPoint S t))).map (fun q : DomPt 𝕜 S.n S.ne S.nd =>
        q.w * eps q.attr * inner2 (q.gradN i) (vectorAt q.gradN u))).sum = _
    rw [sum_flatMap]
    refine congrArg List.sum (List.map_congr_left fun t ht => ?_)
    rw [List.map_map]
    refine congrArg List.sum (List.map_congr_left fun r hr => ?_)
    obtain ⟨h1, h2⟩ := hu t ht r hr
    show T.det t / 2 * r.1 * eps t.attr * inner2 ((T.domPoint S t r).gradN i) (vectorAt (T.domPoint S t r).gradN u) = _
    unfold inner2
    rw [← h1, ← h2]
    ring
  have gen : ∀ l : List (Seg 𝕜 T.nv), (∀ s ∈ l, s ∈ T.segs) →
      (l.map (fun s => across T g (s.a, s.b) * J s)).sum +
      (((l.flatMap (fun s => (T.behind s).toList.flatMap (fun t => Q.seg.map (T.bdrPoint S s t)))).filter
        (fun q : BdrPt 𝕜 S.n S.nd => q.attr ∈ opens)).map (fun q : BdrPt 𝕜 S.n S.nd =>
          q.w * A.abc q.pos * (q.N i * scalarAt q.N u))).sum = 0 := by
    intro l hl
    induction l with
    | nil => simp
    | cons s l ih =>
      have ih := ih (fun s hs => hl s (List.mem_cons_of_mem _ hs))
      have hs1 := hl s List.mem_cons_self
      obtain ⟨t, ht⟩ := behind_exists (hT.segs s hs1)
      obtain ⟨htm, hst⟩ := behind_some ht
      rw [List.map_cons, List.sum_cons, List.flatMap_cons, List.filter_append, List.map_append, List.sum_append]
      have key : across T g (s.a, s.b) * J s +
          ((((T.behind s).toList.flatMap (fun t => Q.seg.map (T.bdrPoint S s t))).filter
            (fun q : BdrPt 𝕜 S.n S.nd => q.attr ∈ opens)).map (fun q : BdrPt 𝕜 S.n S.nd =>
            q.w * A.abc q.pos * (q.N i * scalarAt q.N u))).sum = 0 := by
        rw [ht]
        simp only [Option.toList_some, List.flatMap_cons, List.flatMap_nil, List.append_nil]
        have hfil : (Q.seg.map (T.bdrPoint S s t)).filter (fun q : BdrPt 𝕜 S.n S.nd => q.attr ∈ opens) =
            if s.attr ∈ opens then Q.seg.map (T.bdrPoint S s t) else [] := by
          split
          · next ho =>
            refine List.filter_eq_self.mpr fun q hq => ?_
            obtain ⟨r, _, rfl⟩ := List.mem_map.mp hq
            exact decide_eq_true ho
          · next ho =>
            refine List.filter_eq_nil_iff.mpr fun q hq => ?_
            obtain ⟨r, _, rfl⟩ := List.mem_map.mp hq
            exact fun hd => ho (of_decide_eq_true hd)
        rw [hfil]
        rcases hs s hs1 with h0 | ⟨ho, h0⟩ | ⟨ho, h0⟩
        · rw [hJ s hs1 h0, mul_zero, zero_add]
          refine List.sum_eq_zero fun x hx => ?_
          obtain ⟨q, hq, rfl⟩ := List.mem_map.mp hx
          split at hq
          · obtain ⟨r, _, rfl⟩ := List.mem_map.mp hq
            have : (T.bdrPoint S s t r).N i = 0 := h.offSeg s hs1 t htm hst i h0 (1 - r.2) r.2 (sub_add_cancel _ _)
            rw [this, zero_mul, mul_zero]
          · cases hq
        · rw [if_neg ho, h0]
          simp
        · rw [if_pos ho, hJ' s hs1 t htm hst, List.map_map]
          unfold pointSum sidePoints
          rw [List.map_map, ← List.sum_map_mul_left, ← List.sum_map_add]
          refine List.sum_eq_zero fun x hx => ?_
          obtain ⟨r, hr, rfl⟩ := List.mem_map.mp hx
          have := h0 t htm hst r hr
          show across T g (s.a, s.b) * (r.1 * (T.bdrPoint S s t r).N i) +
            s.len * r.1 * A.abc (T.bdrPoint S s t r).pos * ((T.bdrPoint S s t r).N i * scalarAt (T.bdrPoint S s t r).N u) = 0
          linear_combination r.1 * (T.bdrPoint S s t r).N i * this
      linear_combination key + ih
  exact (congrArg (· + (((T.femWith S Q).bdr.filter (fun q => q.attr ∈ opens)).map
    (fun q => q.w * A.abc q.pos * (q.N i * scalarAt q.N u))).sum) hd).trans (gen T.segs (fun _ h => h))

set_option maxHeartbeats 800000 in
/-- A field with uniform displacement is a solution of the discrete problem. -/
theorem patchWith (h : Elements S p) (hT : Proper T) (hc : Conforming T) (hA : Adequate Q p) (hQ : ExactRule Q p) (b : Bool) (he : ∀ t ∈ T.tris, 0 < declaredEps mats b t.attr) {V : Int → 𝕜}
    {f : Fin T.nv → 𝕜} {g : 𝕜 × 𝕜} (hf : UniformField A T mats (declaredEps mats b) V f g) :
    ∃ sol : SolverSolution (T.femWith S Q), PrescribedField A (T.femWith S Q) mats b V sol ∧
      (∀ t ∈ T.tris, ∑ i : Fin S.n, C (sol.phi i) * S.N t i = linearOn t f) ∧
      (∀ t ∈ T.tris, C (declaredEps mats b t.attr) * ∑ k : Fin S.ne, C (sol.e k) * (S.W t k).1 = C (-g.1) ∧
        C (declaredEps mats b t.attr) * ∑ k : Fin S.ne, C (sol.e k) * (S.W t k).2 = C (-g.2)) ∧
      (∀ t ∈ T.tris, ∑ k : Fin S.nd, C (sol.d k) * (S.R t k).1 = C (-g.1) ∧ ∑ k : Fin S.nd, C (sol.d k) * (S.R t k).2 = C (-g.2)) ∧
      ∀ tag, chargeOn sol tag = fluxThrough T g tag := by
  obtain ⟨u, hu⟩ := h.linear f
  obtain ⟨d, hdR⟩ := h.uniform (-g.1, -g.2)
  have hgrad : ∀ t ∈ T.tris, vectorAt (T.gradHat t) f = (g.1 / declaredEps mats b t.attr, g.2 / declaredEps mats b t.attr) := by
    intro t ht
    have hb := hf.slope t ht t.a t.b (by simp [IsVertex]) (by simp [IsVertex])
    have hc := hf.slope t ht t.a t.c (by simp [IsVertex]) (by simp [IsVertex])
    have hne := (he t ht).ne'
    refine gradient_eq (hT.det_ne t ht) _ _ ?_ ?_
    · unfold inner2
      field_simp
      linear_combination hb
    · unfold inner2
      field_simp
      linear_combination hc
  have hval : ∀ t ∈ T.tris, ∀ r, vectorAt (T.domPoint S t r).gradN u =
      (g.1 / declaredEps mats b t.attr, g.2 / declaredEps mats b t.attr) := by
    intro t ht r
    rw [vectorAt_gradN, hu t ht, gradient_linearOn (hT.det_ne t ht), hgrad t ht]
    simp
  have onPlate : ∀ s ∈ T.segs, ∀ c, f s.a = c → f s.b = c → ∀ i ∈ S.onSeg s, u i = c := by
    intro s hs c ha hb i hi
    obtain ⟨t, ht, hst⟩ := hT.segs s hs
    obtain ⟨va, vb⟩ := side_vertices hst
    have := h.basisSeg s hs t ht hst (fun i => u i - c) (fun x y hxy => ?_) i hi
    · exact sub_eq_zero.mp this
    · have e := congrArg (eval (Triangulation.onSide t s.a s.b x y)) (hu t ht)
      rw [sideValue_comb, eval_linearOn_side (hT.det_ne t ht) va vb f hxy, ha, hb, ← add_mul, hxy, one_mul] at e
      simp only [sub_mul, Finset.sum_sub_distrib, e, ← Finset.mul_sum, h.sum_side ht, mul_one, sub_self]
  have hw : ∀ i : Fin S.n, (∀ p ∈ mats.pecs, ¬ OnBoundary (T.femWith S Q) p.tag i) →
      weakForm A (T.femWith S Q) (declaredEps mats b) (mats.openBoundaries.map OpenBoundary.tag) u i = 0 := by
    intro i hi
    refine weakFormWith_patch h hT hc hQ _ _ u g (fun t ht r _ => ?_) i (fun s hs => ?_)
    · rw [hval t ht r]
      exact ⟨mul_div_cancel₀ _ (he t ht).ne', mul_div_cancel₀ _ (he t ht).ne'⟩
    · by_cases hp : ∃ p ∈ mats.pecs, s.attr = p.tag
      · obtain ⟨p, hp, e⟩ := hp
        exact Or.inl fun hm => hi p hp (onBoundaryWith_iff.mpr ⟨s, hs, e, hm⟩)
      · right
        push Not at hp
        by_cases ho : ∃ o ∈ mats.openBoundaries, s.attr = o.tag
        · right
          refine ⟨by
            obtain ⟨o, ho, e⟩ := ho
            rw [e]
            exact List.mem_map_of_mem ho, fun t ht hst r hr => ?_⟩
          obtain ⟨_, r0, r1⟩ := hA.seg r hr
          have h1 := hf.opens s hs hp ho (1 - r.2) r.2 (sub_nonneg.mpr r1) r0 (sub_add_cancel _ _)
          obtain ⟨va, vb⟩ := side_vertices hst
          have e := congrArg (eval (Triangulation.onSide t s.a s.b (1 - r.2) r.2)) (hu t ht)
          rw [sideValue_comb, eval_linearOn_side (hT.det_ne t ht) va vb f (sub_add_cancel _ _)] at e
          have e' : scalarAt (T.bdrPoint S s t r).N u = (1 - r.2) * f s.a + r.2 * f s.b := by
            refine Eq.trans ?_ e
            unfold scalarAt
            refine Finset.sum_congr rfl fun k _ => ?_
            first
              | rfl
              | exact mul_comm _ _
          rw [e']
          unfold across
          rw [h1]
          show s.len * A.abc ((1 - r.2) * (T.coord s.a).1 + r.2 * (T.coord s.b).1,
            (1 - r.2) * (T.coord s.a).2 + r.2 * (T.coord s.b).2) * _ = _
          ring
        · left
          refine ⟨fun hm => ?_, ?_⟩
          · obtain ⟨o, ho', e⟩ := List.mem_map.mp hm
            exact ho ⟨o, ho', e.symm⟩
          · push Not at ho
            exact hf.free s hs hp ho
  have hflux : ∀ q ∈ (T.femWith S Q).dom, vectorAt q.R d = (-g.1, -g.2) := by
    intro q hq
    obtain ⟨t, ht, r, hr, rfl⟩ := mem_domWith.mp hq
    obtain ⟨d1, d2⟩ := hdR t ht
    have a1 := congrArg (eval ![r.2.1, r.2.2]) d1
    have a2 := congrArg (eval ![r.2.1, r.2.2]) d2
    rw [eval_comb, eval_C] at a1 a2
    exact Prod.ext a1 a2
  refine ⟨⟨u, fun k => -∑ i, S.grad k i * u i, d⟩, ⟨?_, ?_, fun _ => rfl, ?_⟩, hu, fun t ht => ?_, hdR, fun tag => ?_⟩
  · rintro i c ⟨p, hp', hi⟩ hc'
    have e := hc' p hp' hi
    obtain ⟨s, hs, es, hi⟩ := onBoundaryWith_iff.mp hi
    obtain ⟨ha, hb⟩ := hf.conductors s hs p hp' es
    exact (onPlate s hs _ ha hb i hi).trans e
  · exact hw
  · intro j
    refine congrArg List.sum (List.map_congr_left fun q hq => ?_)
    have hq' := hq
    obtain ⟨t, ht, r, hr, rfl⟩ := mem_domWith.mp hq
    have h2 := (elements_gradient h hq' u).trans (hval t ht r)
    have h3 : vectorAt (T.domPoint S t r).W (fun k => -∑ i, S.grad k i * u i) =
        (-(g.1 / declaredEps mats b t.attr), -(g.2 / declaredEps mats b t.attr)) := by
      have e1 := congrArg Prod.fst h2
      have e2 := congrArg Prod.snd h2
      refine Prod.ext ?_ ?_
      · refine Eq.trans ?_ (congrArg Neg.neg e1)
        simp only [vectorAt, neg_mul, Finset.sum_neg_distrib]
      · refine Eq.trans ?_ (congrArg Neg.neg e2)
        simp only [vectorAt, neg_mul, Finset.sum_neg_distrib]
    have h4 := hflux _ hq'
    refine (congrArg (fun x => (T.domPoint S t r).w * inner2 ((T.domPoint S t r).R j) x) h4).trans ?_
    refine Eq.trans ?_ (congrArg (fun x => (T.domPoint S t r).w * declaredEps mats b t.attr * inner2 ((T.domPoint S t r).R j) x) h3).symm
    have := (he t ht).ne'
    unfold inner2
    field_simp
  · have e1 : ∀ (c : Fin S.ne → MvPolynomial (Fin 2) 𝕜), ∑ k, C (-∑ i, S.grad k i * u i) * c k = -∑ i, C (u i) * ∑ k, C (S.grad k i) * c k := by
      intro c
      simp only [C_neg, map_sum, C_mul, neg_mul, Finset.sum_neg_distrib, Finset.sum_mul, Finset.mul_sum]
      rw [Finset.sum_comm]
      congr 1
      exact Finset.sum_congr rfl fun i _ => Finset.sum_congr rfl fun k _ => by ring
    have e2 : T.gradient t (∑ i, C (u i) * S.N t i) =
        (C (g.1 / declaredEps mats b t.attr), C (g.2 / declaredEps mats b t.attr)) := by
      rw [hu t ht, gradient_linearOn (hT.det_ne t ht), hgrad t ht]
    rw [gradient_comb] at e2
    have hg : ∀ i, (∑ k, C (S.grad k i) * (S.W t k).1 = (T.gradient t (S.N t i)).1) ∧
        (∑ k, C (S.grad k i) * (S.W t k).2 = (T.gradient t (S.N t i)).2) := fun i =>
      ⟨congrArg Prod.fst (h.gradient t ht i), congrArg Prod.snd (h.gradient t ht i)⟩
    have hne := (he t ht).ne'
    obtain ⟨f1, f2⟩ := Prod.mk.inj e2
    dsimp only
    constructor
    · rw [e1 (fun k => (S.W t k).1)]
      simp only [(hg _).1]
      rw [f1, ← C_neg, ← C_mul, mul_neg, mul_div_cancel₀ _ hne]
    · rw [e1 (fun k => (S.W t k).2)]
      simp only [(hg _).2]
      rw [f2, ← C_neg, ← C_mul, mul_neg, mul_div_cancel₀ _ hne]
  · show -outwardFlux (T.femWith S Q) d tag = _
    rw [outwardFluxWith_uniform hT hQ (-g.1, -g.2) d hdR, fluxThrough, ← sum_map_neg]
    refine congrArg List.sum (List.map_congr_left fun s _ => ?_)
    unfold across
    ring

end
end Tulip
