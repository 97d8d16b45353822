import Verif.Spec.Galerkin
import Verif.Proofs.ElementDivergence
import Verif.Proofs.ElementPlates
import Verif.Proofs.Transfer
import Mathlib.RingTheory.Polynomial.Basic

/-!
# The discrete field does not depend on shape functions and quadrature
-/

set_option linter.unusedSectionVars false

namespace Tulip
open Matrix Spec MvPolynomial

section
variable {𝕜 : Type} [Field 𝕜] {T : Triangulation 𝕜} {S : Shapes T} {Q Q' : Rule 𝕜} {p m : Nat} {mats : Materials 𝕜} {A : Analytic 𝕜}

/-- The function with these coefficients. -/
noncomputable def nodalComb (S : Shapes T) (u : Fin S.n → 𝕜) (t : Tri T.nv) : MvPolynomial (Fin 2) 𝕜 := ∑ i, C (u i) * S.N t i

/-- The field with these coefficients. -/
noncomputable def fluxComb (S : Shapes T) (d : Fin S.nd → 𝕜) (t : Tri T.nv) : MvPolynomial (Fin 2) 𝕜 × MvPolynomial (Fin 2) 𝕜 :=
  (∑ k, C (d k) * (S.R t k).1, ∑ k, C (d k) * (S.R t k).2)

/-! ## Integrals as sums over quadrature points -/

theorem dom_sum_with (f : Int → 𝕜) (g : DomPt 𝕜 S.n S.ne S.nd → 𝕜) :
    (((T.femWith S Q).dom).map (fun q => q.w * f q.attr * g q)).sum =
      (T.tris.map (fun t => T.det t / 2 * f t.attr * (Q.tri.map (fun r => r.1 * g (T.domPoint S t r))).sum)).sum := by
  show ((T.tris.flatMap (fun t => Q.tri.map (T.domPoint S t))).map (fun q : DomPt 𝕜 S.n S.ne S.nd => q.w * f q.attr * g q)).sum = _
  rw [sum_flatMap]
  refine congrArg List.sum (List.map_congr_left fun t _ => ?_)
  rw [List.map_map, ← List.sum_map_mul_left]
  refine congrArg List.sum (List.map_congr_left fun r _ => ?_)
  show T.det t / 2 * r.1 * f t.attr * _ = T.det t / 2 * f t.attr * (r.1 * _)
  ring

theorem bdr_sum_with (sel : Int → Bool) (g : BdrPt 𝕜 S.n S.nd → 𝕜) :
    (((T.femWith S Q).bdr.filter (fun q => sel q.attr)).map g).sum =
      ((T.segs.filter (fun s => sel s.attr)).map (fun s => ((T.behind s).toList.map (fun t =>
        (Q.seg.map (fun r => g (T.bdrPoint S s t r))).sum)).sum)).sum := by
  show (((T.segs.flatMap (fun s => (T.behind s).toList.flatMap (fun t => Q.seg.map (T.bdrPoint S s t)))).filter
    (fun q : BdrPt 𝕜 S.n S.nd => sel q.attr)).map g).sum = _
  generalize T.segs = l
  induction l with
  | nil => rfl
  | cons s l ih =>
    rw [List.flatMap_cons, List.filter_append, List.map_append, List.sum_append, ih]
    have e : ((T.behind s).toList.flatMap (fun t => Q.seg.map (T.bdrPoint S s t))).filter
        (fun q : BdrPt 𝕜 S.n S.nd => sel q.attr) =
        if sel s.attr then (T.behind s).toList.flatMap (fun t => Q.seg.map (T.bdrPoint S s t)) else [] := by
      have ha : ∀ q ∈ (T.behind s).toList.flatMap (fun t => Q.seg.map (T.bdrPoint S s t)), q.attr = s.attr := by
        intro q hq
        obtain ⟨t, _, hq⟩ := List.mem_flatMap.mp hq
        obtain ⟨r, _, rfl⟩ := List.mem_map.mp hq
        rfl
      split
      · next h => exact List.filter_eq_self.mpr fun q hq => by rw [ha q hq]; exact h
      · next h => exact List.filter_eq_nil_iff.mpr fun q hq => by rw [ha q hq]; exact h
    rw [e]
    by_cases h : sel s.attr = true
    · rw [if_pos h, List.filter_cons_of_pos (p := fun s : Seg 𝕜 T.nv => sel s.attr) h, List.map_cons, List.sum_cons, sum_flatMap]
      simp only [List.map_map]
      rfl
    · rw [if_neg h, List.filter_cons_of_neg (p := fun s : Seg 𝕜 T.nv => sel s.attr) h]
      simp

theorem weakForm_product (eps : Int → 𝕜) (opens : List Int) (u v : Fin S.n → 𝕜) :
    ∑ i : Fin S.n, v i * weakForm A (T.femWith S Q) eps opens u i =
      fieldProduct T Q eps (fun t => T.gradient t (nodalComb S v t)) (fun t => T.gradient t (nodalComb S u t)) +
        absorbed T A Q opens (nodalComb S v) (nodalComb S u) := by
  refine (weakForm_test (F := T.femWith S Q) A eps opens u v).trans ?_
  congr 1
  · refine (dom_sum_with (S := S) eps (fun q => inner2 (vectorAt q.gradN v) (vectorAt q.gradN u))).trans ?_
    unfold fieldProduct triIntegral
    refine congrArg List.sum (List.map_congr_left fun t _ => ?_)
    congr 1
    refine congrArg List.sum (List.map_congr_left fun r _ => ?_)
    rw [vectorAt_gradN, vectorAt_gradN, map_add, map_mul, map_mul]
    rfl
  · refine (bdr_sum_with (S := S) (fun a => decide (a ∈ opens))
      (fun q => q.w * A.abc q.pos * (scalarAt q.N v * scalarAt q.N u))).trans ?_
    unfold absorbed
    refine congrArg List.sum (List.map_congr_left fun s _ => ?_)
    refine congrArg List.sum (List.map_congr_left fun t _ => ?_)
    refine congrArg List.sum (List.map_congr_left fun r _ => ?_)
    unfold nodalComb
    rw [eval_comb, eval_comb]
    rfl

theorem vectorAt_R (t : Tri T.nv) (r : 𝕜 × 𝕜 × 𝕜) (d : Fin S.nd → 𝕜) : vectorAt (T.domPoint S t r).R d =
    (eval ![r.2.1, r.2.2] (fluxComb S d t).1, eval ![r.2.1, r.2.2] (fluxComb S d t).2) := by
  unfold fluxComb
  dsimp only
  rw [eval_comb, eval_comb]
  rfl

theorem displacement_product (g d : Fin S.nd → 𝕜) :
    ∑ k : Fin S.nd, g k * ((T.femWith S Q).dom.map (fun q => q.w * inner2 (q.R k) (vectorAt q.R d))).sum =
      fieldProduct T Q (fun _ => 1) (fluxComb S g) (fluxComb S d) := by
  refine (vector_form (T.femWith S Q).dom (fun q => q.w) (fun q => q.R) (fun q => vectorAt q.R d) g).trans ?_
  refine Eq.trans ?_ ((dom_sum_with (S := S) (Q := Q) (fun _ => 1) (fun q => inner2 (vectorAt q.R g) (vectorAt q.R d))).trans ?_)
  · refine congrArg List.sum (List.map_congr_left fun q _ => ?_)
    rw [mul_one]
    rfl
  · unfold fieldProduct triIntegral
    refine congrArg List.sum (List.map_congr_left fun t _ => ?_)
    congr 1
    refine congrArg List.sum (List.map_congr_left fun r _ => ?_)
    rw [vectorAt_R, vectorAt_R, map_add, map_mul, map_mul]
    rfl

end

section
variable {𝕜 : Type} [Field 𝕜] [LinearOrder 𝕜] [IsStrictOrderedRing 𝕜] {T : Triangulation 𝕜} {S : Shapes T} {Q Q' : Rule 𝕜}
  {p m : Nat} {mats : Materials 𝕜} {A : Analytic 𝕜}

theorem gradient_product (h : Elements S p) (eps : Int → 𝕜) (g : Fin S.nd → 𝕜) (u : Fin S.n → 𝕜) (e : Fin S.ne → 𝕜)
    (he : ∀ k, e k = -∑ i, S.grad k i * u i) :
    ∑ k : Fin S.nd, g k * ((T.femWith S Q).dom.map (fun q => q.w * eps q.attr * inner2 (q.R k) (vectorAt q.W e))).sum =
      -fieldProduct T Q eps (fluxComb S g) (fun t => T.gradient t (nodalComb S u t)) := by
  refine (vector_form (T.femWith S Q).dom (fun q => q.w * eps q.attr) (fun q => q.R) (fun q => vectorAt q.W e) g).trans ?_
  refine ((dom_sum_with (S := S) (Q := Q) eps (fun q => inner2 (vectorAt q.R g) (vectorAt q.W e)))).trans ?_
  unfold fieldProduct triIntegral
  rw [← sum_map_neg]
  refine congrArg List.sum (List.map_congr_left fun t ht => ?_)
  rw [← mul_neg, ← sum_map_neg]
  congr 1
  refine congrArg List.sum (List.map_congr_left fun r hr => ?_)
  have h1 := elements_gradient (Q := Q) h (mem_domWith.mpr ⟨t, ht, r, hr, rfl⟩) u
  rw [vectorAt_gradN] at h1
  have h2 : vectorAt (T.domPoint S t r).W e = (-eval ![r.2.1, r.2.2] (T.gradient t (nodalComb S u t)).1,
      -eval ![r.2.1, r.2.2] (T.gradient t (nodalComb S u t)).2) := by
    have e1 := congrArg Prod.fst h1
    have e2 := congrArg Prod.snd h1
    refine Prod.ext ?_ ?_
    · refine Eq.trans ?_ (congrArg Neg.neg e1)
      simp only [vectorAt, he, neg_mul, Finset.sum_neg_distrib]
    · refine Eq.trans ?_ (congrArg Neg.neg e2)
      simp only [vectorAt, he, neg_mul, Finset.sum_neg_distrib]
  rw [vectorAt_R, h2, map_add, map_mul, map_mul]
  unfold inner2
  ring

/-! ## Spaces -/

theorem Spec.Elements.piecewise (h : Elements S p) (u : Fin S.n → 𝕜) : PiecewisePolynomial T p (nodalComb S u) where
  degree t ht := totalDegree_comb _ _ fun i => h.degreeN t ht i
  continuous t ht t' ht' v w hv hw hv' hw' x y hxy := by
    unfold nodalComb
    rw [sideValue_comb, sideValue_comb]
    exact Finset.sum_congr rfl fun i _ => by rw [h.continuous t ht t' ht' v w hv hw hv' hw' x y hxy i]

theorem totalDegree_comb_lt {n p : Nat} (u : Fin n → 𝕜) (B : Fin n → MvPolynomial (Fin 2) 𝕜) (hp : 0 < p)
    (h : ∀ i, (B i).totalDegree < p) : (∑ i, C (u i) * B i).totalDegree < p := by
  have := totalDegree_comb (p := p - 1) u B (fun i => by have := h i; omega)
  omega

theorem Spec.Complete.raviartThomas (h : Complete S p) (hp : 0 < p) (d : Fin S.nd → 𝕜) : RaviartThomas T p (fluxComb S d) where
  shape t ht := by
    choose a b c ha hb hc e using fun k => (h.flux k).shape t ht
    refine ⟨∑ k, C (d k) * a k, ∑ k, C (d k) * b k, ∑ k, C (d k) * c k, totalDegree_comb_lt _ _ hp ha,
      totalDegree_comb_lt _ _ hp hb, totalDegree_comb_lt _ _ hp hc, ?_⟩
    unfold fluxComb
    refine Prod.ext ?_ ?_ <;> dsimp only
    · rw [Finset.sum_mul, ← Finset.sum_add_distrib]
      exact Finset.sum_congr rfl fun k _ => by rw [e k]; ring
    · rw [Finset.sum_mul, ← Finset.sum_add_distrib]
      exact Finset.sum_congr rfl fun k _ => by rw [e k]; ring
  normal t ht t' ht' v w hv hw hv' hw' x y hxy := by
    unfold fluxComb
    dsimp only
    simp only [eval_comb, Finset.sum_mul, ← Finset.sum_sub_distrib]
    refine Finset.sum_congr rfl fun k _ => ?_
    have := (h.flux k).normal t ht t' ht' v w hv hw hv' hw' x y hxy
    linear_combination d k * this

/-- Only values in the triangles count. -/
theorem fieldProduct_congr {eps : Int → 𝕜} {F G F' G' : Tri T.nv → MvPolynomial (Fin 2) 𝕜 × MvPolynomial (Fin 2) 𝕜}
    (hF : ∀ t ∈ T.tris, F t = F' t) (hG : ∀ t ∈ T.tris, G t = G' t) : fieldProduct T Q eps F G = fieldProduct T Q eps F' G' :=
  congrArg List.sum (List.map_congr_left fun t ht => by rw [hF t ht, hG t ht])

theorem absorbed_congr {opens : List Int} {P R P' R' : Tri T.nv → MvPolynomial (Fin 2) 𝕜}
    (hP : ∀ t ∈ T.tris, P t = P' t) (hR : ∀ t ∈ T.tris, R t = R' t) : absorbed T A Q opens P R = absorbed T A Q opens P' R' := by
  unfold absorbed
  refine congrArg List.sum (List.map_congr_left fun s _ => ?_)
  refine congrArg List.sum (List.map_congr_left fun t ht => ?_)
  have ht := (behind_some (Option.mem_toList.mp ht)).1
  rw [hP t ht, hR t ht]

theorem ConstantOn.congr {P P' : Tri T.nv → MvPolynomial (Fin 2) 𝕜} (hP : ∀ t ∈ T.tris, P t = P' t) {tag : Int} {c : 𝕜}
    (h : ConstantOn T P tag c) : ConstantOn T P' tag c := fun s hs e t ht hst x y hxy => by
  rw [← hP t ht]; exact h s hs e t ht hst x y hxy

theorem PiecewisePolynomial.congr {P P' : Tri T.nv → MvPolynomial (Fin 2) 𝕜} (hP : ∀ t ∈ T.tris, P t = P' t)
    (h : PiecewisePolynomial T p P) : PiecewisePolynomial T p P' where
  degree t ht := by rw [← hP t ht]; exact h.degree t ht
  continuous t ht t' ht' v w hv hw hv' hw' x y hxy := by
    rw [← hP t ht, ← hP t' ht']; exact h.continuous t ht t' ht' v w hv hw hv' hw' x y hxy

theorem RaviartThomas.congr {F F' : Tri T.nv → MvPolynomial (Fin 2) 𝕜 × MvPolynomial (Fin 2) 𝕜} (hF : ∀ t ∈ T.tris, F t = F' t)
    (h : RaviartThomas T p F) : RaviartThomas T p F' where
  shape t ht := by rw [← hF t ht]; exact h.shape t ht
  normal t ht t' ht' v w hv hw hv' hw' x y hxy := by
    rw [← hF t ht, ← hF t' ht']; exact h.normal t ht t' ht' v w hv hw hv' hw' x y hxy

theorem Spec.GalerkinField.congr {b : Bool} {V : Int → 𝕜} {P P' : Tri T.nv → MvPolynomial (Fin 2) 𝕜}
    {D D' : Tri T.nv → MvPolynomial (Fin 2) 𝕜 × MvPolynomial (Fin 2) 𝕜} (hP : ∀ t ∈ T.tris, P t = P' t)
    (hD : ∀ t ∈ T.tris, D t = D' t) (h : GalerkinField T A Q p mats b V P D) : GalerkinField T A Q p mats b V P' D' where
  potential := PiecewisePolynomial.congr hP h.potential
  conductors c hc := ConstantOn.congr hP (h.conductors c hc)
  equations R hR hR0 := by
    rw [← h.equations R hR hR0]
    exact congrArg₂ (· + ·) (fieldProduct_congr (fun _ _ => rfl) fun t ht => by rw [hP t ht])
      (absorbed_congr (fun _ _ => rfl) fun t ht => (hP t ht).symm)
  displacement := RaviartThomas.congr hD h.displacement
  projection G hG := by
    rw [fieldProduct_congr (F' := G) (G' := D) (fun _ _ => rfl) fun t ht => (hD t ht).symm, h.projection G hG]
    exact congrArg Neg.neg (fieldProduct_congr (fun _ _ => rfl) fun t ht => by rw [hP t ht])

/-- Constant on a boundary if and only if the coefficients there are. -/
theorem Spec.Elements.constantOn (h : Elements S p) (hT : Proper T) (u : Fin S.n → 𝕜) (tag : Int) (c : 𝕜) :
    ConstantOn T (nodalComb S u) tag c ↔ ∀ i : Fin S.n, OnBoundary (T.femWith S Q) tag i → u i = c := by
  constructor
  · intro hc i hi
    obtain ⟨s, hs, e, hi⟩ := onBoundaryWith_iff.mp hi
    obtain ⟨t, ht, hst⟩ := hT.segs s hs
    refine sub_eq_zero.mp (h.basisSeg s hs t ht hst (fun i => u i - c) (fun x y hxy => ?_) i hi)
    have e := hc s hs e t ht hst x y hxy
    unfold nodalComb at e
    rw [sideValue_comb] at e
    simp only [sub_mul, Finset.sum_sub_distrib, e, ← Finset.mul_sum, h.sum_side ht, mul_one, sub_self]
  · intro hc s hs e t ht hst x y hxy
    unfold nodalComb
    rw [sideValue_comb]
    have : ∀ i, u i * sideValue S t s.a s.b x y i = c * sideValue S t s.a s.b x y i := by
      intro i
      by_cases hi : i ∈ S.onSeg s
      · rw [hc i (onBoundaryWith_iff.mpr ⟨s, hs, e, hi⟩)]
      · rw [h.offSeg s hs t ht hst i hi x y hxy, mul_zero, mul_zero]
    simp only [this, ← Finset.mul_sum, h.sum_side ht, mul_one]

theorem sum_pick {n : Nat} (i : Fin n) (f : Fin n → 𝕜) : ∑ j, (if j = i then 1 else 0) * f j = f i := by
  simp

/-- The solver's field is the discrete field. -/
theorem galerkin_iff (h : Elements S p) (hS : Complete S p) (hp : 0 < p) (hT : Proper T) (hs : Separate (T.femWith S Q) mats)
    {b : Bool} {V : Int → 𝕜} {u : Fin S.n → 𝕜} {e : Fin S.ne → 𝕜} {d : Fin S.nd → 𝕜} (he : ∀ k, e k = -∑ i, S.grad k i * u i) :
    PrescribedField A (T.femWith S Q) mats b V ⟨u, e, d⟩ ↔ GalerkinField T A Q p mats b V (nodalComb S u) (fluxComb S d) := by
  constructor
  · intro hf
    refine ⟨h.piecewise _, fun c hc => ?_, fun R hR hR0 => ?_, hS.raviartThomas hp _, fun G hG => ?_⟩
    · refine (h.constantOn (Q := Q) hT _ _ _).mpr fun i hi => hf.values i _ ⟨c, hc, hi⟩ fun c' hc' hi' => ?_
      rw [hs c hc c' hc' i hi hi']
    · obtain ⟨v, hv⟩ := hS.nodal R hR
      have hv0 : ∀ c ∈ mats.pecs, ∀ i : Fin S.n, OnBoundary (T.femWith S Q) c.tag i → v i = 0 := fun c hc =>
        (h.constantOn hT v c.tag 0).mp (ConstantOn.congr (fun t ht => (hv t ht).symm) (hR0 c hc))
      have := weakForm_product (S := S) (Q := Q) (A := A) (declaredEps mats b) (mats.openBoundaries.map OpenBoundary.tag) u v
      rw [Finset.sum_eq_zero (fun i _ => by
        by_cases hi : ∃ c ∈ mats.pecs, OnBoundary (T.femWith S Q) c.tag i
        · obtain ⟨c, hc, hi⟩ := hi
          rw [hv0 c hc i hi, zero_mul]
        · push Not at hi
          rw [hf.equations i hi, mul_zero])] at this
      rw [this]
      exact congrArg₂ (· + ·) (fieldProduct_congr (fun t ht => by rw [← hv t ht]; rfl) fun _ _ => rfl)
        (absorbed_congr (fun t ht => (hv t ht).symm) fun _ _ => rfl)
    · obtain ⟨g, hg⟩ := hS.fluxes G hG
      have hg' : ∀ t ∈ T.tris, G t = fluxComb S g t := fun t ht => Prod.ext (hg t ht).1.symm (hg t ht).2.symm
      rw [fieldProduct_congr hg' (fun _ _ => rfl), ← displacement_product, fieldProduct_congr hg' (fun _ _ => rfl),
        ← gradient_product h _ g u e he]
      exact Finset.sum_congr rfl fun k _ => congrArg (g k * ·) (hf.d k)
  · intro hf
    refine ⟨fun (i : Fin S.n) c hi hc => ?_, fun (i : Fin S.n) hi => ?_, he, fun (k : Fin S.nd) => ?_⟩
    · obtain ⟨q, hq, hi⟩ := hi
      rw [← hc q hq hi]
      exact (h.constantOn hT _ _ _).mp (hf.conductors q hq) i hi
    · have := hf.equations (nodalComb S fun j => if j = i then 1 else 0) (h.piecewise _) fun c hc =>
        (h.constantOn (Q := Q) hT _ _ _).mpr fun j hj => if_neg fun e' : j = i => hi c hc (e' ▸ hj)
      rw [← weakForm_product] at this
      exact (sum_pick i _).symm.trans this
    · have := hf.projection (fluxComb S fun j => if j = k then 1 else 0) (hS.raviartThomas hp _)
      rw [← displacement_product, ← gradient_product h _ _ u e he] at this
      exact (sum_pick k _).symm.trans (this.trans (sum_pick k _))

/-! ## Quadrature -/

theorem tri_same (h : SameIntegrals Q Q' m) {P : MvPolynomial (Fin 2) 𝕜} (hP : P.totalDegree ≤ m) :
    triIntegral Q' P = triIntegral Q P := by
  have key : ∀ (Q : Rule 𝕜) (P : MvPolynomial (Fin 2) 𝕜), triIntegral Q P = pointSum (triPoints Q) P := fun Q P => by
    unfold triIntegral pointSum triPoints
    rw [List.map_map]
    rfl
  rw [key, key]
  obtain ⟨c, rfl⟩ := sum_of_terms hP
  rw [pointSum_sum, pointSum_sum]
  refine Finset.sum_congr rfl fun e he => ?_
  rw [pointSum_C_mul, pointSum_C_mul, ← key, ← key]
  congr 1
  have := h.tri e.1 e.2 (mem_exponents.mp he)
  unfold triIntegral
  simpa using this

theorem side_same (h : SameIntegrals Q Q' m) {P : MvPolynomial (Fin 2) 𝕜} (hP : P.totalDegree ≤ m) (t : Tri T.nv) (v w : Fin T.nv) :
    (Q'.seg.map (fun r => r.1 * eval (Triangulation.onSide t v w (1 - r.2) r.2) P)).sum =
      (Q.seg.map (fun r => r.1 * eval (Triangulation.onSide t v w (1 - r.2) r.2) P)).sum := by
  let f : Fin 2 → Polynomial 𝕜 :=
    ![(if v = t.b then 1 - Polynomial.X else 0) + (if w = t.b then Polynomial.X else 0),
      (if v = t.c then 1 - Polynomial.X else 0) + (if w = t.c then Polynomial.X else 0)]
  have hd : ∀ a b : Prop, ∀ [Decidable a] [Decidable b],
      ((if a then 1 - Polynomial.X else 0) + (if b then Polynomial.X else 0) : Polynomial 𝕜).natDegree ≤ 1 := by
    intro a b _ _
    refine (Polynomial.natDegree_add_le _ _).trans (max_le ?_ ?_)
    · split
      · refine (Polynomial.natDegree_sub_le _ _).trans (max_le ?_ ?_)
        · rw [Polynomial.natDegree_one]; exact Nat.zero_le _
        · exact Polynomial.natDegree_X_le
      · rw [Polynomial.natDegree_zero]; exact Nat.zero_le _
    · split
      · exact Polynomial.natDegree_X_le
      · rw [Polynomial.natDegree_zero]; exact Nat.zero_le _
  have hf : ∀ i, (f i).natDegree ≤ 1 := Fin.forall_fin_two.mpr ⟨hd _ _, hd _ _⟩
  have hq : (aeval f P).natDegree < m + 1 := by
    have := aeval_natDegree_le P hP f hf
    omega
  have hev : ∀ y : 𝕜, eval (Triangulation.onSide t v w (1 - y) y) P = (aeval f P).eval y := by
    intro y
    have h1 : (Polynomial.evalRingHom y).comp (aeval f).toRingHom = eval (Triangulation.onSide t v w (1 - y) y) := by
      refine MvPolynomial.ringHom_ext (fun c => ?_) (fun i => ?_)
      · simp
      · revert i
        refine Fin.forall_fin_two.mpr ⟨?_, ?_⟩ <;>
        · simp only [RingHom.comp_apply, AlgHom.toRingHom_eq_coe, RingHom.coe_coe, aeval_X, f, Triangulation.onSide, eval_X,
            Polynomial.coe_evalRingHom, Matrix.cons_val_zero, Matrix.cons_val_one, Polynomial.eval_add]
          congr 1 <;> split <;> simp
    rw [← h1]
    rfl
  have expand : ∀ Q : Rule 𝕜, (Q.seg.map (fun r => r.1 * eval (Triangulation.onSide t v w (1 - r.2) r.2) P)).sum =
      ∑ j ∈ Finset.range (m + 1), (aeval f P).coeff j * (Q.seg.map (fun r => r.1 * r.2 ^ j)).sum := by
    intro Q
    simp only [hev, Polynomial.eval_eq_sum_range' hq]
    generalize Q.seg = l
    induction l with
    | nil => simp
    | cons r l ih =>
      rw [List.map_cons, List.sum_cons, ih, Finset.mul_sum, ← Finset.sum_add_distrib]
      refine Finset.sum_congr rfl fun j _ => ?_
      rw [List.map_cons, List.sum_cons]
      ring
  rw [expand, expand]
  refine Finset.sum_congr rfl fun j hj => ?_
  rw [h.seg j (Nat.lt_succ_iff.mp (Finset.mem_range.mp hj))]

theorem totalDegree_dot {F G : MvPolynomial (Fin 2) 𝕜 × MvPolynomial (Fin 2) 𝕜} (hF : F.1.totalDegree ≤ p ∧ F.2.totalDegree ≤ p)
    (hG : G.1.totalDegree ≤ p ∧ G.2.totalDegree ≤ p) : (F.1 * G.1 + F.2 * G.2).totalDegree ≤ 2 * p := by
  refine (totalDegree_add _ _).trans (max_le ?_ ?_)
  · have := totalDegree_mul F.1 G.1
    omega
  · have := totalDegree_mul F.2 G.2
    omega

theorem Spec.PiecewisePolynomial.gradient_degree {P : Tri T.nv → MvPolynomial (Fin 2) 𝕜} (h : PiecewisePolynomial T p P)
    {t : Tri T.nv} (ht : t ∈ T.tris) : (T.gradient t (P t)).1.totalDegree ≤ p ∧ (T.gradient t (P t)).2.totalDegree ≤ p := by
  obtain ⟨h1, h2⟩ := totalDegree_gradient t (P t)
  exact ⟨h1.trans (h.degree t ht), h2.trans (h.degree t ht)⟩

theorem totalDegree_linearOn (t : Tri T.nv) (f : Fin T.nv → 𝕜) : (linearOn t f).totalDegree ≤ 1 := by
  have hx : ∀ i : Fin 2, (X i : MvPolynomial (Fin 2) 𝕜).totalDegree ≤ 1 := fun i => (totalDegree_X i).le
  have hc : ∀ (c : 𝕜) (P : MvPolynomial (Fin 2) 𝕜), P.totalDegree ≤ 1 → (C c * P).totalDegree ≤ 1 := fun c P h => by
    have := totalDegree_mul (C c) P
    rw [totalDegree_C] at this
    omega
  unfold linearOn
  refine (totalDegree_add _ _).trans (max_le ((totalDegree_add _ _).trans (max_le (hc _ _ ?_) (hc _ _ (hx 0)))) (hc _ _ (hx 1)))
  refine (totalDegree_sub _ _).trans (max_le ((totalDegree_sub _ _).trans (max_le ?_ (hx 0))) (hx 1))
  rw [totalDegree_one]
  exact Nat.zero_le _

theorem Spec.RaviartThomas.degree {F : Tri T.nv → MvPolynomial (Fin 2) 𝕜 × MvPolynomial (Fin 2) 𝕜} (h : RaviartThomas T p F)
    {t : Tri T.nv} (ht : t ∈ T.tris) : (F t).1.totalDegree ≤ p ∧ (F t).2.totalDegree ≤ p := by
  obtain ⟨a, b, c, ha, hb, hc, e⟩ := h.shape t ht
  rw [e]
  have key : ∀ (a : MvPolynomial (Fin 2) 𝕜) (f : Fin T.nv → 𝕜), a.totalDegree < p → (a + c * linearOn t f).totalDegree ≤ p := by
    intro a f ha
    refine (totalDegree_add _ _).trans (max_le ha.le ?_)
    have := totalDegree_mul c (linearOn t f)
    have := totalDegree_linearOn (T := T) t f
    omega
  exact ⟨key a _ ha, key b _ hb⟩

theorem fieldProduct_same (h : SameIntegrals Q Q' (2 * p)) (eps : Int → 𝕜)
    {F G : Tri T.nv → MvPolynomial (Fin 2) 𝕜 × MvPolynomial (Fin 2) 𝕜}
    (hF : ∀ t ∈ T.tris, (F t).1.totalDegree ≤ p ∧ (F t).2.totalDegree ≤ p)
    (hG : ∀ t ∈ T.tris, (G t).1.totalDegree ≤ p ∧ (G t).2.totalDegree ≤ p) :
    fieldProduct T Q' eps F G = fieldProduct T Q eps F G :=
  congrArg List.sum (List.map_congr_left fun t ht => by rw [tri_same h (totalDegree_dot (hF t ht) (hG t ht))])

theorem absorbed_same {opens : List Int} (h : opens = [] ∨ Q'.seg = Q.seg) (P R : Tri T.nv → MvPolynomial (Fin 2) 𝕜) :
    absorbed T A Q' opens P R = absorbed T A Q opens P R := by
  rcases h with rfl | h
  · simp [absorbed]
  · unfold absorbed
    rw [h]

/-- The discrete field does not depend on the rule. -/
theorem Spec.GalerkinField.rule (h : SameIntegrals Q Q' (2 * p)) (ho : mats.openBoundaries = [] ∨ Q'.seg = Q.seg) {b : Bool}
    {V : Int → 𝕜} {P : Tri T.nv → MvPolynomial (Fin 2) 𝕜} {D : Tri T.nv → MvPolynomial (Fin 2) 𝕜 × MvPolynomial (Fin 2) 𝕜}
    (hf : GalerkinField T A Q' p mats b V P D) : GalerkinField T A Q p mats b V P D where
  potential := hf.potential
  conductors := hf.conductors
  equations R hR hR0 := by
    rw [← hf.equations R hR hR0, fieldProduct_same h _ (fun t ht => hR.gradient_degree ht) (fun t ht => hf.potential.gradient_degree ht),
      absorbed_same (ho.imp_left fun e => by rw [e]; rfl)]
  displacement := hf.displacement
  projection G hG := by
    rw [← fieldProduct_same h _ (fun t ht => hG.degree ht) (fun t ht => hf.displacement.degree ht), hf.projection G hG,
      fieldProduct_same h _ (fun t ht => hG.degree ht) (fun t ht => hf.potential.gradient_degree ht)]

/-! ## From one basis to another -/

variable {S' : Shapes T}

theorem nodalComb_sub (u v : Fin S.n → 𝕜) (t : Tri T.nv) : nodalComb S (fun i => u i - v i) t = nodalComb S u t - nodalComb S v t := by
  unfold nodalComb
  rw [← Finset.sum_sub_distrib]
  exact Finset.sum_congr rfl fun i _ => by rw [C_sub, sub_mul]

theorem nodalComb_add (u v : Fin S.n → 𝕜) (t : Tri T.nv) : nodalComb S (u + v) t = nodalComb S u t + nodalComb S v t := by
  unfold nodalComb
  rw [← Finset.sum_add_distrib]
  exact Finset.sum_congr rfl fun i _ => by rw [Pi.add_apply, C_add, add_mul]

theorem nodalComb_smul (c : 𝕜) (u : Fin S.n → 𝕜) (t : Tri T.nv) : nodalComb S (c • u) t = C c * nodalComb S u t := by
  unfold nodalComb
  rw [Finset.mul_sum]
  exact Finset.sum_congr rfl fun i _ => by rw [Pi.smul_apply, smul_eq_mul, C_mul, mul_assoc]

theorem fluxComb_sub (u v : Fin S.nd → 𝕜) (t : Tri T.nv) : fluxComb S (fun i => u i - v i) t = fluxComb S u t - fluxComb S v t := by
  unfold fluxComb
  refine Prod.ext ?_ ?_ <;>
  · simp only [Prod.fst_sub, Prod.snd_sub]
    rw [← Finset.sum_sub_distrib]
    exact Finset.sum_congr rfl fun i _ => by rw [C_sub, sub_mul]

theorem fluxComb_add (u v : Fin S.nd → 𝕜) (t : Tri T.nv) : fluxComb S (u + v) t = fluxComb S u t + fluxComb S v t := by
  unfold fluxComb
  refine Prod.ext ?_ ?_ <;>
  · simp only [Prod.fst_add, Prod.snd_add]
    rw [← Finset.sum_add_distrib]
    exact Finset.sum_congr rfl fun i _ => by rw [Pi.add_apply, C_add, add_mul]

theorem fluxComb_smul (c : 𝕜) (u : Fin S.nd → 𝕜) (t : Tri T.nv) :
    fluxComb S (c • u) t = (C c * (fluxComb S u t).1, C c * (fluxComb S u t).2) := by
  unfold fluxComb
  refine Prod.ext ?_ ?_ <;>
  · dsimp only
    rw [Finset.mul_sum]
    exact Finset.sum_congr rfl fun i _ => by rw [Pi.smul_apply, smul_eq_mul, C_mul, mul_assoc]

theorem Spec.Elements.nodal_inj (h : Elements S p) {u v : Fin S.n → 𝕜} (e : ∀ t ∈ T.tris, nodalComb S u t = nodalComb S v t) :
    u = v :=
  funext fun i => sub_eq_zero.mp (h.basisN (fun i => u i - v i)
    (fun t ht => (nodalComb_sub u v t).trans (by rw [e t ht, sub_self])) i)

theorem Spec.Elements.flux_inj (h : Elements S p) {u v : Fin S.nd → 𝕜} (e : ∀ t ∈ T.tris, fluxComb S u t = fluxComb S v t) :
    u = v :=
  funext fun i => sub_eq_zero.mp (h.basisR (fun i => u i - v i)
    (fun t ht => Prod.mk.inj ((fluxComb_sub u v t).trans (by rw [e t ht, sub_self]; rfl))) i)

/-- Coefficients of the same functions and fields in the other basis. -/
theorem transfer_exists (h : Elements S p) (hS : Complete S p) (h' : Elements S' p) (hS' : Complete S' p) (hp : 0 < p) :
    ∃ (f : (Fin S'.n → 𝕜) →ₗ[𝕜] (Fin S.n → 𝕜)) (g : (Fin S'.nd → 𝕜) →ₗ[𝕜] (Fin S.nd → 𝕜)),
      (∀ u, ∀ t ∈ T.tris, nodalComb S (f u) t = nodalComb S' u t) ∧ ∀ d, ∀ t ∈ T.tris, fluxComb S (g d) t = fluxComb S' d t := by
  choose f hf using fun u => hS.nodal _ (h'.piecewise u)
  choose g hg using fun d => hS.fluxes _ (hS'.raviartThomas hp d)
  have hf : ∀ u, ∀ t ∈ T.tris, nodalComb S (f u) t = nodalComb S' u t := hf
  have hg : ∀ d, ∀ t ∈ T.tris, fluxComb S (g d) t = fluxComb S' d t := fun d t ht => Prod.ext (hg d t ht).1 (hg d t ht).2
  refine ⟨⟨⟨f, fun u v => h.nodal_inj fun t ht => ?_⟩, fun c u => h.nodal_inj fun t ht => ?_⟩,
    ⟨⟨g, fun u v => h.flux_inj fun t ht => ?_⟩, fun c u => h.flux_inj fun t ht => ?_⟩, hf, hg⟩
  · rw [hf _ t ht, nodalComb_add, nodalComb_add, hf _ t ht, hf _ t ht]
  · dsimp only
    rw [hf _ t ht, RingHom.id_apply, nodalComb_smul, nodalComb_smul, hf _ t ht]
  · rw [hg _ t ht, fluxComb_add, fluxComb_add, hg _ t ht, hg _ t ht]
  · dsimp only
    rw [hg _ t ht, RingHom.id_apply, fluxComb_smul, fluxComb_smul, hg _ t ht]

theorem dom_filter_with (sel : Int → Bool) (g : DomPt 𝕜 S.n S.ne S.nd → 𝕜) :
    (((T.femWith S Q).dom.filter (fun q => sel q.attr)).map g).sum =
      ((T.tris.filter (fun t => sel t.attr)).map (fun t => (Q.tri.map (fun r => g (T.domPoint S t r))).sum)).sum := by
  show (((T.tris.flatMap (fun t => Q.tri.map (T.domPoint S t))).filter
    (fun q : DomPt 𝕜 S.n S.ne S.nd => sel q.attr)).map g).sum = _
  generalize T.tris = l
  induction l with
  | nil => rfl
  | cons s l ih =>
    rw [List.flatMap_cons, List.filter_append, List.map_append, List.sum_append, ih]
    have e : (Q.tri.map (T.domPoint S s)).filter (fun q : DomPt 𝕜 S.n S.ne S.nd => sel q.attr) =
        if sel s.attr then Q.tri.map (T.domPoint S s) else [] := by
      have ha : ∀ q ∈ Q.tri.map (T.domPoint S s), q.attr = s.attr := by
        intro q hq
        obtain ⟨r, _, rfl⟩ := List.mem_map.mp hq
        rfl
      split
      · next h => exact List.filter_eq_self.mpr fun q hq => by rw [ha q hq]; exact h
      · next h => exact List.filter_eq_nil_iff.mpr fun q hq => by rw [ha q hq]; exact h
    rw [e]
    by_cases h : sel s.attr = true
    · rw [if_pos h, List.filter_cons_of_pos (p := fun s : Tri T.nv => sel s.attr) h, List.map_cons, List.sum_cons, List.map_map]
      rfl
    · rw [if_neg h, List.filter_cons_of_neg (p := fun s : Tri T.nv => sel s.attr) h]
      simp

theorem domInt_with (a : Int) (u : Fin S.n → 𝕜) : (T.femWith S Q).domInt a u =
    ((T.tris.filter (fun t => decide (t.attr = a))).map (fun t => T.det t / 2 * triIntegral Q (nodalComb S u t))).sum := by
  refine (domInt_eq (F := T.femWith S Q) a u).trans (Eq.trans (dom_filter_with (S := S) (fun b => decide (b = a)) (fun q => q.w * domValue q u)) ?_)
  refine congrArg List.sum (List.map_congr_left fun t _ => ?_)
  unfold triIntegral
  rw [← List.sum_map_mul_left]
  refine congrArg List.sum (List.map_congr_left fun r _ => ?_)
  unfold nodalComb
  rw [eval_comb]
  show T.det t / 2 * r.1 * ∑ k, eval ![r.2.1, r.2.2] (S.N t k) * u k = _
  simp only [mul_comm _ (u _)]
  ring

theorem bdrInt_with (a : Int) (u : Fin S.n → 𝕜) : (T.femWith S Q).bdrInt a u =
    ((T.segs.filter (fun s => decide (s.attr = a))).map (fun s => ((T.behind s).toList.map (fun t => s.len *
      (Q.seg.map (fun r => r.1 * eval (Triangulation.onSide t s.a s.b (1 - r.2) r.2) (nodalComb S u t))).sum)).sum)).sum := by
  refine (bdrInt_eq (F := T.femWith S Q) a u).trans (Eq.trans (bdr_sum_with (S := S) (fun b => decide (b = a)) (fun q => q.w * bdrValue q u)) ?_)
  refine congrArg List.sum (List.map_congr_left fun s _ => ?_)
  refine congrArg List.sum (List.map_congr_left fun t _ => ?_)
  rw [← List.sum_map_mul_left]
  refine congrArg List.sum (List.map_congr_left fun r _ => ?_)
  unfold nodalComb
  rw [eval_comb]
  show s.len * r.1 * ∑ k, eval (Triangulation.onSide t s.a s.b (1 - r.2) r.2) (S.N t k) * u k = _
  simp only [mul_comm _ (u _)]
  ring

theorem flux_with (sel : Int → Bool) (w : 𝕜 × 𝕜 → 𝕜) (d : Fin S.nd → 𝕜) : (T.femWith S Q).flux sel w d =
    ((T.segs.filter (fun s => sel s.attr)).map (fun s => ((T.behind s).toList.map (fun t =>
      (Q.seg.map (fun r => w ((1 - r.2) * (T.coord s.a).1 + r.2 * (T.coord s.b).1, (1 - r.2) * (T.coord s.a).2 + r.2 * (T.coord s.b).2) *
        (r.1 * eval (Triangulation.onSide t s.a s.b (1 - r.2) r.2)
          (C ((T.coord s.b).2 - (T.coord s.a).2) * (fluxComb S d t).1 - C ((T.coord s.b).1 - (T.coord s.a).1) * (fluxComb S d t).2)))).sum)).sum)).sum := by
  refine (flux_eq (F := T.femWith S Q) sel w d).trans (Eq.trans (bdr_sum_with (S := S) sel (fun q => w q.pos * pointFlux q d)) ?_)
  refine congrArg List.sum (List.map_congr_left fun s _ => ?_)
  refine congrArg List.sum (List.map_congr_left fun t _ => ?_)
  refine congrArg List.sum (List.map_congr_left fun r _ => ?_)
  refine congrArg (w _ * ·) ?_
  unfold fluxComb
  rw [map_sub, map_mul, map_mul, eval_C, eval_C]
  dsimp only
  rw [eval_comb, eval_comb, mul_sub, Finset.mul_sum, Finset.mul_sum, Finset.mul_sum, Finset.mul_sum, ← Finset.sum_sub_distrib]
  refine Finset.sum_congr rfl fun k _ => ?_
  show r.1 * (eval (Triangulation.onSide t s.a s.b (1 - r.2) r.2) (S.R t k).1 * ((T.coord s.b).2 - (T.coord s.a).2) -
    eval (Triangulation.onSide t s.a s.b (1 - r.2) r.2) (S.R t k).2 * ((T.coord s.b).1 - (T.coord s.a).1)) * d k = _
  ring

theorem segs_congr {f g : Seg 𝕜 T.nv → Tri T.nv → 𝕜} (l : List (Seg 𝕜 T.nv)) (h : ∀ s, ∀ t ∈ T.tris, f s t = g s t) :
    (l.map (fun s => ((T.behind s).toList.map (f s)).sum)).sum = (l.map (fun s => ((T.behind s).toList.map (g s)).sum)).sum := by
  refine congrArg List.sum (List.map_congr_left fun s _ => ?_)
  refine congrArg List.sum (List.map_congr_left fun t ht => ?_)
  exact h s t (behind_some (Option.mem_toList.mp ht)).1

/-- All integrals are the same. -/
theorem faithful_with (h : Elements S p) (h' : Elements S' p) (hS' : Complete S' p) (hp : 0 < p) (hQ : SameIntegrals Q Q' (2 * p))
    {τ : Transfer (T.femWith S Q) (T.femWith S' Q')}
    (hf : ∀ u : Fin S'.n → 𝕜, ∀ t ∈ T.tris, nodalComb S (τ.phi u) t = nodalComb S' u t)
    (hg : ∀ d : Fin S'.nd → 𝕜, ∀ t ∈ T.tris, fluxComb S (τ.d d) t = fluxComb S' d t) : Faithful τ (Q'.seg = Q.seg) where
  one := by
    refine h.nodal_inj (v := fun _ => 1) fun t ht => (hf _ t ht).trans ?_
    unfold nodalComb
    simp only [C_1, one_mul]
    rw [h.unity t ht, h'.unity t ht]
  flux sel c D := by
    refine (flux_with (S := S') sel _ D).trans (Eq.trans (segs_congr _ fun s t ht => ?_) (flux_with (S := S) sel _ (τ.d D)).symm)
    rw [hg D t ht, List.sum_map_mul_left, List.sum_map_mul_left]
    congr 1
    refine side_same hQ ?_ t s.a s.b
    have hd := (hS'.raviartThomas hp D).degree ht
    have hc : ∀ (c : 𝕜) (P : MvPolynomial (Fin 2) 𝕜), P.totalDegree ≤ p → (C c * P).totalDegree ≤ 2 * p := fun c P h => by
      have := totalDegree_mul (C c) P
      rw [totalDegree_C] at this
      omega
    exact (totalDegree_sub _ _).trans (max_le (hc _ _ hd.1) (hc _ _ hd.2))
  weighted hw sel f D := by
    refine (flux_with (S := S') sel _ D).trans (Eq.trans (segs_congr _ fun s t ht => ?_) (flux_with (S := S) sel _ (τ.d D)).symm)
    rw [hg D t ht, hw]
  domInt a u := by
    refine (domInt_with (S := S') a u).trans (Eq.trans ?_ (domInt_with (S := S) a (τ.phi u)).symm)
    refine congrArg List.sum (List.map_congr_left fun t ht => ?_)
    have ht := (List.mem_filter.mp ht).1
    rw [hf u t ht, tri_same hQ (((h'.piecewise u).degree t ht).trans (by omega))]
  bdrInt a u := by
    refine (bdrInt_with (S := S') a u).trans (Eq.trans (segs_congr _ fun s t ht => ?_) (bdrInt_with (S := S) a (τ.phi u)).symm)
    rw [hf u t ht, side_same hQ (((h'.piecewise u).degree t ht).trans (by omega))]

end
end Tulip
