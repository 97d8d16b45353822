import Verif.Proofs.Shrunk
import Verif.Proofs.GalerkinLimit

/-!
# Functions that are polynomials in each triangle
-/

namespace Tulip
open MeasureTheory Set Spec MvPolynomial

/-- A polynomial that vanishes on a segment vanishes on its line. -/
theorem line_zero {D : MvPolynomial (Fin 2) ℝ} {a b : ℝ × ℝ} (h : ∀ x y : ℝ, 0 ≤ x → 0 ≤ y → x + y = 1 → polyAt D (x • a + y • b) = 0) {x y : ℝ}
    (hxy : x + y = 1) : polyAt D (x • a + y • b) = 0 := by
  let F : Polynomial ℝ := aeval ![Polynomial.X * Polynomial.C a.1 + (1 - Polynomial.X) * Polynomial.C b.1,
    Polynomial.X * Polynomial.C a.2 + (1 - Polynomial.X) * Polynomial.C b.2] D
  have hF : ∀ r : ℝ, F.eval r = polyAt D (r • a + (1 - r) • b) := by
    intro r
    have : ((Polynomial.evalRingHom r).comp (aeval ![Polynomial.X * Polynomial.C a.1 + (1 - Polynomial.X) * Polynomial.C b.1,
        Polynomial.X * Polynomial.C a.2 + (1 - Polynomial.X) * Polynomial.C b.2] : MvPolynomial (Fin 2) ℝ →ₐ[ℝ] Polynomial ℝ).toRingHom) =
        eval ![(r • a + (1 - r) • b).1, (r • a + (1 - r) • b).2] := by
      refine ringHom_ext (fun c => ?_) (Fin.forall_fin_two.mpr ⟨?_, ?_⟩)
      · simp
      · simp
        ring
      · simp
        ring
    exact congrArg (fun g : MvPolynomial (Fin 2) ℝ →+* ℝ => g D) this
  have hzero : F = 0 := by
    refine Polynomial.eq_zero_of_infinite_isRoot F ((Icc_infinite (zero_lt_one (α := ℝ))).mono fun r hr => ?_)
    show F.eval r = 0
    rw [hF]
    exact h r (1 - r) hr.1 (by linarith [hr.2]) (by ring)
  have := hF x
  rw [hzero, Polynomial.eval_zero] at this
  rw [show y = 1 - x by linarith]
  exact this.symm

section
variable {T : Triangulation ℝ} {Q : Rule ℝ} {p : Nat} {mats : Materials ℝ} {A : Analytic ℝ} {P : Tri T.nv → MvPolynomial (Fin 2) ℝ}
  {D : Tri T.nv → MvPolynomial (Fin 2) ℝ × MvPolynomial (Fin 2) ℝ} {V : Int → ℝ} {b : Bool} {v : ℝ × ℝ → ℝ}
  {G : Tri T.nv → MvPolynomial (Fin 2) ℝ}

theorem polyAt_fromPlane {t : Tri T.nv} (hd : T.det t ≠ 0) {v w : Fin T.nv} (hv : IsVertex t v) (hw : IsVertex t w) {x y : ℝ} (hxy : x + y = 1)
    (H : MvPolynomial (Fin 2) ℝ) : eval (Triangulation.onSide t v w x y) (fromPlane T t H) = polyAt H (x • T.coord v + y • T.coord w) := by
  rw [fromPlane_eval hd hv hw hxy]
  rfl

theorem pieces_piecewise (hT : Proper T) (hG : ∀ t ∈ T.tris, (G t).totalDegree ≤ p) (hv : ∀ t ∈ T.tris, ∀ x ∈ triangle T t, v x = polyAt (G t) x) :
    PiecewisePolynomial T p (fun t => fromPlane T t (G t)) where
  degree t ht := (fromPlane_degree t _).trans (hG t ht)
  continuous t ht t' ht' i j h1 h2 h3 h4 x y hxy := by
    rw [polyAt_fromPlane (hT.area t ht).ne' h1 h2 hxy, polyAt_fromPlane (hT.area t' ht').ne' h3 h4 hxy]
    have := line_zero (D := G t - G t') (a := T.coord i) (b := T.coord j) (fun x y hx hy hxy => ?_) hxy
    · unfold polyAt at this ⊢
      rw [map_sub] at this
      exact sub_eq_zero.mp this
    · have m1 : x • T.coord i + y • T.coord j ∈ triangle T t :=
        (triangle_convex t) (vertex_mem h1) (vertex_mem h2) hx hy hxy
      have m2 : x • T.coord i + y • T.coord j ∈ triangle T t' :=
        (triangle_convex t') (vertex_mem h3) (vertex_mem h4) hx hy hxy
      have := (hv t ht _ m1).symm.trans (hv t' ht' _ m2)
      unfold polyAt at this ⊢
      rw [map_sub]
      exact sub_eq_zero.mpr this

theorem pieces_constant (hT : Proper T) (hv : ∀ t ∈ T.tris, ∀ x ∈ triangle T t, v x = polyAt (G t) x) {tag : Int} {c : ℝ}
    (hc : ∀ x ∈ boundaryPart T tag, v x = c) : ConstantOn T (fun t => fromPlane T t (G t)) tag c := by
  intro s hs e t ht hst x y hxy
  obtain ⟨va, vb⟩ := side_vertices hst
  rw [polyAt_fromPlane (hT.area t ht).ne' va vb hxy]
  have := line_zero (D := G t - C c) (a := T.coord s.a) (b := T.coord s.b) (fun x y hx hy hxy => ?_) hxy
  · unfold polyAt at this ⊢
    rw [map_sub, eval_C] at this
    exact sub_eq_zero.mp this
  · have m : x • T.coord s.a + y • T.coord s.b ∈ triangle T t := (triangle_convex t) (vertex_mem va) (vertex_mem vb) hx hy hxy
    have := (hv t ht _ m).symm.trans (hc _ ⟨s, hs, e, x, y, hx, hy, hxy, rfl⟩)
    unfold polyAt at this ⊢
    rw [map_sub, eval_C]
    exact sub_eq_zero.mpr this

theorem energy_congr {v v' : ℝ × ℝ → ℝ} (h : ∀ x ∈ covered T, v x = v' x) (eps : Int → ℝ) : potentialEnergy T eps v = potentialEnergy T eps v' := by
  unfold potentialEnergy
  refine congrArg List.sum (List.map_congr_left fun t ht => ?_)
  congr 1
  rw [← integral_interior (triangle_convex t) (triangle_closed t), ← integral_interior (triangle_convex t) (triangle_closed t)]
  refine setIntegral_congr_fun isOpen_interior.measurableSet fun x hx => ?_
  have : fderiv ℝ v x = fderiv ℝ v' x := by
    refine Filter.EventuallyEq.fderiv_eq ?_
    filter_upwards [isOpen_interior.mem_nhds hx] with y hy
    exact h y ⟨t, ht, interior_subset hy⟩
  simp only [this]

/-- A potential that is a polynomial of the order of the elements in each triangle has no less energy than the discrete field. -/
theorem pieces_least (hT : Proper T) (hE : Embedded T) (hp : 1 ≤ p) (hA : Adequate Q p) (hQ : ExactRule Q (2 * p))
    (hm : ∀ d ∈ mats.dielectrics, 0 < d.relativePermittivity) (ho : mats.openBoundaries = []) (hF : GalerkinField T A Q p mats b V P D)
    (hG : ∀ t ∈ T.tris, (G t).totalDegree ≤ p) (hv : ∀ t ∈ T.tris, ∀ x ∈ triangle T t, v x = polyAt (G t) x)
    (hV : ∀ c ∈ mats.pecs, ∀ x ∈ boundaryPart T c.tag, v x = V c.tag) :
    2⁻¹ * fieldProduct T Q (declaredEps mats b) (fun t => T.gradient t (P t)) (fun t => T.gradient t (P t)) ≤
      potentialEnergy T (declaredEps mats b) v := by
  have h1 := pieces_piecewise hT hG hv
  have h2 : ∀ c ∈ mats.pecs, ConstantOn T (fun t => fromPlane T t (G t)) c.tag (V c.tag) := fun c hc => pieces_constant hT hv (hV c hc)
  obtain ⟨v', -, e2, e3⟩ := galerkin_potential hT hE hp hQ h1 h2 (declaredEps mats b)
  have hle := galerkin_least hT hA hm ho hF h1 h2
  rw [energy_congr (v := v) (v' := v'), e3]
  · linarith
  · rintro x ⟨t, ht, hx⟩
    rw [hv t ht x hx, e2 t ht x hx]
    have hd := (hT.area t ht).ne'
    unfold triangle at hx
    rw [← triMap_image] at hx
    obtain ⟨y, -, rfl⟩ := hx
    rw [polyAt_triMap, polyAt_triMap, fromPlane_toPlane hd]

end

section
variable {T T' : Triangulation ℝ} {v : ℝ × ℝ → ℝ} {L c : ℝ} {k : Int} {p : Nat}

theorem nested_pieces (hT' : Proper T') (hs : Enlarged T T' k) (hn : Nested T T') (h : Slopes T L v) (hL : 0 ≤ L) (hk : ∀ x ∈ boundaryPart T k, v x = c)
    {H : Tri T.nv → MvPolynomial (Fin 2) ℝ} (hH : ∀ t ∈ T.tris, (H t).totalDegree ≤ p) (hv : ∀ t ∈ T.tris, ∀ x ∈ triangle T t, v x = polyAt (H t) x) :
    ∃ G : Tri T'.nv → MvPolynomial (Fin 2) ℝ, ∀ q ∈ T'.tris, (G q).totalDegree ≤ p ∧ ∀ x ∈ triangle T' q, extended T c v x = polyAt (G q) x := by
  have key : ∀ q ∈ T'.tris, ∃ G : MvPolynomial (Fin 2) ℝ, G.totalDegree ≤ p ∧ ∀ x ∈ triangle T' q, extended T c v x = polyAt G x := by
    intro q hq
    rcases hn q hq with ⟨t, ht, hsub⟩ | hd
    · refine ⟨H t, hH t ht, fun x hx => ?_⟩
      rw [extended_on ⟨t, ht, hsub hx⟩, hv t ht x (hsub hx)]
    · refine ⟨C c, by rw [totalDegree_C]; exact Nat.zero_le _, ?_⟩
      have hcont : ContinuousOn (extended T c v) (triangle T' q) := (slopes_lipschitz (extended_slopes hs h hL hk) hL hq).continuousOn
      have heq : EqOn (extended T c v) (fun _ => c) (interior (triangle T' q)) := fun x hx => extended_off (Set.disjoint_left.mp hd hx)
      have hcl : triangle T' q ⊆ closure (interior (triangle T' q)) := by
        rw [(triangle_convex q).closure_interior_eq_closure_of_nonempty_interior (triangle_interior (hT'.area q hq))]
        exact subset_closure
      intro x hx
      rw [polyAt_C]
      exact heq.of_subset_closure hcont continuousOn_const interior_subset hcl hx
  choose! G hG using key
  exact ⟨G, hG⟩

end
end Tulip
