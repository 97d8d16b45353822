import Verif.Proofs.Plane

/-!
# Fields on refined meshes
-/

set_option linter.unusedSectionVars false

namespace Tulip
open Spec MvPolynomial

section
variable {𝕜 : Type} [Field 𝕜] [LinearOrder 𝕜] [IsStrictOrderedRing 𝕜] {T T' : Triangulation 𝕜} {Q Q' : Rule 𝕜} {m p p' : Nat}
  {old : Fin T.nv → Fin T'.nv} {parent : Tri T'.nv → Tri T.nv} {P R : Tri T.nv → MvPolynomial (Fin 2) 𝕜} {mats : Materials 𝕜}
  {A A' : Analytic 𝕜}

/-- A function on a mesh, on a refinement. -/
noncomputable def restrict (T T' : Triangulation 𝕜) (parent : Tri T'.nv → Tri T.nv) (P : Tri T.nv → MvPolynomial (Fin 2) 𝕜) :
    Tri T'.nv → MvPolynomial (Fin 2) 𝕜 := fun t' => fromPlane T' t' (toPlane T (parent t') (P (parent t')))

theorem fromPlane_point (t : Tri T.nv) (x : Fin 2 → 𝕜) (G : MvPolynomial (Fin 2) 𝕜) :
    eval x (fromPlane T t G) = eval ![(position T t x).1, (position T t x).2] G := by
  have : ((eval x).comp (fromPlane T t).toRingHom : MvPolynomial (Fin 2) 𝕜 →+* 𝕜) = eval ![(position T t x).1, (position T t x).2] := by
    refine ringHom_ext (fun c => ?_) (Fin.forall_fin_two.mpr ⟨?_, ?_⟩)
    · rw [RingHom.comp_apply, eval_C]
      exact (congrArg _ (fromPlane_C t c)).trans (eval_C c)
    · rw [RingHom.comp_apply, eval_X]
      exact congrArg _ (fromPlane_X0 t)
    · rw [RingHom.comp_apply, eval_X]
      exact congrArg _ (fromPlane_X1 t)
  exact congrArg (fun f => f G) this

theorem restrict_same (hT : Proper T) (h : Refines T T' old parent) (P : Tri T.nv → MvPolynomial (Fin 2) 𝕜) :
    SameFunction T T' parent P (restrict T T' parent P) := by
  intro t' ht' x x' e
  unfold restrict
  rw [fromPlane_point, e, ← fromPlane_point, fromPlane_toPlane (hT.area _ (h.parents t' ht')).ne']

/-- Values in the plane, on a side. -/
theorem toPlane_eval {t : Tri T.nv} (hd : T.det t ≠ 0) {v w : Fin T.nv} (hv : IsVertex t v) (hw : IsVertex t w) {x y : 𝕜}
    (hxy : x + y = 1) (G : MvPolynomial (Fin 2) 𝕜) :
    eval ![x * (T.coord v).1 + y * (T.coord w).1, x * (T.coord v).2 + y * (T.coord w).2] (toPlane T t G) =
      eval (Triangulation.onSide t v w x y) G := by
  rw [← fromPlane_eval hd hv hw hxy, fromPlane_toPlane hd]

/-- Points between points of a line are on the line. -/
theorem onLine_between {a b X Y : 𝕜 × 𝕜} (hX : OnLine a b X) (hY : OnLine a b Y) {x y : 𝕜} (hxy : x + y = 1) :
    ∃ s : 𝕜, x * X.1 + y * Y.1 = (1 - s) * a.1 + s * b.1 ∧ x * X.2 + y * Y.2 = (1 - s) * a.2 + s * b.2 := by
  obtain ⟨s, rfl⟩ := hX
  obtain ⟨u, rfl⟩ := hY
  refine ⟨x * s + y * u, ?_, ?_⟩
  · dsimp only
    linear_combination a.1 * hxy
  · dsimp only
    linear_combination a.2 * hxy

theorem restrict_piecewise (hT : Proper T) (hT' : Proper T') (h : Refines T T' old parent) (hP : PiecewisePolynomial T p P) :
    PiecewisePolynomial T' p (restrict T T' parent P) where
  degree t' ht' := (fromPlane_degree _ _).trans ((toPlane_degree _ _).trans (hP.degree _ (h.parents t' ht')))
  continuous t ht t' ht' v w h1 h2 h3 h4 x y hxy := by
    unfold restrict
    rw [fromPlane_eval (hT'.area t ht).ne' h1 h2 hxy, fromPlane_eval (hT'.area t' ht').ne' h3 h4 hxy]
    by_cases e : parent t = parent t'
    · rw [e]
    · obtain ⟨a, b, a1, b1, a2, b2, lv, lw⟩ := h.common t ht t' ht' e v w h1 h2 h3 h4
      obtain ⟨s, e1, e2⟩ := onLine_between lv lw hxy
      rw [e1, e2, toPlane_eval (hT.area _ (h.parents t ht)).ne' a1 b1 (by ring), toPlane_eval (hT.area _ (h.parents t' ht')).ne' a2 b2 (by ring)]
      exact hP.continuous _ (h.parents t ht) _ (h.parents t' ht') a b a1 b1 a2 b2 _ _ (by ring)

theorem restrict_constant (hT : Proper T) (hT' : Proper T') (h : Refines T T' old parent) {tag : Int} {c : 𝕜} (hP : ConstantOn T P tag c) :
    ConstantOn T' (restrict T T' parent P) tag c := by
  intro s' hs' hs t' ht' hside x y hxy
  obtain ⟨s, hsm, e, hpar, la, lb⟩ := h.boundary s' hs' t' ht' hside
  obtain ⟨va, vb⟩ := side_vertices hside
  obtain ⟨wa, wb⟩ := side_vertices hpar
  obtain ⟨u, e1, e2⟩ := onLine_between la lb hxy
  unfold restrict
  rw [fromPlane_eval (hT'.area t' ht').ne' va vb hxy, e1, e2, toPlane_eval (hT.area _ (h.parents t' ht')).ne' wa wb (by ring)]
  exact hP s hsm (e.trans hs) _ (h.parents t' ht') hpar _ _ (by ring)

theorem restrict_gradient (hT' : Proper T') {t' : Tri T'.nv} (ht' : t' ∈ T'.tris) :
    T'.gradient t' (restrict T T' parent P t') = (fromPlane T' t' (pderiv 0 (toPlane T (parent t') (P (parent t')))),
      fromPlane T' t' (pderiv 1 (toPlane T (parent t') (P (parent t'))))) := gradient_fromPlane (hT'.area t' ht').ne' _

theorem conforming_nodup (hc : Conforming T) : T.tris.Nodup := by
  have := (List.nodup_flatMap.mp hc.sides).2
  refine List.Pairwise.imp (fun {t t'} h e => ?_) this
  subst e
  exact h (List.mem_cons_self .. : (t.a, t.b) ∈ t.sides) (List.mem_cons_self ..)

/-- Sums over the parts of all triangles. -/
theorem sum_parents (l : List (Tri T'.nv)) (hp : ∀ t' ∈ l, parent t' ∈ T.tris) (hn : T.tris.Nodup) (f : Tri T'.nv → 𝕜) :
    (l.map f).sum = (T.tris.map (fun t => ((l.filter (fun t' => parent t' = t)).map f).sum)).sum := by
  induction l with
  | nil => simp
  | cons t' l ih =>
    rw [List.map_cons, List.sum_cons, ih fun t ht => hp t (List.mem_cons_of_mem _ ht)]
    have key : ∀ ts : List (Tri T.nv), ts.Nodup → (ts.map (fun t => (((t' :: l).filter (fun t' => parent t' = t)).map f).sum)).sum =
        (if parent t' ∈ ts then f t' else 0) + (ts.map (fun t => ((l.filter (fun t' => parent t' = t)).map f).sum)).sum := by
      intro ts hts
      induction ts with
      | nil => simp
      | cons t ts ih =>
        have hts := List.nodup_cons.mp hts
        simp only [List.map_cons, List.sum_cons]
        rw [ih hts.2]
        by_cases e : parent t' = t
        · rw [List.filter_cons_of_pos (by simpa using e), List.map_cons, List.sum_cons, 
            if_neg (show parent t' ∉ ts from e ▸ hts.1), if_pos (show parent t' ∈ t :: ts from e ▸ List.mem_cons_self ..)]
          ring
        · rw [List.filter_cons_of_neg (by simpa using e)]
          have : (parent t' ∈ t :: ts) ↔ parent t' ∈ ts := by simp [e]
          simp only [this]
          ring
    rw [key _ hn, if_pos (hp t' (List.mem_cons_self ..))]

/-- The energy of a field does not change when the mesh is refined. -/
theorem fieldProduct_refined (hT : Proper T) (hT' : Proper T') (hc : Conforming T) (h : Refines T T' old parent)
    (hQ : ExactRule Q (2 * p)) (hQ' : ExactRule Q' (2 * p)) (hp : 1 ≤ p) (eps : Int → 𝕜) (hP : PiecewisePolynomial T p P)
    (hR : PiecewisePolynomial T p R) :
    fieldProduct T' Q' eps (fun t => T'.gradient t (restrict T T' parent P t)) (fun t => T'.gradient t (restrict T T' parent R t)) =
      fieldProduct T Q eps (fun t => T.gradient t (P t)) (fun t => T.gradient t (R t)) := by
  unfold fieldProduct
  rw [sum_parents T'.tris h.parents (conforming_nodup hc)]
  refine congrArg List.sum (List.map_congr_left fun t ht => ?_)
  have hd := (hT.area t ht).ne'
  set H : MvPolynomial (Fin 2) 𝕜 := pderiv 0 (toPlane T t (P t)) * pderiv 0 (toPlane T t (R t)) +
    pderiv 1 (toPlane T t (P t)) * pderiv 1 (toPlane T t (R t)) with hH
  have hdeg : H.totalDegree + 1 ≤ 2 * p := by
    have d : ∀ i : Fin 2, (pderiv i (toPlane T t (P t)) * pderiv i (toPlane T t (R t))).totalDegree ≤ 2 * p - 1 := fun i => by
      have := pderiv_degree ((toPlane_degree t _).trans (hP.degree t ht)) i
      have := pderiv_degree ((toPlane_degree t _).trans (hR.degree t ht)) i
      have := totalDegree_mul (pderiv i (toPlane T t (P t))) (pderiv i (toPlane T t (R t)))
      omega
    have := (totalDegree_add (pderiv 0 (toPlane T t (P t)) * pderiv 0 (toPlane T t (R t)))
      (pderiv 1 (toPlane T t (P t)) * pderiv 1 (toPlane T t (R t)))).trans (max_le (d 0) (d 1))
    rw [← hH] at this
    omega
  have hparts := integral_parts hQ hQ' h.coord hd (fun t' ht' => (hT'.area t' (List.mem_of_mem_filter ht')).ne') (h.dissected t ht) hdeg
  have e1 : T.gradient t (P t) = (fromPlane T t (pderiv 0 (toPlane T t (P t))), fromPlane T t (pderiv 1 (toPlane T t (P t)))) := by
    rw [← gradient_fromPlane hd, fromPlane_toPlane hd]
  have e2 : T.gradient t (R t) = (fromPlane T t (pderiv 0 (toPlane T t (R t))), fromPlane T t (pderiv 1 (toPlane T t (R t)))) := by
    rw [← gradient_fromPlane hd, fromPlane_toPlane hd]
  dsimp only
  rw [e1, e2]
  dsimp only
  have hF : ∀ {U : Triangulation 𝕜} (u : Tri U.nv), fromPlane U u (pderiv 0 (toPlane T t (P t))) * fromPlane U u (pderiv 0 (toPlane T t (R t))) +
      fromPlane U u (pderiv 1 (toPlane T t (P t))) * fromPlane U u (pderiv 1 (toPlane T t (R t))) = fromPlane U u H := fun u => by
    rw [hH, map_add, map_mul, map_mul]
  rw [hF, mul_right_comm, ← hparts, mul_comm, ← List.sum_map_mul_left]
  refine congrArg List.sum (List.map_congr_left fun t' ht' => ?_)
  have hm := List.mem_of_mem_filter ht'
  have hpar : parent t' = t := by simpa using (List.mem_filter.mp ht').2
  rw [restrict_gradient hT' hm, restrict_gradient hT' hm, h.material t' hm, hpar]
  dsimp only
  rw [hF]
  ring

/-- **Energy and refinement.** -/
theorem galerkin_refined (hpp : p ≤ p') (hp : 1 ≤ p) (hT : Proper T) (hT' : Proper T') (hc : Conforming T) (h : Refines T T' old parent)
    (hA : Adequate Q' p') (hm : ∀ d ∈ mats.dielectrics, 0 < d.relativePermittivity) (ho : mats.openBoundaries = [])
    (hQ : ExactRule Q (2 * p)) (hQ' : ExactRule Q' (2 * p)) {b : Bool} {V : Int → 𝕜} {P' : Tri T'.nv → MvPolynomial (Fin 2) 𝕜}
    {D : Tri T.nv → MvPolynomial (Fin 2) 𝕜 × MvPolynomial (Fin 2) 𝕜} {D' : Tri T'.nv → MvPolynomial (Fin 2) 𝕜 × MvPolynomial (Fin 2) 𝕜}
    (hG : GalerkinField T A Q p mats b V P D) (hG' : GalerkinField T' A' Q' p' mats b V P' D') :
    fieldProduct T' Q' (declaredEps mats b) (fun t => T'.gradient t (P' t)) (fun t => T'.gradient t (P' t)) ≤
      fieldProduct T Q (declaredEps mats b) (fun t => T.gradient t (P t)) (fun t => T.gradient t (P t)) ∧
    (fieldProduct T' Q' (declaredEps mats b) (fun t => T'.gradient t (P' t)) (fun t => T'.gradient t (P' t)) =
      fieldProduct T Q (declaredEps mats b) (fun t => T.gradient t (P t)) (fun t => T.gradient t (P t)) →
      ∀ t ∈ T'.tris, T'.gradient t (restrict T T' parent P t) = T'.gradient t (P' t)) := by
  have hP : PiecewisePolynomial T' p' (fun t => restrict T T' parent P t - P' t) :=
    ((restrict_piecewise hT hT' h hG.potential).mono hpp).sub hG'.potential
  have horth := hG'.equations _ hP fun c hc => (restrict_constant hT hT' h (hG.conductors c hc)).sub (hG'.conductors c hc)
  rw [ho] at horth
  have habs : absorbed T' A' Q' (([] : List OpenBoundary).map OpenBoundary.tag) (fun t => restrict T T' parent P t - P' t) P' = 0 := by
    simp [absorbed]
  rw [habs, add_zero] at horth
  have hsq := fieldProduct_square (Q := Q') (declaredEps mats b) (fun t => T'.gradient t (restrict T T' parent P t)) (fun t => T'.gradient t (P' t))
  have hg : (fun t => T'.gradient t (restrict T T' parent P t - P' t)) =
      fun t => ((T'.gradient t (restrict T T' parent P t)).1 - (T'.gradient t (P' t)).1,
        (T'.gradient t (restrict T T' parent P t)).2 - (T'.gradient t (P' t)).2) := funext fun t => gradient_sub t _ _
  rw [← hg, horth, mul_zero, add_zero, fieldProduct_refined hT hT' hc h hQ hQ' hp _ hG.potential hG.potential] at hsq
  have heps := declaredEps_pos hm b
  have hnn := fieldProduct_nonneg hT' hA.tri heps (fun t => T'.gradient t (restrict T T' parent P t - P' t))
  refine ⟨by rw [hsq]; exact le_add_of_nonneg_right hnn, fun e t ht => ?_⟩
  rw [hsq] at e
  have h0 := fieldProduct_eq_zero hT' hA heps (fun t ht => hP.gradient_degree ht) (left_eq_add.mp e) t ht
  rw [gradient_sub] at h0
  exact Prod.ext (sub_eq_zero.mp (congrArg Prod.fst h0)) (sub_eq_zero.mp (congrArg Prod.snd h0))

end
end Tulip
