import Verif.Proofs.Green

/-!
# Polynomials in a triangle as polynomials in the plane
-/

set_option linter.unusedSectionVars false

namespace Tulip
open Spec MvPolynomial

section
variable {𝕜 : Type} [Field 𝕜] [LinearOrder 𝕜] [IsStrictOrderedRing 𝕜] {T T' : Triangulation 𝕜} {Q Q' : Rule 𝕜} {m : Nat}

/-- A polynomial in the plane, in the coordinates of a triangle. -/
noncomputable def fromPlane (T : Triangulation 𝕜) (t : Tri T.nv) : MvPolynomial (Fin 2) 𝕜 →ₐ[𝕜] MvPolynomial (Fin 2) 𝕜 :=
  aeval ![linearOn t (fun v => (T.coord v).1), linearOn t (fun v => (T.coord v).2)]

/-- A barycentric coordinate of a triangle as a function in the plane (for `t.b` and `t.c`). -/
noncomputable def planeBary (T : Triangulation 𝕜) (t : Tri T.nv) (k : Fin T.nv) : MvPolynomial (Fin 2) 𝕜 :=
  C (T.gradHat t k).1 * (X 0 - C (T.coord t.a).1) + C (T.gradHat t k).2 * (X 1 - C (T.coord t.a).2)

/-- A polynomial in the coordinates of a triangle, in the plane. -/
noncomputable def toPlane (T : Triangulation 𝕜) (t : Tri T.nv) : MvPolynomial (Fin 2) 𝕜 →ₐ[𝕜] MvPolynomial (Fin 2) 𝕜 :=
  aeval ![planeBary T t t.b, planeBary T t t.c]

theorem fromPlane_X0 (t : Tri T.nv) : fromPlane T t (X 0) = linearOn t (fun v => (T.coord v).1) := by
  unfold fromPlane
  rw [aeval_X]
  rfl

theorem fromPlane_X1 (t : Tri T.nv) : fromPlane T t (X 1) = linearOn t (fun v => (T.coord v).2) := by
  unfold fromPlane
  rw [aeval_X]
  rfl

theorem fromPlane_C (t : Tri T.nv) (c : 𝕜) : fromPlane T t (C c) = C c := aeval_C _ _

theorem fromPlane_bary {t : Tri T.nv} (h : T.det t ≠ 0) : fromPlane T t (planeBary T t t.b) = X 0 ∧ fromPlane T t (planeBary T t t.c) = X 1 := by
  obtain ⟨h1, h2, h3⟩ := det_ne h
  have b1 := gradHat_difference h t.b (.inl rfl : IsVertex t t.a) (.inr (.inl rfl) : IsVertex t t.b)
  have b2 := gradHat_difference h t.b (.inl rfl : IsVertex t t.a) (.inr (.inr rfl) : IsVertex t t.c)
  have c1 := gradHat_difference h t.c (.inl rfl : IsVertex t t.a) (.inr (.inl rfl) : IsVertex t t.b)
  have c2 := gradHat_difference h t.c (.inl rfl : IsVertex t t.a) (.inr (.inr rfl) : IsVertex t t.c)
  simp only [h1, h2, h2.symm, h3.symm, if_true, if_false, inner2, sub_zero] at b1 b2 c1 c2
  have lift : ∀ {a b : 𝕜}, a = b → (C a : MvPolynomial (Fin 2) 𝕜) = C b := fun e => congrArg C e
  have b1 := lift b1
  have b2 := lift b2
  have c1 := lift c1
  have c2 := lift c2
  simp only [map_add, map_mul, map_sub, map_one, map_zero] at b1 b2 c1 c2
  unfold planeBary
  simp only [map_add, map_mul, map_sub, fromPlane_C, fromPlane_X0, fromPlane_X1]
  unfold linearOn
  constructor
  · linear_combination X 0 * b1 + X 1 * b2
  · linear_combination X 0 * c1 + X 1 * c2

theorem fromPlane_toPlane {t : Tri T.nv} (h : T.det t ≠ 0) (P : MvPolynomial (Fin 2) 𝕜) : fromPlane T t (toPlane T t P) = P := by
  have : (fromPlane T t).comp (toPlane T t) = AlgHom.id 𝕜 _ := by
    refine algHom_ext (Fin.forall_fin_two.mpr ⟨?_, ?_⟩)
    · rw [AlgHom.comp_apply]
      unfold toPlane
      rw [aeval_X]
      exact (fromPlane_bary h).1
    · rw [AlgHom.comp_apply]
      unfold toPlane
      rw [aeval_X]
      exact (fromPlane_bary h).2
  exact congrArg (fun f => f P) this

theorem degree_linear {f : Fin 2 → MvPolynomial (Fin 2) 𝕜} (hb : ∀ i, (f i).totalDegree ≤ 1) (P : MvPolynomial (Fin 2) 𝕜) :
    (aeval (R := 𝕜) f P).totalDegree ≤ P.totalDegree := by
  classical
  rw [aeval_def, eval₂_eq']
  refine totalDegree_finsetSum_le fun d hd => ?_
  refine (totalDegree_mul _ _).trans ?_
  rw [algebraMap_eq, totalDegree_C, zero_add]
  refine (totalDegree_finsetProd _ _).trans ?_
  refine (Finset.sum_le_sum fun i _ => (totalDegree_pow _ _).trans ((Nat.mul_le_mul_left _ (hb i)).trans (by rw [mul_one]))).trans ?_
  refine le_trans ?_ (le_totalDegree hd)
  rw [Finsupp.sum_fintype _ _ fun _ => rfl]

theorem fromPlane_degree (t : Tri T.nv) (P : MvPolynomial (Fin 2) 𝕜) : (fromPlane T t P).totalDegree ≤ P.totalDegree :=
  degree_linear (f := ![linearOn t (fun v => (T.coord v).1), linearOn t (fun v => (T.coord v).2)])
    (Fin.forall_fin_two.mpr ⟨totalDegree_linearOn t (fun v => (T.coord v).1), totalDegree_linearOn t (fun v => (T.coord v).2)⟩) P

theorem planeBary_degree (t : Tri T.nv) (k : Fin T.nv) : (planeBary T t k).totalDegree ≤ 1 := by
  have hx : ∀ (i : Fin 2) (c : 𝕜), (X i - C c : MvPolynomial (Fin 2) 𝕜).totalDegree ≤ 1 := fun i c =>
    (totalDegree_sub _ _).trans (max_le (totalDegree_X i).le (by rw [totalDegree_C]; exact Nat.zero_le _))
  have hm : ∀ (a c : 𝕜) (i : Fin 2), (C a * (X i - C c) : MvPolynomial (Fin 2) 𝕜).totalDegree ≤ 1 := fun a c i => by
    refine (totalDegree_mul _ _).trans ?_
    rw [totalDegree_C, zero_add]
    exact hx i c
  exact (totalDegree_add _ _).trans (max_le (hm _ _ _) (hm _ _ _))

theorem toPlane_degree (t : Tri T.nv) (P : MvPolynomial (Fin 2) 𝕜) : (toPlane T t P).totalDegree ≤ P.totalDegree :=
  degree_linear (Fin.forall_fin_two.mpr ⟨planeBary_degree t _, planeBary_degree t _⟩) P

theorem fromPlane_eval {t : Tri T.nv} (h : T.det t ≠ 0) {v w : Fin T.nv} (hv : IsVertex t v) (hw : IsVertex t w) {x y : 𝕜}
    (hxy : x + y = 1) (G : MvPolynomial (Fin 2) 𝕜) : eval (Triangulation.onSide t v w x y) (fromPlane T t G) =
      eval ![x * (T.coord v).1 + y * (T.coord w).1, x * (T.coord v).2 + y * (T.coord w).2] G := by
  have : ((eval (Triangulation.onSide t v w x y)).comp (fromPlane T t).toRingHom : MvPolynomial (Fin 2) 𝕜 →+* 𝕜) =
      eval ![x * (T.coord v).1 + y * (T.coord w).1, x * (T.coord v).2 + y * (T.coord w).2] := by
    refine ringHom_ext (fun c => ?_) (Fin.forall_fin_two.mpr ⟨?_, ?_⟩)
    · rw [RingHom.comp_apply, eval_C]
      exact (congrArg _ (fromPlane_C t c)).trans (eval_C c)
    · rw [RingHom.comp_apply, eval_X]
      exact (congrArg _ (fromPlane_X0 t)).trans (eval_linearOn_side h hv hw _ hxy)
    · rw [RingHom.comp_apply, eval_X]
      exact (congrArg _ (fromPlane_X1 t)).trans (eval_linearOn_side h hv hw _ hxy)
  exact congrArg (fun f => f G) this

/-! ## Gradients -/

theorem pderiv_fromPlane (t : Tri T.nv) (i : Fin 2) (P : MvPolynomial (Fin 2) 𝕜) : pderiv i (fromPlane T t P) =
    fromPlane T t (pderiv 0 P) * pderiv i (linearOn t (fun v => (T.coord v).1)) +
      fromPlane T t (pderiv 1 P) * pderiv i (linearOn t (fun v => (T.coord v).2)) := by
  induction P using MvPolynomial.induction_on with
  | C c => rw [fromPlane_C, pderiv_C, pderiv_C, pderiv_C, map_zero, zero_mul, zero_mul, add_zero]
  | add P R hP hR =>
    simp only [map_add, hP, hR]
    ring
  | mul_X P k hP =>
    rw [map_mul, pderiv_mul, hP, pderiv_mul, pderiv_mul, map_add, map_add, map_mul, map_mul, map_mul, map_mul]
    revert k
    refine Fin.forall_fin_two.mpr ⟨?_, ?_⟩
    · rw [fromPlane_X0, pderiv_X_self, pderiv_X_of_ne (by decide), map_one, map_zero]
      ring
    · rw [fromPlane_X1, pderiv_X_self, pderiv_X_of_ne (by decide), map_one, map_zero]
      ring

theorem gradient_fromPlane {t : Tri T.nv} (h : T.det t ≠ 0) (G : MvPolynomial (Fin 2) 𝕜) :
    T.gradient t (fromPlane T t G) = (fromPlane T t (pderiv 0 G), fromPlane T t (pderiv 1 G)) := by
  have hx := gradient_linearOn h (fun v => (T.coord v).1)
  have hy := gradient_linearOn h (fun v => (T.coord v).2)
  have ex : vectorAt (T.gradHat t) (fun v => (T.coord v).1) = (1, 0) := by
    refine gradient_eq h _ _ ?_ ?_ <;> simp [inner2]
  have ey : vectorAt (T.gradHat t) (fun v => (T.coord v).2) = (0, 1) := by
    refine gradient_eq h _ _ ?_ ?_ <;> simp [inner2]
  rw [ex] at hx
  rw [ey] at hy
  unfold Triangulation.gradient at hx hy
  have x1 := congrArg Prod.fst hx
  have x2 := congrArg Prod.snd hx
  have y1 := congrArg Prod.fst hy
  have y2 := congrArg Prod.snd hy
  simp only [map_one, map_zero] at x1 x2 y1 y2
  unfold Triangulation.gradient
  simp only [pderiv_fromPlane]
  refine Prod.ext ?_ ?_
  · simp only
    linear_combination (fromPlane T t (pderiv 0 G)) * x1 + (fromPlane T t (pderiv 1 G)) * y1
  · simp only
    linear_combination (fromPlane T t (pderiv 0 G)) * x2 + (fromPlane T t (pderiv 1 G)) * y2

/-! ## Integrals -/

theorem totalDegree_monomial (j k : Nat) (c : 𝕜) : (C c * (X 0 ^ j * X 1 ^ k) : MvPolynomial (Fin 2) 𝕜).totalDegree ≤ j + k := by
  refine (totalDegree_mul _ _).trans ?_
  rw [totalDegree_C, zero_add]
  refine (totalDegree_mul _ _).trans (Nat.add_le_add ?_ ?_)
  · exact (totalDegree_pow _ _).trans (by rw [totalDegree_X, mul_one])
  · exact (totalDegree_pow _ _).trans (by rw [totalDegree_X, mul_one])

theorem pderiv_degree {P : MvPolynomial (Fin 2) 𝕜} {n : Nat} (hP : P.totalDegree ≤ n) (i : Fin 2) : (pderiv i P).totalDegree ≤ n - 1 := by
  obtain ⟨c, rfl⟩ := sum_of_terms hP
  rw [map_sum]
  refine totalDegree_finsetSum_le fun e he => ?_
  have he := mem_exponents.mp he
  rw [pderiv_C_mul]
  revert i
  refine Fin.forall_fin_two.mpr ⟨?_, ?_⟩
  · rw [(pderiv_monomials _ _).1]
    obtain ⟨j, k⟩ := e
    cases j with
    | zero => rw [Nat.cast_zero, map_zero, zero_mul, mul_zero, totalDegree_zero]; exact Nat.zero_le _
    | succ j =>
      rw [← mul_assoc, ← map_mul]
      exact (totalDegree_monomial _ _ _).trans (by dsimp only at he ⊢; omega)
  · rw [(pderiv_monomials _ _).2]
    obtain ⟨j, k⟩ := e
    cases k with
    | zero => rw [Nat.cast_zero, map_zero, zero_mul, mul_zero, totalDegree_zero]; exact Nat.zero_le _
    | succ k =>
      rw [← mul_assoc, ← map_mul]
      exact (totalDegree_monomial _ _ _).trans (by dsimp only at he ⊢; omega)

/-- Every polynomial is a derivative. -/
theorem exists_antiderivative {P : MvPolynomial (Fin 2) 𝕜} {n : Nat} (hP : P.totalDegree ≤ n) :
    ∃ G : MvPolynomial (Fin 2) 𝕜, G.totalDegree ≤ n + 1 ∧ pderiv 0 G = P := by
  obtain ⟨c, rfl⟩ := sum_of_terms hP
  refine ⟨∑ e ∈ exponents n, C (c e / ((e.1 : 𝕜) + 1)) * (X 0 ^ (e.1 + 1) * X 1 ^ e.2), ?_, ?_⟩
  · refine totalDegree_finsetSum_le fun e he => (totalDegree_monomial _ _ _).trans ?_
    have := mem_exponents.mp he
    omega
  · rw [map_sum]
    refine Finset.sum_congr rfl fun e _ => ?_
    have hz : ((e.1 : 𝕜) + 1) ≠ 0 := by exact_mod_cast Nat.succ_ne_zero e.1
    rw [pderiv_C_mul, (pderiv_monomials _ _).1, ← mul_assoc, ← map_mul, Nat.add_sub_cancel]
    congr 2
    push_cast
    field_simp

/-- The integral over a triangle, from its sides. -/
theorem integral_sides (h : ExactRule Q m) {t : Tri T.nv} (hd : T.det t ≠ 0) {G : MvPolynomial (Fin 2) 𝕜} (hG : G.totalDegree ≤ m) :
    T.det t / 2 * triIntegral Q (fromPlane T t (pderiv 0 G)) =
      (t.sides.map (fun e => contribution Q G (T.coord e.1) (T.coord e.2))).sum := by
  have hdiv := triangle_divergence h hd ((fromPlane_degree t G).trans hG) (1, 0)
  have e1 : (Q.tri.map (fun r => T.det t / 2 * r.1 * inner2 (eval ![r.2.1, r.2.2] (T.gradient t (fromPlane T t G)).1,
      eval ![r.2.1, r.2.2] (T.gradient t (fromPlane T t G)).2) (1, 0))).sum = T.det t / 2 * triIntegral Q (fromPlane T t (pderiv 0 G)) := by
    unfold triIntegral
    rw [← List.sum_map_mul_left]
    refine congrArg List.sum (List.map_congr_left fun r _ => ?_)
    rw [gradient_fromPlane hd]
    unfold inner2
    dsimp only
    ring
  have e2 : ∀ v w, IsVertex t v → IsVertex t w → across T (1, 0) (v, w) * pointSum (sidePoints Q t v w) (fromPlane T t G) =
      contribution Q G (T.coord v) (T.coord w) := by
    intro v w hv hw
    unfold contribution lineMean pointSum sidePoints across
    rw [List.map_map]
    dsimp only
    rw [one_mul, zero_mul, sub_zero]
    refine congrArg _ (congrArg List.sum (List.map_congr_left fun r _ => ?_))
    dsimp only [Function.comp]
    rw [fromPlane_eval hd hv hw (by ring)]
  rw [← e1, hdiv, e2 _ _ (.inl rfl) (.inr (.inl rfl)), e2 _ _ (.inr (.inl rfl)) (.inr (.inr rfl)), e2 _ _ (.inr (.inr rfl)) (.inl rfl)]
  simp only [Tri.sides, List.map_cons, List.map_nil, List.sum_cons, List.sum_nil]
  ring

/-- The integral over a triangle is the sum of those over its parts. -/
theorem integral_parts (h : ExactRule Q m) (h' : ExactRule Q' m) {old : Fin T.nv → Fin T'.nv} (ho : ∀ v, T'.coord (old v) = T.coord v)
    {t : Tri T.nv} (hd : T.det t ≠ 0) {parts : List (Tri T'.nv)} (hp : ∀ t' ∈ parts, T'.det t' ≠ 0) (hdis : Dissected T T' old t parts)
    {P : MvPolynomial (Fin 2) 𝕜} (hP : P.totalDegree + 1 ≤ m) :
    (parts.map (fun t' => T'.det t' / 2 * triIntegral Q' (fromPlane T' t' P))).sum = T.det t / 2 * triIntegral Q (fromPlane T t P) := by
  obtain ⟨G, hG, rfl⟩ := exists_antiderivative (le_refl P.totalDegree)
  have hG := hG.trans hP
  rw [integral_sides h hd hG]
  have e : (parts.map (fun t' => T'.det t' / 2 * triIntegral Q' (fromPlane T' t' (pderiv 0 G)))).sum =
      ((parts.flatMap Tri.sides).map (fun e => contribution Q' G (T'.coord e.1) (T'.coord e.2))).sum := by
    clear hdis
    induction parts with
    | nil => rfl
    | cons t' l ih =>
      rw [List.map_cons, List.sum_cons, List.flatMap_cons, List.map_append, List.sum_append,
        ih fun t ht => hp t (List.mem_cons_of_mem _ ht), integral_sides h' (hp t' (List.mem_cons_self ..)) hG]
  obtain ⟨inner, p, q, r, hp1, hq1, hr1, hperm⟩ := hdis
  rw [e, (hperm.map _).sum_eq]
  simp only [List.map_append, List.sum_append, List.map_map]
  rw [contribution_steps h' hG p (ho _) (ho _) hp1, contribution_steps h' hG q (ho _) (ho _) hq1, contribution_steps h' hG r (ho _) (ho _) hr1]
  have e0 : (inner.map (fun e => contribution Q' G (T'.coord e.1) (T'.coord e.2))).sum +
      (inner.map ((fun e => contribution Q' G (T'.coord e.1) (T'.coord e.2)) ∘ Prod.swap)).sum = 0 := by
    rw [← List.sum_map_add]
    refine List.sum_eq_zero fun x hx => ?_
    obtain ⟨e, _, rfl⟩ := List.mem_map.mp hx
    dsimp only [Function.comp, Prod.swap]
    rw [contribution_swap h' hG (T'.coord e.1)]
    ring
  rw [e0, zero_add, contribution_same h h' hG, contribution_same h h' hG, contribution_same h h' hG]
  simp only [Tri.sides, List.map_cons, List.map_nil, List.sum_cons, List.sum_nil]
  ring

end
end Tulip
