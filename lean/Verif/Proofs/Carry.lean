import Verif.Proofs.Order
import Verif.Proofs.ElementDivergence
import Verif.Proofs.BernsteinComplete
import Verif.Spec.Congruent

/-!
# Polynomials in a triangle, in the coordinates of another one
-/

set_option linter.unusedSectionVars false

namespace Tulip
open Matrix Spec MvPolynomial

section
variable {𝕜 : Type} [Field 𝕜] {T T' : Triangulation 𝕜} {number : Fin T.nv ≃ Fin T'.nv} {t : Tri T.nv} {t' : Tri T'.nv}

/-- The triangles have the same vertices, but for their numbers. -/
def Matched (number : Fin T.nv ≃ Fin T'.nv) (t : Tri T.nv) (t' : Tri T'.nv) : Prop := ∀ v, IsVertex t v ↔ IsVertex t' (number v)

theorem Matched.symm (h : Matched number t t') : Matched number.symm t' t := fun v => by rw [h, number.apply_symm_apply]

/-- A polynomial in `t'` becomes one in `t`, with the same values. -/
noncomputable def carry (number : Fin T.nv ≃ Fin T'.nv) (t : Tri T.nv) (t' : Tri T'.nv) :
    MvPolynomial (Fin 2) 𝕜 →ₐ[𝕜] MvPolynomial (Fin 2) 𝕜 :=
  aeval ![baryP 𝕜 t (number.symm t'.b), baryP 𝕜 t (number.symm t'.c)]

theorem carry_X0 : carry (𝕜 := 𝕜) number t t' (X 0) = baryP 𝕜 t (number.symm t'.b) := by
  unfold carry
  rw [aeval_X]
  rfl

theorem carry_X1 : carry (𝕜 := 𝕜) number t t' (X 1) = baryP 𝕜 t (number.symm t'.c) := by
  unfold carry
  rw [aeval_X]
  rfl

theorem carry_C (c : 𝕜) : carry (𝕜 := 𝕜) number t t' (C c) = C c := by
  unfold carry
  exact aeval_C _ _

/-- The vertices of the other triangle. -/
theorem Matched.sum_three (hm : Matched number t t') (h : T.det t ≠ 0) (h' : T'.det t' ≠ 0) :
    baryP 𝕜 t (number.symm t'.a) + baryP 𝕜 t (number.symm t'.b) + baryP 𝕜 t (number.symm t'.c) = 1 := by
  rw [← sum_baryP h, ← number.symm.sum_comp, sum_verts h' _ fun k hk => baryP_off fun hv => hk ?_]
  have := (hm _).mp hv
  rwa [number.apply_symm_apply] at this

theorem carry_bary (hm : Matched number t t') (h : T.det t ≠ 0) (h' : T'.det t' ≠ 0) (v : Fin T.nv) :
    carry (𝕜 := 𝕜) number t t' (baryP 𝕜 t' (number v)) = baryP 𝕜 t v := by
  obtain ⟨ha, hb, hc⟩ := baryP_verts (𝕜 := 𝕜) h'
  by_cases hv : IsVertex t v
  · rcases (hm v).mp hv with e | e | e
    · rw [e, ha, map_sub, map_sub, map_one, carry_X0, carry_X1, ← hm.sum_three h h', ← number.symm_apply_apply v, e]
      ring
    · rw [e, hb, carry_X0, ← e, number.symm_apply_apply]
    · rw [e, hc, carry_X1, ← e, number.symm_apply_apply]
  · rw [baryP_off hv, baryP_off (fun hv' => hv ((hm v).mpr hv')), map_zero]

theorem carry_carry (hm : Matched number t t') (h : T.det t ≠ 0) (h' : T'.det t' ≠ 0) (P : MvPolynomial (Fin 2) 𝕜) :
    carry number t t' (carry number.symm t' t P) = P := by
  obtain ⟨_, hb, hc⟩ := baryP_verts (𝕜 := 𝕜) h
  have : (carry (𝕜 := 𝕜) number t t').comp (carry number.symm t' t) = AlgHom.id 𝕜 _ := by
    refine algHom_ext (Fin.forall_fin_two.mpr ⟨?_, ?_⟩)
    · rw [AlgHom.comp_apply, carry_X0, Equiv.symm_symm, carry_bary hm h h', hb]; rfl
    · rw [AlgHom.comp_apply, carry_X1, Equiv.symm_symm, carry_bary hm h h', hc]; rfl
  exact congrArg (fun f => f P) this

theorem carry_degree (P : MvPolynomial (Fin 2) 𝕜) : (carry number t t' P).totalDegree ≤ P.totalDegree := by
  classical
  have hb : ∀ i : Fin 2, (![baryP 𝕜 t (number.symm t'.b), baryP 𝕜 t (number.symm t'.c)] i).totalDegree ≤ 1 :=
    Fin.forall_fin_two.mpr ⟨totalDegree_baryP t _, totalDegree_baryP t _⟩
  have e : carry number t t' P = ∑ d ∈ P.support, C (P.coeff d) * ∏ i, ![baryP 𝕜 t (number.symm t'.b), baryP 𝕜 t (number.symm t'.c)] i ^ d i := by
    unfold carry
    rw [aeval_def, eval₂_eq']
    rfl
  rw [e]
  refine totalDegree_finsetSum_le fun d hd => ?_
  refine (totalDegree_mul _ _).trans ?_
  rw [totalDegree_C, zero_add]
  refine (totalDegree_finsetProd _ _).trans ?_
  refine (Finset.sum_le_sum fun i _ => (totalDegree_pow _ _).trans ((Nat.mul_le_mul_left _ (hb i)).trans (by rw [mul_one]))).trans ?_
  refine le_trans ?_ (le_totalDegree hd)
  rw [Finsupp.sum_fintype _ _ fun _ => rfl]

theorem carry_eval (hm : Matched number t t') (h : T.det t ≠ 0) (h' : T'.det t' ≠ 0) {v w : Fin T.nv} (hv : IsVertex t v)
    (hw : IsVertex t w) {x y : 𝕜} (hxy : x + y = 1) (P : MvPolynomial (Fin 2) 𝕜) :
    eval (Triangulation.onSide t v w x y) (carry number t t' P) = eval (Triangulation.onSide t' (number v) (number w) x y) P := by
  have key : ∀ k, eval (Triangulation.onSide t v w x y) (baryP 𝕜 t k) = between v w x y k := by
    intro k
    have e : Triangulation.onSide t v w x y = ![between v w x y t.b, between v w x y t.c] := by
      unfold Triangulation.onSide between
      simp only [eq_comm]
    rw [e]
    refine eval_baryP h (fun k hk => ?_) ?_ k
    · unfold between
      rw [if_neg (fun e : k = v => hk (e ▸ hv)), if_neg (fun e : k = w => hk (e ▸ hw)), add_zero]
    · obtain ⟨h1, h2, h3⟩ := det_ne h
      unfold between
      rw [← hxy]
      rcases hv with rfl | rfl | rfl <;> rcases hw with rfl | rfl | rfl <;>
        simp only [h1, h2, h3, h1.symm, h2.symm, h3.symm, if_true, if_false] <;> ring
  have hb : ∀ k', between v w x y (number.symm k') = (if number v = k' then x else 0) + (if number w = k' then y else 0) := by
    intro k'
    unfold between
    simp only [Equiv.symm_apply_eq, @eq_comm _ k']
  have : ((eval (Triangulation.onSide t v w x y)).comp (carry number t t').toRingHom : MvPolynomial (Fin 2) 𝕜 →+* 𝕜) =
      eval (Triangulation.onSide t' (number v) (number w) x y) := by
    refine ringHom_ext (fun c => ?_) (Fin.forall_fin_two.mpr ⟨?_, ?_⟩)
    · rw [RingHom.comp_apply, eval_C]
      exact (congrArg _ (carry_C c)).trans (eval_C c)
    · rw [RingHom.comp_apply, eval_X]
      refine (congrArg _ carry_X0).trans ((key _).trans (hb _))
    · rw [RingHom.comp_apply, eval_X]
      refine (congrArg _ carry_X1).trans ((key _).trans (hb _))
  exact congrArg (fun f => f P) this

/-! ## Gradients -/

theorem pderiv_carry (i : Fin 2) (P : MvPolynomial (Fin 2) 𝕜) : pderiv i (carry number t t' P) =
    carry number t t' (pderiv 0 P) * pderiv i (baryP 𝕜 t (number.symm t'.b)) +
      carry number t t' (pderiv 1 P) * pderiv i (baryP 𝕜 t (number.symm t'.c)) := by
  induction P using MvPolynomial.induction_on with
  | C c => rw [carry_C, pderiv_C, pderiv_C, pderiv_C, map_zero, zero_mul, zero_mul, add_zero]
  | add P R hP hR =>
    simp only [map_add, hP, hR]
    ring
  | mul_X P k hP =>
    rw [map_mul, pderiv_mul, hP, pderiv_mul, pderiv_mul, map_add, map_add, map_mul, map_mul, map_mul, map_mul]
    revert k
    refine Fin.forall_fin_two.mpr ⟨?_, ?_⟩
    · rw [carry_X0, pderiv_X_self, pderiv_X_of_ne (by decide), map_one, map_zero]
      ring
    · rw [carry_X1, pderiv_X_self, pderiv_X_of_ne (by decide), map_one, map_zero]
      ring

/-- The vector field of which the similarity makes `u` (for gradients). -/
def pull (g : PlaneMap 𝕜) (u : 𝕜 × 𝕜) : 𝕜 × 𝕜 := (g.xx * u.1 + g.yx * u.2, g.xy * u.1 + g.yy * u.2)

theorem gradHat_pull {g : PlaneMap 𝕜} (hg : ∀ v, T'.coord (number v) = g.point (T.coord v)) (hm : Matched number t t')
    (h : T.det t ≠ 0) (h' : T'.det t' ≠ 0) (v : Fin T.nv) : T.gradHat t v = pull g (T'.gradHat t' (number v)) := by
  have e : vectorAt (T.gradHat t) (fun k => if k = v then 1 else 0) = T.gradHat t v := by
    unfold vectorAt
    simp
  rw [← e]
  have key : ∀ w, IsVertex t w → (if w = v then (1 : 𝕜) else 0) - (if t.a = v then 1 else 0) =
      inner2 (pull g (T'.gradHat t' (number v))) ((T.coord w).1 - (T.coord t.a).1, (T.coord w).2 - (T.coord t.a).2) := by
    intro w hw
    have := gradHat_difference h' (number v) ((hm t.a).mp (.inl rfl)) ((hm w).mp hw)
    simp only [number.injective.eq_iff, hg] at this
    rw [← this]
    unfold inner2 pull PlaneMap.point
    simp only
    ring
  exact gradient_eq h _ _ (key _ (.inr (.inl rfl))) (key _ (.inr (.inr rfl)))

/-- The same for polynomials. -/
noncomputable def pullP (g : PlaneMap 𝕜) (u : MvPolynomial (Fin 2) 𝕜 × MvPolynomial (Fin 2) 𝕜) :
    MvPolynomial (Fin 2) 𝕜 × MvPolynomial (Fin 2) 𝕜 := (C g.xx * u.1 + C g.yx * u.2, C g.xy * u.1 + C g.yy * u.2)

/-- A vector field in `t'` becomes one in `t`. -/
noncomputable def carryField (g : PlaneMap 𝕜) (number : Fin T.nv ≃ Fin T'.nv) (t : Tri T.nv) (t' : Tri T'.nv)
    (u : MvPolynomial (Fin 2) 𝕜 × MvPolynomial (Fin 2) 𝕜) : MvPolynomial (Fin 2) 𝕜 × MvPolynomial (Fin 2) 𝕜 :=
  pullP g (carry number t t' u.1, carry number t t' u.2)

theorem gradient_carry {g : PlaneMap 𝕜} (hg : ∀ v, T'.coord (number v) = g.point (T.coord v)) (hm : Matched number t t')
    (h : T.det t ≠ 0) (h' : T'.det t' ≠ 0) (P : MvPolynomial (Fin 2) 𝕜) :
    T.gradient t (carry number t t' P) = carryField g number t t' (T'.gradient t' P) := by
  have hb := gradient_baryP (𝕜 := 𝕜) h (number.symm t'.b)
  have hc := gradient_baryP (𝕜 := 𝕜) h (number.symm t'.c)
  rw [gradHat_pull hg hm h h', number.apply_symm_apply] at hb hc
  unfold Triangulation.gradient at hb hc
  have b1 := congrArg Prod.fst hb
  have b2 := congrArg Prod.snd hb
  have c1 := congrArg Prod.fst hc
  have c2 := congrArg Prod.snd hc
  simp only [pull, map_add, map_mul] at b1 b2 c1 c2
  unfold Triangulation.gradient carryField pullP
  simp only [pderiv_carry, map_add, map_mul, carry_C]
  refine Prod.ext ?_ ?_
  · simp only
    linear_combination (carry number t t' (pderiv 0 P)) * b1 + (carry number t t' (pderiv 1 P)) * c1
  · simp only
    linear_combination (carry number t t' (pderiv 0 P)) * b2 + (carry number t t' (pderiv 1 P)) * c2

end
end Tulip
