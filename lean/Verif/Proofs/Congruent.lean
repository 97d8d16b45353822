import Verif.Proofs.CarryIntegral

/-!
# Congruent meshes
-/

set_option linter.unusedSectionVars false

namespace Tulip
open Matrix Spec MvPolynomial

section
variable {𝕜 : Type} [Field 𝕜]

/-- The square of the scale. -/
def Spec.PlaneMap.square (g : PlaneMap 𝕜) : 𝕜 := g.xx * g.xx + g.yx * g.yx

/-- -1 in a mirror. -/
def Spec.PlaneMap.sign (g : PlaneMap 𝕜) : 𝕜 := if g.mirrored then -1 else 1

theorem Spec.PlaneMap.rows (g : PlaneMap 𝕜) : g.xx * g.xx + g.xy * g.xy = g.square ∧ g.yx * g.yx + g.yy * g.yy = g.square ∧
    g.xx * g.yx + g.xy * g.yy = 0 := by
  unfold PlaneMap.square PlaneMap.xy PlaneMap.yy
  split <;> refine ⟨?_, ?_, ?_⟩ <;> ring

theorem Spec.PlaneMap.columns (g : PlaneMap 𝕜) : g.xy * g.xy + g.yy * g.yy = g.square ∧ g.xx * g.xy + g.yx * g.yy = 0 ∧
    g.xx * g.yy - g.xy * g.yx = g.sign * g.square := by
  unfold PlaneMap.square PlaneMap.xy PlaneMap.yy PlaneMap.sign
  split <;> refine ⟨?_, ?_, ?_⟩ <;> ring

theorem Spec.PlaneMap.cross (g : PlaneMap 𝕜) (u e : 𝕜 × 𝕜) :
    (pull g u).1 * e.2 - (pull g u).2 * e.1 = g.sign * (u.1 * (g.yx * e.1 + g.yy * e.2) - u.2 * (g.xx * e.1 + g.xy * e.2)) := by
  unfold pull PlaneMap.xy PlaneMap.yy PlaneMap.sign
  split <;> ring

/-- The inverse similarity. -/
def Spec.PlaneMap.inv (g : PlaneMap 𝕜) : PlaneMap 𝕜 where
  xx := g.xx / g.square
  yx := g.xy / g.square
  shift := (-(g.xx * g.shift.1 + g.yx * g.shift.2) / g.square, -(g.xy * g.shift.1 + g.yy * g.shift.2) / g.square)
  mirrored := g.mirrored
  regular := by
    have : g.square ≠ 0 := g.regular
    rw [div_mul_div_comm, div_mul_div_comm, ← add_div, g.rows.1]
    exact div_ne_zero this (mul_ne_zero this this)

theorem Spec.PlaneMap.inv_xy (g : PlaneMap 𝕜) : g.inv.xy = g.yx / g.square ∧ g.inv.yy = g.yy / g.square := by
  unfold PlaneMap.inv PlaneMap.xy PlaneMap.yy
  simp only
  split <;> constructor <;> ring

theorem Spec.PlaneMap.inv_point (g : PlaneMap 𝕜) (p : 𝕜 × 𝕜) : g.inv.point (g.point p) = p := by
  have h : g.square ≠ 0 := g.regular
  have h1 : g.xx * g.xx + g.yx * g.yx = g.square := rfl
  obtain ⟨h2, h3, _⟩ := g.columns
  unfold PlaneMap.point
  rw [g.inv_xy.1, g.inv_xy.2]
  unfold PlaneMap.inv
  refine Prod.ext ?_ ?_ <;> simp only <;> field_simp
  · linear_combination p.1 * h1 + p.2 * h3
  · linear_combination p.2 * h2 + p.1 * h3

theorem pull_inv (g : PlaneMap 𝕜) (u : MvPolynomial (Fin 2) 𝕜 × MvPolynomial (Fin 2) 𝕜) : pullP g (pullP g.inv u) = u := by
  have h : g.square ≠ 0 := g.regular
  obtain ⟨h1, h2, h3⟩ := g.rows
  unfold pullP
  rw [g.inv_xy.1, g.inv_xy.2]
  have e1 : g.xx * (g.xx / g.square) + g.yx * (g.yx / g.square) = 1 := by
    rw [mul_div_assoc', mul_div_assoc', ← add_div]; exact div_self h
  have e2 : g.xx * (g.xy / g.square) + g.yx * (g.yy / g.square) = 0 := by
    rw [mul_div_assoc', mul_div_assoc', ← add_div, g.columns.2.1, zero_div]
  have e3 : g.xy * (g.xx / g.square) + g.yy * (g.yx / g.square) = 0 := by
    rw [mul_div_assoc', mul_div_assoc', ← add_div, mul_comm g.xy, mul_comm g.yy, g.columns.2.1, zero_div]
  have e4 : g.xy * (g.xy / g.square) + g.yy * (g.yy / g.square) = 1 := by
    rw [mul_div_assoc', mul_div_assoc', ← add_div, g.columns.1, div_self h]
  have c1 := congrArg (C (σ := Fin 2)) e1
  have c2 := congrArg (C (σ := Fin 2)) e2
  have c3 := congrArg (C (σ := Fin 2)) e3
  have c4 := congrArg (C (σ := Fin 2)) e4
  simp only [map_add, map_mul, map_one, map_zero] at c1 c2 c3 c4
  unfold PlaneMap.inv
  refine Prod.ext ?_ ?_ <;> simp only
  · linear_combination u.1 * c1 + u.2 * c2
  · linear_combination u.1 * c3 + u.2 * c4

/-! ## Functions and fields -/

variable {T T' : Triangulation 𝕜} {number : Fin T.nv ≃ Fin T'.nv} {t : Tri T.nv} {t' : Tri T'.nv} {twin : Tri T.nv → Tri T'.nv}
  {g : PlaneMap 𝕜} {p : Nat}

/-- What is needed to carry functions and fields. -/
structure Kin (g : PlaneMap 𝕜) (T T' : Triangulation 𝕜) (number : Fin T.nv ≃ Fin T'.nv) (twin : Tri T.nv → Tri T'.nv) : Prop where
  coord : ∀ v, T'.coord (number v) = g.point (T.coord v)
  mem : ∀ t ∈ T.tris, twin t ∈ T'.tris
  det : ∀ t ∈ T.tris, T.det t ≠ 0
  det' : ∀ t ∈ T'.tris, T'.det t ≠ 0
  matched : ∀ t ∈ T.tris, Matched number t (twin t)

theorem carry_linearOn (hm : Matched number t t') (h : T.det t ≠ 0) (h' : T'.det t' ≠ 0) (f : Fin T'.nv → 𝕜) :
    carry number t t' (linearOn t' f) = linearOn t (fun v => f (number v)) := by
  have key : ∀ {T : Triangulation 𝕜} {t : Tri T.nv}, T.det t ≠ 0 → ∀ f : Fin T.nv → 𝕜, linearOn t f = ∑ v, C (f v) * baryP 𝕜 t v := by
    intro T t h f
    obtain ⟨ha, hb, hc⟩ := baryP_verts (𝕜 := 𝕜) h
    rw [sum_verts h _ (fun k hk => by rw [baryP_off hk, mul_zero]), ha, hb, hc]
    rfl
  rw [key h, key h', map_sum, ← number.sum_comp]
  exact Finset.sum_congr rfl fun v _ => by rw [map_mul, carry_C, carry_bary hm h h']

theorem Kin.piecewise (h : Kin g T T' number twin) {P : Tri T'.nv → MvPolynomial (Fin 2) 𝕜} (hP : PiecewisePolynomial T' p P) :
    PiecewisePolynomial T p (fun t => carry number t (twin t) (P (twin t))) where
  degree t ht := (carry_degree _).trans (hP.degree _ (h.mem t ht))
  continuous t ht t2 ht2 v w hv hw hv2 hw2 x y hxy := by
    have m := h.matched t ht
    have m2 := h.matched t2 ht2
    rw [carry_eval m (h.det t ht) (h.det' _ (h.mem t ht)) hv hw hxy, carry_eval m2 (h.det t2 ht2) (h.det' _ (h.mem t2 ht2)) hv2 hw2 hxy]
    exact hP.continuous _ (h.mem t ht) _ (h.mem t2 ht2) _ _ ((m v).mp hv) ((m w).mp hw) ((m2 v).mp hv2) ((m2 w).mp hw2) x y hxy

theorem carryField_degree {F : MvPolynomial (Fin 2) 𝕜 × MvPolynomial (Fin 2) 𝕜} (h : F.1.totalDegree ≤ p ∧ F.2.totalDegree ≤ p) :
    (carryField g number t t' F).1.totalDegree ≤ p ∧ (carryField g number t t' F).2.totalDegree ≤ p := by
  have key : ∀ (c d : 𝕜), (C c * carry number t t' F.1 + C d * carry number t t' F.2).totalDegree ≤ p := by
    intro c d
    refine (totalDegree_add _ _).trans (max_le ?_ ?_) <;> refine (totalDegree_mul _ _).trans ?_ <;> rw [totalDegree_C, zero_add]
    · exact (carry_degree _).trans h.1
    · exact (carry_degree _).trans h.2
  exact ⟨key _ _, key _ _⟩

theorem carryField_cross (hg : ∀ v, T'.coord (number v) = g.point (T.coord v)) (hm : Matched number t t')
    (h : T.det t ≠ 0) (h' : T'.det t' ≠ 0) {v w : Fin T.nv} (hv : IsVertex t v)
    (hw : IsVertex t w) {x y : 𝕜} (hxy : x + y = 1) (F : MvPolynomial (Fin 2) 𝕜 × MvPolynomial (Fin 2) 𝕜) :
    eval (Triangulation.onSide t v w x y) (carryField g number t t' F).1 * ((T.coord w).2 - (T.coord v).2) -
        eval (Triangulation.onSide t v w x y) (carryField g number t t' F).2 * ((T.coord w).1 - (T.coord v).1) =
      g.sign * (eval (Triangulation.onSide t' (number v) (number w) x y) F.1 * ((T'.coord (number w)).2 - (T'.coord (number v)).2) -
        eval (Triangulation.onSide t' (number v) (number w) x y) F.2 * ((T'.coord (number w)).1 - (T'.coord (number v)).1)) := by
  have e := g.cross (eval (Triangulation.onSide t' (number v) (number w) x y) F.1, eval (Triangulation.onSide t' (number v) (number w) x y) F.2)
    ((T.coord w).1 - (T.coord v).1, (T.coord w).2 - (T.coord v).2)
  unfold carryField pullP
  simp only [map_add, map_mul, eval_C, carry_eval hm h h' hv hw hxy, hg]
  unfold pull at e
  unfold PlaneMap.point
  simp only at e ⊢
  rw [e]
  ring

theorem Kin.raviartThomas (h : Kin g T T' number twin) {F : Tri T'.nv → MvPolynomial (Fin 2) 𝕜 × MvPolynomial (Fin 2) 𝕜}
    (hF : RaviartThomas T' p F) : RaviartThomas T p (fun t => carryField g number t (twin t) (F (twin t))) where
  shape t ht := by
    have m := h.matched t ht
    obtain ⟨a, b, c, ha, hb, hc, e⟩ := hF.shape _ (h.mem t ht)
    have key : ∀ {P : MvPolynomial (Fin 2) 𝕜} (d : 𝕜), P.totalDegree < p → (C d * carry number t (twin t) P).totalDegree < p := by
      intro P d hP
      refine lt_of_le_of_lt (totalDegree_mul _ _) ?_
      rw [totalDegree_C, zero_add]
      exact lt_of_le_of_lt (carry_degree _) hP
    have add : ∀ {P R : MvPolynomial (Fin 2) 𝕜}, P.totalDegree < p → R.totalDegree < p → (P + R).totalDegree < p := fun hP hR =>
      lt_of_le_of_lt (totalDegree_add _ _) (max_lt hP hR)
    let K := carry (𝕜 := 𝕜) number t (twin t)
    refine ⟨C g.xx * K a + C g.yx * K b + C (g.xx * g.shift.1 + g.yx * g.shift.2) * K c,
      C g.xy * K a + C g.yy * K b + C (g.xy * g.shift.1 + g.yy * g.shift.2) * K c, C g.square * K c,
      add (add (key _ ha) (key _ hb)) (key _ hc), add (add (key _ ha) (key _ hb)) (key _ hc), key _ hc, ?_⟩
    rw [e]
    have hx := carry_linearOn m (h.det t ht) (h.det' _ (h.mem t ht)) (fun v => (T'.coord v).1)
    have hy := carry_linearOn m (h.det t ht) (h.det' _ (h.mem t ht)) (fun v => (T'.coord v).2)
    have lx : linearOn t (fun v => (T'.coord (number v)).1) = C g.xx * linearOn t (fun v => (T.coord v).1) +
        C g.xy * linearOn t (fun v => (T.coord v).2) + C g.shift.1 := by
      simp only [h.coord, PlaneMap.point, linearOn, map_add, map_mul]
      ring
    have ly : linearOn t (fun v => (T'.coord (number v)).2) = C g.yx * linearOn t (fun v => (T.coord v).1) +
        C g.yy * linearOn t (fun v => (T.coord v).2) + C g.shift.2 := by
      simp only [h.coord, PlaneMap.point, linearOn, map_add, map_mul]
      ring
    have h1 : g.xx * g.xx + g.yx * g.yx = g.square := rfl
    have c1 := congrArg (C (σ := Fin 2)) h1
    have c2 := congrArg (C (σ := Fin 2)) g.columns.1
    have c3 := congrArg (C (σ := Fin 2)) g.columns.2.1
    simp only [map_add, map_mul, map_zero] at c1 c2 c3
    unfold carryField pullP
    simp only [map_add, map_mul, hx, hy, lx, ly]
    refine Prod.ext ?_ ?_ <;> simp only
    · linear_combination (K c * linearOn t (fun v => (T.coord v).1)) * c1 + (K c * linearOn t (fun v => (T.coord v).2)) * c3
    · linear_combination (K c * linearOn t (fun v => (T.coord v).2)) * c2 + (K c * linearOn t (fun v => (T.coord v).1)) * c3
  normal t ht t2 ht2 v w hv hw hv2 hw2 x y hxy := by
    have m := h.matched t ht
    have m2 := h.matched t2 ht2
    rw [carryField_cross h.coord m (h.det t ht) (h.det' _ (h.mem t ht)) hv hw hxy,
      carryField_cross h.coord m2 (h.det t2 ht2) (h.det' _ (h.mem t2 ht2)) hv2 hw2 hxy]
    exact congrArg (g.sign * ·) (hF.normal _ (h.mem t ht) _ (h.mem t2 ht2) _ _ ((m v).mp hv) ((m w).mp hw) ((m2 v).mp hv2) ((m2 w).mp hw2) x y hxy)

theorem carryField_back (hm : Matched number t t') (h : T.det t ≠ 0) (h' : T'.det t' ≠ 0)
    (F : MvPolynomial (Fin 2) 𝕜 × MvPolynomial (Fin 2) 𝕜) :
    carryField g number t t' (carryField g.inv number.symm t' t F) = F := by
  have e : ∀ u : MvPolynomial (Fin 2) 𝕜 × MvPolynomial (Fin 2) 𝕜, carryField g number t t' (pullP g.inv u) =
      pullP g (pullP g.inv (carry number t t' u.1, carry number t t' u.2)) := by
    intro u
    unfold carryField pullP
    simp only [map_add, map_mul, carry_C]
  unfold carryField at e ⊢
  rw [e, pull_inv, carry_carry hm h h', carry_carry hm h h']

end
end Tulip
