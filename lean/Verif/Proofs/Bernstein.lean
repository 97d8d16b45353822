import Verif.Proofs.Elements
import Mathlib.Algebra.MvPolynomial.Funext
import Mathlib.Data.Nat.Choose.Multinomial
import Mathlib.Algebra.CharZero.Infinite
import Mathlib.LinearAlgebra.Finsupp.LinearCombination

/-!
# Polynomials in barycentric coordinates

Products of barycentric coordinates of fixed degree (Bernstein polynomials), and of these with Whitney functions.
-/

set_option linter.unusedSectionVars false

namespace Tulip
open Matrix Spec MvPolynomial

section
variable {𝕜 : Type} [Field 𝕜] {T : Triangulation 𝕜}

/-- Barycentric coordinate of a vertex in a triangle. -/
noncomputable def baryP (𝕜 : Type) [Field 𝕜] {nv : Nat} (t : Tri nv) (v : Fin nv) : MvPolynomial (Fin 2) 𝕜 :=
  if v = t.a then 1 - X 0 - X 1 else if v = t.b then X 0 else if v = t.c then X 1 else 0

/-- A product of barycentric coordinates. -/
noncomputable def monoP (𝕜 : Type) [Field 𝕜] {nv : Nat} (t : Tri nv) (α : Fin nv → ℕ) : MvPolynomial (Fin 2) 𝕜 :=
  ∏ v, baryP 𝕜 t v ^ α v

/-- The Whitney function of a pair of vertices. -/
noncomputable def whitneyP (T : Triangulation 𝕜) (t : Tri T.nv) (i j : Fin T.nv) :
    MvPolynomial (Fin 2) 𝕜 × MvPolynomial (Fin 2) 𝕜 :=
  (baryP 𝕜 t i * C (T.gradHat t j).1 - baryP 𝕜 t j * C (T.gradHat t i).1,
   baryP 𝕜 t i * C (T.gradHat t j).2 - baryP 𝕜 t j * C (T.gradHat t i).2)

theorem baryP_off {t : Tri T.nv} {v : Fin T.nv} (h : ¬ IsVertex t v) : baryP 𝕜 t v = 0 := by
  unfold IsVertex at h
  push Not at h
  unfold baryP
  rw [if_neg h.1, if_neg h.2.1, if_neg h.2.2]

theorem baryP_verts {t : Tri T.nv} (h : T.det t ≠ 0) :
    baryP 𝕜 t t.a = 1 - X 0 - X 1 ∧ baryP 𝕜 t t.b = X 0 ∧ baryP 𝕜 t t.c = X 1 := by
  obtain ⟨h1, h2, h3⟩ := det_ne h
  unfold baryP
  simp [h1.symm, h2.symm, h3]

theorem sum_baryP {t : Tri T.nv} (h : T.det t ≠ 0) : ∑ v, baryP 𝕜 t v = 1 := by
  obtain ⟨ha, hb, hc⟩ := baryP_verts h
  rw [sum_verts h _ (fun k hk => baryP_off hk), ha, hb, hc]
  ring

theorem sum_gradHat {t : Tri T.nv} (h : T.det t ≠ 0) : ∑ v, (T.gradHat t v).1 = 0 ∧ ∑ v, (T.gradHat t v).2 = 0 := by
  have e := vectorAt_gradHat h (fun _ => 1)
  have h1 := congrArg Prod.fst e
  have h2 := congrArg Prod.snd e
  simp only [vectorAt, one_mul] at h1 h2
  refine ⟨h1.trans ?_, h2.trans ?_⟩
  · rw [div_eq_zero_iff]; left; ring
  · rw [div_eq_zero_iff]; left; ring

theorem gradient_baryP {t : Tri T.nv} (h : T.det t ≠ 0) (v : Fin T.nv) :
    T.gradient t (baryP 𝕜 t v) = (C (T.gradHat t v).1, C (T.gradHat t v).2) := by
  by_cases hv : IsVertex t v
  · obtain ⟨ha, hb, hc⟩ := baryP_verts h
    obtain ⟨ga, gb, gc⟩ := gradHat_verts h
    have n01 : (0 : Fin 2) ≠ 1 := by decide
    unfold Triangulation.gradient
    rcases hv with rfl | rfl | rfl
    · rw [ha]
      simp only [map_sub, pderiv_one, pderiv_X_self, pderiv_X_of_ne n01, pderiv_X_of_ne n01.symm, ga, gb, gc]
      refine Prod.ext ?_ ?_ <;>
      · simp only [zero_sub, sub_zero, neg_mul, one_mul, ← C_neg, ← C_add]
        congr 1
        ring
    · rw [hb]
      simp [pderiv_X_of_ne n01]
    · rw [hc]
      simp [pderiv_X_of_ne n01.symm]
  · rw [baryP_off hv, gradHat_off hv]
    unfold Triangulation.gradient
    simp

theorem gradient_mul (t : Tri T.nv) (P Q : MvPolynomial (Fin 2) 𝕜) : T.gradient t (P * Q) =
    (P * (T.gradient t Q).1 + Q * (T.gradient t P).1, P * (T.gradient t Q).2 + Q * (T.gradient t P).2) := by
  unfold Triangulation.gradient
  rw [pderiv_mul, pderiv_mul]
  refine Prod.ext ?_ ?_ <;> · dsimp only; ring

theorem gradHat_eq_sum {t : Tri T.nv} (h : T.det t ≠ 0) (i : Fin T.nv) :
    (C (T.gradHat t i).1, C (T.gradHat t i).2) = ∑ j, whitneyP T t j i := by
  obtain ⟨z1, z2⟩ := sum_gradHat h
  refine Prod.ext ?_ ?_
  · rw [Prod.fst_sum]
    simp only [whitneyP, Finset.sum_sub_distrib, ← Finset.sum_mul, ← Finset.mul_sum, sum_baryP h, ← map_sum, z1]
    simp
  · rw [Prod.snd_sum]
    simp only [whitneyP, Finset.sum_sub_distrib, ← Finset.sum_mul, ← Finset.mul_sum, sum_baryP h, ← map_sum, z2]
    simp

theorem whitneyP_off {t : Tri T.nv} {i j : Fin T.nv} (h : ¬ (IsVertex t i ∧ IsVertex t j)) : whitneyP T t i j = 0 := by
  unfold whitneyP
  by_cases hi : IsVertex t i
  · have hj : ¬ IsVertex t j := fun hj => h ⟨hi, hj⟩
    rw [baryP_off hj, gradHat_off hj]
    simp
  · rw [baryP_off hi, gradHat_off hi]
    simp

theorem whitneyP_swap (t : Tri T.nv) (i j : Fin T.nv) : whitneyP T t j i = -whitneyP T t i j := by
  unfold whitneyP
  refine Prod.ext ?_ ?_ <;> · simp only [Prod.neg_mk]; ring

theorem whitneyP_self (t : Tri T.nv) (i : Fin T.nv) : whitneyP T t i i = 0 := by
  unfold whitneyP
  simp

/-- The relation between Whitney functions. -/
theorem whitneyP_relation (t : Tri T.nv) (l i j : Fin T.nv) :
    baryP 𝕜 t l • whitneyP T t i j = baryP 𝕜 t i • whitneyP T t l j - baryP 𝕜 t j • whitneyP T t l i := by
  unfold whitneyP
  refine Prod.ext ?_ ?_ <;>
  · simp only [Prod.smul_mk, Prod.fst_sub, Prod.snd_sub, smul_eq_mul]
    ring

theorem monoP_off {t : Tri T.nv} {α : Fin T.nv → ℕ} {v : Fin T.nv} (hv : ¬ IsVertex t v) (h : α v ≠ 0) :
    monoP 𝕜 t α = 0 :=
  Finset.prod_eq_zero (Finset.mem_univ v) (by rw [baryP_off hv, zero_pow h])

/-- One more power of the coordinate of `v`. -/
def bump {nv : Nat} (α : Fin nv → ℕ) (v : Fin nv) : Fin nv → ℕ := fun w => α w + if w = v then 1 else 0

theorem exists_bump {nv : Nat} {α : Fin nv → ℕ} {v : Fin nv} (h : α v ≠ 0) : ∃ γ, α = bump γ v := by
  refine ⟨fun w => α w - if w = v then 1 else 0, ?_⟩
  funext w
  show α w = α w - (if w = v then 1 else 0) + if w = v then 1 else 0
  split
  · next e => subst e; omega
  · omega

theorem monoP_add (t : Tri T.nv) (α : Fin T.nv → ℕ) (v : Fin T.nv) :
    monoP 𝕜 t (bump α v) = baryP 𝕜 t v * monoP 𝕜 t α := by
  unfold monoP bump
  simp only [pow_add, Finset.prod_mul_distrib]
  rw [mul_comm]
  congr 1
  rw [Finset.prod_eq_single v]
  · simp
  · intro w _ hw
    simp [hw]
  · simp

theorem totalDegree_baryP (t : Tri T.nv) (v : Fin T.nv) : (baryP 𝕜 t v).totalDegree ≤ 1 := by
  unfold baryP
  have hX : ∀ i : Fin 2, (X i : MvPolynomial (Fin 2) 𝕜).totalDegree ≤ 1 := fun i => (totalDegree_X i).le
  split
  · refine (totalDegree_sub _ _).trans (max_le ((totalDegree_sub _ _).trans (max_le ?_ (hX 0))) (hX 1))
    rw [totalDegree_one]
    exact Nat.zero_le _
  · split
    · exact hX 0
    · split
      · exact hX 1
      · simp

theorem totalDegree_monoP (t : Tri T.nv) (α : Fin T.nv → ℕ) : (monoP 𝕜 t α).totalDegree ≤ ∑ v, α v := by
  refine (totalDegree_finsetProd _ _).trans (Finset.sum_le_sum fun v _ => ?_)
  refine (totalDegree_pow _ _).trans ?_
  exact (Nat.mul_le_mul_left _ (totalDegree_baryP t v)).trans (by rw [mul_one])

theorem totalDegree_whitneyP (t : Tri T.nv) (i j : Fin T.nv) :
    (whitneyP T t i j).1.totalDegree ≤ 1 ∧ (whitneyP T t i j).2.totalDegree ≤ 1 := by
  have : ∀ (v : Fin T.nv) (c : 𝕜), (baryP 𝕜 t v * C c).totalDegree ≤ 1 := by
    intro v c
    refine (totalDegree_mul _ _).trans ?_
    rw [totalDegree_C]
    exact totalDegree_baryP t v
  exact ⟨(totalDegree_sub _ _).trans (max_le (this _ _) (this _ _)),
    (totalDegree_sub _ _).trans (max_le (this _ _) (this _ _))⟩

/-! ## Values at points given by barycentric coordinates -/

theorem eval_baryP {t : Tri T.nv} (h : T.det t ≠ 0) {x : Fin T.nv → 𝕜} (h0 : ∀ v, ¬ IsVertex t v → x v = 0)
    (h1 : x t.a + x t.b + x t.c = 1) (v : Fin T.nv) : eval ![x t.b, x t.c] (baryP 𝕜 t v) = x v := by
  by_cases hv : IsVertex t v
  · obtain ⟨ha, hb, hc⟩ := baryP_verts h
    rcases hv with rfl | rfl | rfl
    · rw [ha]
      simp only [map_sub, map_one, eval_X, Matrix.cons_val_zero, Matrix.cons_val_one]
      rw [← h1]
      ring
    · rw [hb]
      simp
    · rw [hc]
      simp
  · rw [baryP_off hv, h0 v hv, map_zero]

theorem eval_monoP {t : Tri T.nv} (h : T.det t ≠ 0) {x : Fin T.nv → 𝕜} (h0 : ∀ v, ¬ IsVertex t v → x v = 0)
    (h1 : x t.a + x t.b + x t.c = 1) (α : Fin T.nv → ℕ) : eval ![x t.b, x t.c] (monoP 𝕜 t α) = ∏ v, x v ^ α v := by
  unfold monoP
  rw [map_prod]
  exact Finset.prod_congr rfl fun v _ => by rw [map_pow, eval_baryP h h0 h1]

/-- Barycentric coordinates of a point between two vertices. -/
def between {nv : Nat} (v w : Fin nv) (x y : 𝕜) : Fin nv → 𝕜 := fun k => (if k = v then x else 0) + (if k = w then y else 0)

theorem eval_side {t : Tri T.nv} (h : T.det t ≠ 0) {v w : Fin T.nv} (hv : IsVertex t v) (hw : IsVertex t w) {x y : 𝕜}
    (hxy : x + y = 1) (α : Fin T.nv → ℕ) :
    eval (Triangulation.onSide t v w x y) (monoP 𝕜 t α) = ∏ k, between v w x y k ^ α k := by
  have e : Triangulation.onSide t v w x y = ![between v w x y t.b, between v w x y t.c] := by
    unfold Triangulation.onSide between
    simp only [eq_comm]
  rw [e]
  refine eval_monoP h (fun k hk => ?_) ?_ α
  · unfold between
    rw [if_neg (fun e : k = v => hk (e ▸ hv)), if_neg (fun e : k = w => hk (e ▸ hw)), add_zero]
  · obtain ⟨h1, h2, h3⟩ := det_ne h
    unfold between
    rw [← hxy]
    rcases hv with rfl | rfl | rfl <;> rcases hw with rfl | rfl | rfl <;>
      simp only [h1, h2, h3, h1.symm, h2.symm, h3.symm, if_true, if_false] <;> ring

end

section
variable {𝕜 : Type} [Field 𝕜] [CharZero 𝕜] {nv : Nat}

/-- A combination of monomials of the same degree that vanishes where the coordinates in `V` add up to 1, the others are
0, and one of those in `V` is not 0, has no coefficients with monomials in `V`. -/
theorem homogeneous_zero (V : Finset (Fin nv)) {l : Fin nv} (hl : l ∈ V) {q : Nat} (D : Finset (Fin nv → ℕ))
    (hD : ∀ β ∈ D, ∑ v, β v = q) (c : (Fin nv → ℕ) → 𝕜)
    (h : ∀ x : Fin nv → 𝕜, (∀ v, v ∉ V → x v = 0) → ∑ v ∈ V, x v = 1 → x l ≠ 0 → ∑ β ∈ D, c β * ∏ v, x v ^ β v = 0) :
    ∀ β ∈ D, (∀ v, β v ≠ 0 → v ∈ V) → c β = 0 := by
  classical
  haveI : Infinite 𝕜 := CharZero.infinite 𝕜
  intro β0 hβ0 hs0
  let D' := D.filter (fun β => ∀ v, β v ≠ 0 → v ∈ V)
  let P : MvPolynomial (Fin nv) 𝕜 := ∑ β ∈ D', monomial (Finsupp.equivFunOnFinite.symm β) (c β)
  have evalP : ∀ y, eval y P = ∑ β ∈ D', c β * ∏ v, y v ^ β v := by
    intro y
    simp only [P, map_sum, eval_monomial]
    refine Finset.sum_congr rfl fun β _ => ?_
    rw [Finsupp.prod_fintype _ _ (fun _ => pow_zero _)]
    rfl
  have key : X l * (∑ v ∈ V, X v) * P = 0 := by
    refine MvPolynomial.funext fun y => ?_
    rw [map_mul, map_mul, map_zero, map_sum, eval_X]
    simp only [eval_X]
    by_cases hyl : y l = 0
    · rw [hyl]; ring
    by_cases hs : ∑ v ∈ V, y v = 0
    · rw [hs]; ring
    have hx := h (fun v => if v ∈ V then y v / ∑ w ∈ V, y w else 0) (fun v hv => if_neg hv)
      (by rw [Finset.sum_congr rfl (fun v hv => if_pos hv), Finset.sum_congr rfl (fun v _ => div_eq_mul_inv (y v) _), ← Finset.sum_mul, mul_inv_cancel₀ hs])
      (by rw [if_pos hl]; exact div_ne_zero hyl hs)
    have hz : ∑ β ∈ D', c β * ∏ v, (if v ∈ V then y v / ∑ w ∈ V, y w else 0) ^ β v = 0 := by
      refine Eq.trans ?_ hx
      refine Finset.sum_subset (Finset.filter_subset _ _) fun β hβ hβ' => ?_
      have : ¬ ∀ v, β v ≠ 0 → v ∈ V := fun hh => hβ' (Finset.mem_filter.mpr ⟨hβ, hh⟩)
      push Not at this
      obtain ⟨v, hv, hvV⟩ := this
      rw [Finset.prod_eq_zero (Finset.mem_univ v) (by rw [if_neg hvV, zero_pow hv]), mul_zero]
    have hfin : eval y P = 0 := by
      rw [evalP]
      have : ∀ β ∈ D', c β * ∏ v, y v ^ β v =
          (∑ w ∈ V, y w) ^ q * (c β * ∏ v, (if v ∈ V then y v / ∑ w ∈ V, y w else 0) ^ β v) := by
        intro β hβ
        obtain ⟨hβ, hb⟩ := Finset.mem_filter.mp hβ
        rw [← hD β hβ, ← Finset.prod_pow_eq_pow_sum, mul_left_comm, ← Finset.prod_mul_distrib]
        congr 1
        refine Finset.prod_congr rfl fun v _ => ?_
        by_cases hv : v ∈ V
        · rw [if_pos hv, ← mul_pow, mul_div_cancel₀ _ hs]
        · have : β v = 0 := by
            by_contra hne
            exact hv (hb v hne)
          rw [this]
          simp
      rw [Finset.sum_congr rfl this, ← Finset.mul_sum, hz, mul_zero]
    rw [hfin, mul_zero]
  have hP : P = 0 := by
    refine (mul_eq_zero.mp key).resolve_left (mul_ne_zero (X_ne_zero l) fun e => ?_)
    have := congrArg (eval (fun v => if v = l then (1 : 𝕜) else 0)) e
    rw [map_sum, map_zero] at this
    simp only [eval_X, Finset.sum_ite_eq', if_pos hl] at this
    exact one_ne_zero this
  have hc := congrArg (coeff (Finsupp.equivFunOnFinite.symm β0)) hP
  simp only [P, coeff_sum, coeff_monomial, coeff_zero] at hc
  rw [Finset.sum_eq_single β0] at hc
  · simpa using hc
  · intro β _ hne
    rw [if_neg]
    intro e
    exact hne (Finsupp.equivFunOnFinite.symm.injective e)
  · intro hno
    exact absurd (Finset.mem_filter.mpr ⟨hβ0, hs0⟩) hno

end
end Tulip
