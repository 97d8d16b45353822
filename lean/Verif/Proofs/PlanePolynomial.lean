import Verif.Proofs.Interpolation
import Verif.Proofs.Refined
import Mathlib.Analysis.SpecialFunctions.Integrals.Basic
import Mathlib.MeasureTheory.Integral.IntervalIntegral.IntegrationByParts

/-!
# Polynomials as functions in the plane
-/

namespace Tulip
open MeasureTheory Set Spec MvPolynomial

/-- A polynomial as a function in the plane. -/
noncomputable def polyAt (P : MvPolynomial (Fin 2) ℝ) (x : ℝ × ℝ) : ℝ := eval ![x.1, x.2] P

theorem polyAt_C (c : ℝ) : polyAt (C c) = fun _ => c := funext fun _ => eval_C _
theorem polyAt_add (P R : MvPolynomial (Fin 2) ℝ) : polyAt (P + R) = fun x => polyAt P x + polyAt R x := funext fun _ => map_add _ _ _
theorem polyAt_mul (P R : MvPolynomial (Fin 2) ℝ) : polyAt (P * R) = fun x => polyAt P x * polyAt R x := funext fun _ => map_mul _ _ _
theorem polyAt_X0 : polyAt (X 0) = Prod.fst := funext fun x => by simp [polyAt]
theorem polyAt_X1 : polyAt (X 1) = Prod.snd := funext fun x => by simp [polyAt]

theorem polyAt_contDiff (P : MvPolynomial (Fin 2) ℝ) : ContDiff ℝ 1 (polyAt P) := by
  induction P using MvPolynomial.induction_on with
  | C c => rw [polyAt_C]; exact contDiff_const
  | add P R hP hR => rw [polyAt_add]; exact hP.add hR
  | mul_X P i hP =>
    rw [polyAt_mul]
    refine hP.mul ?_
    fin_cases i
    · rw [Fin.zero_eta, polyAt_X0]; exact contDiff_fst
    · rw [Fin.mk_one, polyAt_X1]; exact contDiff_snd

theorem polyAt_hasFDerivAt (P : MvPolynomial (Fin 2) ℝ) (x : ℝ × ℝ) : HasFDerivAt (polyAt P)
    (polyAt (pderiv 0 P) x • ContinuousLinearMap.fst ℝ ℝ ℝ + polyAt (pderiv 1 P) x • ContinuousLinearMap.snd ℝ ℝ ℝ) x := by
  induction P using MvPolynomial.induction_on with
  | C c =>
    rw [polyAt_C]
    convert hasFDerivAt_const c x using 1
    simp [polyAt]
  | add P R hP hR =>
    rw [polyAt_add]
    refine (hP.add hR).congr_fderiv ?_
    simp only [map_add, polyAt_add]
    module
  | mul_X P i hP =>
    rw [polyAt_mul]
    have n01 : (0 : Fin 2) ≠ 1 := by decide
    fin_cases i
    · simp only [Fin.zero_eta]
      have hX : HasFDerivAt (polyAt (X 0)) (ContinuousLinearMap.fst ℝ ℝ ℝ) x := by
        rw [polyAt_X0]
        exact hasFDerivAt_fst
      refine (hP.mul hX).congr_fderiv ?_
      simp only [pderiv_mul, pderiv_X_self, pderiv_X_of_ne n01, polyAt_add, polyAt_mul, mul_one, mul_zero, add_zero]
      module
    · simp only [Fin.mk_one]
      have hX : HasFDerivAt (polyAt (X 1)) (ContinuousLinearMap.snd ℝ ℝ ℝ) x := by
        rw [polyAt_X1]
        exact hasFDerivAt_snd
      refine (hP.mul hX).congr_fderiv ?_
      simp only [pderiv_mul, pderiv_X_self, pderiv_X_of_ne n01.symm, polyAt_add, polyAt_mul, mul_one, mul_zero, add_zero]
      module

theorem polyAt_gradSq (P : MvPolynomial (Fin 2) ℝ) (x : ℝ × ℝ) :
    gradSq (polyAt P) x = polyAt (pderiv 0 P * pderiv 0 P + pderiv 1 P * pderiv 1 P) x := by
  unfold gradSq
  rw [(polyAt_hasFDerivAt P x).fderiv, polyAt_add, polyAt_mul, polyAt_mul]
  simp
  ring

/-- The beta integral. -/
theorem integral_beta (j k : Nat) : ∫ y in (0 : ℝ)..1, y ^ j * (1 - y) ^ k = (j.factorial * k.factorial : ℝ) / (j + k + 1).factorial := by
  induction k generalizing j with
  | zero =>
    simp only [pow_zero, mul_one, integral_pow, one_pow, Nat.factorial_zero, Nat.cast_one, add_zero]
    rw [Nat.factorial_succ]
    have : ((j.factorial : ℕ) : ℝ) ≠ 0 := Nat.cast_ne_zero.mpr (Nat.factorial_ne_zero j)
    push_cast
    field_simp
    simp
  | succ k ih =>
    have hparts := intervalIntegral.integral_mul_deriv_eq_deriv_mul (a := (0 : ℝ)) (b := 1) (u := fun y => (1 - y) ^ (k + 1))
      (u' := fun y => -((k + 1 : ℝ) * (1 - y) ^ k)) (v := fun y => y ^ (j + 1) / (j + 1 : ℝ)) (v' := fun y => y ^ j)
      (fun y _ => by
        have := ((hasDerivAt_id y).const_sub 1).pow (k + 1)
        exact this.congr_deriv (by simp))
      (fun y _ => by
        have := (hasDerivAt_pow (j + 1) y).div_const (j + 1 : ℝ)
        have e : (↑(j + 1) * y ^ (j + 1 - 1) / (j + 1 : ℝ)) = y ^ j := by
          have : (j + 1 : ℝ) ≠ 0 := by positivity
          push_cast
          field_simp
        rwa [e] at this)
      (by apply Continuous.intervalIntegrable; fun_prop) (by apply Continuous.intervalIntegrable; fun_prop)
    have e1 : ∫ y in (0 : ℝ)..1, y ^ j * (1 - y) ^ (k + 1) = ∫ y in (0 : ℝ)..1, (1 - y) ^ (k + 1) * y ^ j := by
      simp only [mul_comm]
    have e2 : ∀ y : ℝ, -((k + 1 : ℝ) * (1 - y) ^ k) * (y ^ (j + 1) / (j + 1 : ℝ)) = -((k + 1 : ℝ) / (j + 1)) * (y ^ (j + 1) * (1 - y) ^ k) :=
      fun y => by ring
    rw [e1, hparts]
    simp only [e2, intervalIntegral.integral_const_mul, ih]
    have hj : (j + 1 : ℝ) ≠ 0 := by positivity
    have e3 : j + 1 + k + 1 = j + (k + 1) + 1 := by ring
    rw [e3, Nat.factorial_succ j, Nat.factorial_succ k]
    push_cast
    simp
    field_simp

/-- Integrals of monomials over the reference triangle. -/
theorem integral_monomial (j k : Nat) : ∫ p in refTri, p.1 ^ j * p.2 ^ k = (j.factorial * k.factorial : ℝ) / (j + k + 2).factorial := by
  rw [integral_refTri (by fun_prop)]
  have : ∀ y : ℝ, ∫ z in (0 : ℝ)..(1 - y), y ^ j * z ^ k = 1 / (k + 1) * (y ^ j * (1 - y) ^ (k + 1)) := fun y => by
    rw [intervalIntegral.integral_const_mul, integral_pow]
    simp
    ring
  simp only [this, intervalIntegral.integral_const_mul, integral_beta]
  have e3 : j + (k + 1) + 1 = j + k + 2 := by ring
  rw [e3, Nat.factorial_succ k]
  push_cast
  field_simp

/-- Exact rules give the integrals. -/
theorem integral_exact {Q : Rule ℝ} {m : Nat} (hQ : ExactRule Q m) {P : MvPolynomial (Fin 2) ℝ} (hP : P.totalDegree ≤ m) :
    triIntegral Q P = 2 * ∫ p in refTri, polyAt P p := by
  have hev : ∀ y z : ℝ, eval ![y, z] P = ∑ d ∈ P.support, coeff d P * (y ^ d 0 * z ^ d 1) := fun y z => by
    rw [eval_eq']
    simp [Fin.prod_univ_two]
  have h1 : ∫ p in refTri, polyAt P p = ∑ d ∈ P.support, coeff d P * (((d 0).factorial * (d 1).factorial : ℝ) / (d 0 + d 1 + 2).factorial) := by
    simp only [polyAt, hev]
    rw [integral_finsetSum]
    · refine Finset.sum_congr rfl fun d _ => ?_
      rw [integral_const_mul, integral_monomial]
    · intro d _
      exact (Continuous.continuousOn (by fun_prop)).integrableOn_compact refTri_compact
  have h2 : triIntegral Q P = ∑ d ∈ P.support, coeff d P * (Q.tri.map (fun r => r.1 * (r.2.1 ^ d 0 * r.2.2 ^ d 1))).sum := by
    unfold triIntegral
    simp only [hev]
    induction Q.tri with
    | nil => simp
    | cons r l ih =>
      rw [List.map_cons, List.sum_cons, ih, Finset.mul_sum, ← Finset.sum_add_distrib]
      simp only [List.map_cons, List.sum_cons]
      exact Finset.sum_congr rfl fun d _ => by ring
  rw [h1, h2, Finset.mul_sum]
  refine Finset.sum_congr rfl fun d hd => ?_
  have hdeg : d 0 + d 1 ≤ m := by
    have := (le_totalDegree hd).trans hP
    rwa [Finsupp.sum_fintype _ _ fun _ => rfl, Fin.sum_univ_two] at this
  rw [hQ.tri _ _ hdeg]
  ring

variable {T : Triangulation ℝ}

theorem position_triMap (t : Tri T.nv) (p : ℝ × ℝ) :
    position T t ![p.1, p.2] = triMap (T.coord t.a) (T.coord t.b) (T.coord t.c) p := by
  rw [triMap_apply]
  unfold position linearOn
  simp only [map_add, map_mul, map_sub, map_one, eval_C, eval_X, Matrix.cons_val_zero, Matrix.cons_val_one]
  refine Prod.ext ?_ ?_ <;> simp only <;> ring

theorem polyAt_triMap (t : Tri T.nv) (H : MvPolynomial (Fin 2) ℝ) (p : ℝ × ℝ) :
    polyAt H (triMap (T.coord t.a) (T.coord t.b) (T.coord t.c) p) = polyAt (fromPlane T t H) p := by
  unfold polyAt
  rw [fromPlane_point, position_triMap]

/-- The energy in a triangle, by an exact rule and as an integral. -/
theorem integral_fromPlane {Q : Rule ℝ} {m : Nat} (hQ : ExactRule Q m) {t : Tri T.nv} (hd : 0 < T.det t) {H : MvPolynomial (Fin 2) ℝ} (hH : H.totalDegree ≤ m) :
    ∫ x in triangle T t, polyAt H x = T.det t / 2 * triIntegral Q (fromPlane T t H) := by
  unfold triangle
  rw [integral_triangle (by rw [planeDet_det]; exact hd.ne'), planeDet_det, abs_of_pos hd,
    integral_exact hQ ((fromPlane_degree t H).trans hH)]
  simp only [polyAt_triMap]
  ring

end Tulip
