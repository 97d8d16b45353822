import Verif.Proofs.Floating
import Verif.Props.Capacitance

/-!
# C36, C37: floating potentials
-/

namespace Tulip.Props
open Tulip Tulip.Spec DMat
variable {𝕜 : Type _} [Field 𝕜] [DecidableEq 𝕜]

/-- **C36.** For every capacitance matrix for which all floating problems have exactly one solution, row `i`
of the result is that solution: 1 at `i`, no charge on every other conductor, and no other potentials do
this. If some floating problem has no or several solutions nothing useful is returned. -/
theorem C36_floating {n : Nat} (C : Matrix (Fin n) (Fin n) 𝕜) :
    ((∀ i, ∃! v, FloatingPotentials C i v) → ∃ R : Matrix (Fin n) (Fin n) 𝕜,
      floatingFromC (ofMatrix C) = .ok (ofMatrix R) ∧
      ∀ i, R i i = 1 ∧ (∀ j, j ≠ i → charges C (R i) j = 0) ∧
        ∀ v, FloatingPotentials C i v → v = R i) ∧
    ((∃ i, ¬ ∃! v, FloatingPotentials C i v) → floatingFromC (ofMatrix C) = .nonfinite) := by
  refine ⟨?_, (floatingFromC_eq C).2⟩
  intro h
  obtain ⟨R, h1, h2⟩ := (floatingFromC_eq C).1 h
  exact ⟨R, h1, fun i => ⟨(h2 i).1, (h2 i).2, fun v hv => (h i).unique hv (h2 i)⟩⟩

section ordered
variable [LinearOrder 𝕜] [IsStrictOrderedRing 𝕜]

/-- If `w` is zero at `i` and the charges of `u` are non-negative elsewhere, where `w` is the negative part
of `u` and off-diagonal entries are non-positive, then `w` vanishes. -/
theorem neg_part_zero {n : Nat} {C : Matrix (Fin n) (Fin n) 𝕜} (hC : PD C)
    (hoff : ∀ a b, a ≠ b → C a b ≤ 0) (i : Fin n) (u : Fin n → 𝕜) (hi : 0 ≤ u i)
    (hu : ∀ j, j ≠ i → 0 ≤ C.mulVec u j) : ∀ j, 0 ≤ u j := by
  by_contra hcon
  rw [not_forall] at hcon
  obtain ⟨j0, hj0⟩ := hcon
  rw [not_le] at hj0
  let w : Fin n → 𝕜 := fun j => max (-u j) 0
  let p : Fin n → 𝕜 := fun j => max (u j) 0
  have hup : u = p - w := by
    funext j
    simp only [Pi.sub_apply, p, w]
    rcases le_total 0 (u j) with h | h
    · rw [max_eq_left h, max_eq_right (by linarith)]; ring
    · rw [max_eq_right h, max_eq_left (by linarith)]; ring
  have hw0 : ∀ j, 0 ≤ w j := fun j => le_max_right _ _
  have hp0 : ∀ j, 0 ≤ p j := fun j => le_max_right _ _
  have hwp : ∀ j, w j * p j = 0 := by
    intro j
    simp only [p, w]
    rcases le_total 0 (u j) with h | h
    · rw [max_eq_right (by linarith : -u j ≤ 0)]; ring
    · rw [max_eq_right h]; ring
  have hwi : w i = 0 := max_eq_right (by linarith)
  have hwne : w ≠ 0 := by
    intro e
    have := congrFun e j0
    simp only [w, Pi.zero_apply] at this
    rw [max_eq_left (by linarith)] at this
    linarith
  have h1 : 0 ≤ w ⬝ᵥ C.mulVec u := by
    simp only [dotProduct]
    apply Finset.sum_nonneg
    intro j _
    by_cases hj : j = i
    · rw [hj, hwi]; simp
    · exact mul_nonneg (hw0 j) (hu j hj)
  have h2 : w ⬝ᵥ C.mulVec p ≤ 0 := by
    have : w ⬝ᵥ C.mulVec p = ∑ a, ∑ b, w a * C a b * p b := by
      simp only [Matrix.mulVec, dotProduct, Finset.mul_sum, mul_assoc]
    rw [this]
    apply Finset.sum_nonpos
    intro a _
    apply Finset.sum_nonpos
    intro b _
    by_cases hab : a = b
    · subst hab
      have := hwp a
      have e : w a * C a a * p a = C a a * (w a * p a) := by ring
      rw [e, this]; simp
    · have := hoff a b hab
      have e : w a * C a b * p b = C a b * (w a * p b) := by ring
      rw [e]
      exact mul_nonpos_of_nonpos_of_nonneg this (mul_nonneg (hw0 a) (hp0 b))
  have h3 : 0 < w ⬝ᵥ C.mulVec w := hC.2 w hwne
  rw [hup, Matrix.mulVec_sub, dotProduct_sub] at h1
  linarith

/-- **C37.** If the capacitance matrix is positive definite, every floating problem has exactly one
solution (so the matrix is returned); if moreover off-diagonal entries are non-positive and row sums
non-negative, all floating potentials lie between 0 and 1. -/
theorem C37_bounds {n : Nat} (C : Matrix (Fin n) (Fin n) 𝕜) (hC : PD C) :
    (∀ i, ∃! v, FloatingPotentials C i v) ∧
    ∃ R : Matrix (Fin n) (Fin n) 𝕜, floatingFromC (ofMatrix C) = .ok (ofMatrix R) ∧
      ((∀ a b, a ≠ b → C a b ≤ 0) → (∀ a, 0 ≤ ∑ b, C a b) → ∀ i j, 0 ≤ R i j ∧ R i j ≤ 1) := by
  have hreg : ∀ i, ∃! v, FloatingPotentials C i v := by
    intro i
    rw [← float_regular]
    intro h0
    obtain ⟨y, hy, hAy⟩ := Matrix.exists_mulVec_eq_zero_iff.mpr h0
    apply hy
    have hz : ∀ j, j ≠ i → C.mulVec (Function.update y i 0) j = 0 := by
      intro j hj
      have := congrFun hAy j
      rw [floatMat_mulVec, if_neg hj] at this
      simpa using this
    have hup : Function.update y i 0 = 0 := by
      by_contra hne
      have h1 := hC.2 _ hne
      have h2 : Function.update y i 0 ⬝ᵥ C.mulVec (Function.update y i 0) = 0 := by
        simp only [dotProduct]
        apply Finset.sum_eq_zero
        intro j _
        by_cases hj : j = i
        · rw [hj]; simp
        · rw [hz j hj]; simp
      rw [h2] at h1
      exact lt_irrefl _ h1
    have h2 := congrFun hAy i
    rw [floatMat_mulVec, hup] at h2
    simp at h2
    funext k
    by_cases hk : k = i
    · rw [hk]; exact h2
    · have := congrFun hup k
      simpa [hk] using this
  refine ⟨hreg, ?_⟩
  obtain ⟨R, h1, h2⟩ := (floatingFromC_eq C).1 hreg
  refine ⟨R, h1, ?_⟩
  intro hoff hrow i j
  constructor
  · refine neg_part_zero hC hoff i (R i) (by rw [(h2 i).1]; exact zero_le_one) ?_ j
    intro k hk
    exact le_of_eq ((h2 i).2 k hk).symm
  · have := neg_part_zero hC hoff i (fun k => 1 - R i k) (by
      show (0:𝕜) ≤ 1 - R i i
      rw [show R i i = 1 from (h2 i).1]; simp) (by
      intro k hk
      have e : C.mulVec (fun k => 1 - R i k) k = ∑ b, C k b - C.mulVec (R i) k := by
        simp only [Matrix.mulVec, dotProduct, mul_sub, mul_one, Finset.sum_sub_distrib]
      rw [e]
      have := (h2 i).2 k hk
      unfold charges at this
      rw [this, sub_zero]
      exact hrow k) j
    linarith

end ordered

/-- a case with all hypotheses of C37 -/
example : PD (!![2, -1; -1, 1] : Matrix (Fin 2) (Fin 2) ℚ) ∧
    (∀ a b, a ≠ b → (!![2, -1; -1, 1] : Matrix (Fin 2) (Fin 2) ℚ) a b ≤ 0) ∧
    (∀ a, 0 ≤ ∑ b, (!![2, -1; -1, 1] : Matrix (Fin 2) (Fin 2) ℚ) a b) := by
  refine ⟨⟨?_, ?_⟩, ?_, ?_⟩
  · ext i j; fin_cases i <;> fin_cases j <;> rfl
  · intro x hx
    rw [quad_expand]
    simp [Fin.sum_univ_succ]
    have : ¬ (x 0 = 0 ∧ x 1 = 0) := by
      rintro ⟨h0, h1⟩
      apply hx
      funext k; fin_cases k <;> simp [h0, h1]
    by_contra hneg
    have hsq : x 0 * x 0 + (x 0 - x 1) * (x 0 - x 1) ≤ 0 := by nlinarith
    have h0 : x 0 = 0 := by nlinarith [mul_self_nonneg (x 0), mul_self_nonneg (x 0 - x 1)]
    have h1 : x 1 = 0 := by
      rw [h0] at hsq
      have : x 1 * x 1 ≤ 0 := by nlinarith
      nlinarith [mul_self_nonneg (x 1)]
    exact this ⟨h0, h1⟩
  · intro a b; fin_cases a <;> fin_cases b <;> simp
  · intro a; fin_cases a <;> norm_num [Fin.sum_univ_succ]

end Tulip.Props
