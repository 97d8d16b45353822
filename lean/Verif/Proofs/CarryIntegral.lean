import Verif.Proofs.Carry

/-!
# Integrals of polynomials in the coordinates of another triangle
-/

set_option linter.unusedSectionVars false

namespace Tulip
open Matrix Spec MvPolynomial

section
variable {𝕜 : Type} [Field 𝕜] [CharZero 𝕜] {T T' : Triangulation 𝕜} {number : Fin T.nv ≃ Fin T'.nv} {t : Tri T.nv} {t' : Tri T'.nv}
  {Q Q' : Rule 𝕜} {m : Nat}

/-- Integral of a product of powers of barycentric coordinates. -/
theorem tri_beta (h : ExactRule Q m) : ∀ i j k : Nat, i + j + k ≤ m →
    (Q.tri.map (fun r => r.1 * ((1 - r.2.1 - r.2.2) ^ i * (r.2.1 ^ j * r.2.2 ^ k)))).sum =
      (2 * (i.factorial * (j.factorial * k.factorial)) : 𝕜) / (i + j + k + 2).factorial := by
  intro i
  induction i with
  | zero =>
    intro j k hk
    simp only [pow_zero, one_mul]
    rw [h.tri j k (by omega), Nat.factorial_zero, Nat.cast_one, one_mul, zero_add]
  | succ i ih =>
    intro j k hk
    have e : (Q.tri.map (fun r => r.1 * ((1 - r.2.1 - r.2.2) ^ (i + 1) * (r.2.1 ^ j * r.2.2 ^ k)))).sum =
        (Q.tri.map (fun r => r.1 * ((1 - r.2.1 - r.2.2) ^ i * (r.2.1 ^ j * r.2.2 ^ k)))).sum -
          (Q.tri.map (fun r => r.1 * ((1 - r.2.1 - r.2.2) ^ i * (r.2.1 ^ (j + 1) * r.2.2 ^ k)))).sum -
          (Q.tri.map (fun r => r.1 * ((1 - r.2.1 - r.2.2) ^ i * (r.2.1 ^ j * r.2.2 ^ (k + 1))))).sum := by
      rw [← list_sum_sub, ← list_sum_sub]
      exact congrArg List.sum (List.map_congr_left fun r _ => by ring)
    rw [e, ih j k (by omega), ih (j + 1) k (by omega), ih j (k + 1) (by omega)]
    rw [show i + (j + 1) + k + 2 = (i + j + k + 2) + 1 by omega, show i + j + (k + 1) + 2 = (i + j + k + 2) + 1 by omega,
      show i + 1 + j + k + 2 = (i + j + k + 2) + 1 by omega,
      Nat.factorial_succ (i + j + k + 2), Nat.factorial_succ k, Nat.factorial_succ j, Nat.factorial_succ i]
    have h1 : ((i + j + k + 2).factorial : 𝕜) ≠ 0 := by exact_mod_cast Nat.factorial_ne_zero _
    have h2 : ((i + j + k + 2 + 1 : ℕ) : 𝕜) ≠ 0 := by exact_mod_cast Nat.succ_ne_zero (i + j + k + 2)
    push_cast at h1 h2 ⊢
    field_simp
    ring

theorem triIntegral_points (P : MvPolynomial (Fin 2) 𝕜) : triIntegral Q P = pointSum (triPoints Q) P := by
  unfold triIntegral pointSum triPoints
  rw [List.map_map]
  rfl

/-- Integral of a monomial in two of the barycentric coordinates. -/
theorem bary_monomial (h : ExactRule Q m) (hd : T.det t ≠ 0) {v w : Fin T.nv} (hv : IsVertex t v) (hw : IsVertex t w)
    (hvw : v ≠ w) {j k : Nat} (hjk : j + k ≤ m) : triIntegral Q (baryP 𝕜 t v ^ j * baryP 𝕜 t w ^ k) =
      2 * (j.factorial * k.factorial) / (j + k + 2).factorial := by
  obtain ⟨ha, hb, hc⟩ := baryP_verts (𝕜 := 𝕜) hd
  have key : ∀ (i' j' k' : Nat), i' + j' + k' ≤ m → ∀ R : MvPolynomial (Fin 2) 𝕜,
      R = (1 - X 0 - X 1) ^ i' * (X 0 ^ j' * X 1 ^ k') →
      triIntegral Q R = 2 * (i'.factorial * (j'.factorial * k'.factorial)) / (i' + j' + k' + 2).factorial := by
    rintro i' j' k' hs R rfl
    rw [← tri_beta h i' j' k' hs]
    unfold triIntegral
    exact congrArg List.sum (List.map_congr_left fun r _ => by simp)
  rcases hv with rfl | rfl | rfl <;> rcases hw with rfl | rfl | rfl
  · exact absurd rfl hvw
  · rw [key j k 0 (by omega) _ (by rw [ha, hb, pow_zero, mul_one])]; simp
  · rw [key j 0 k (by omega) _ (by rw [ha, hc, pow_zero, one_mul])]; simp
  · rw [key k j 0 (by omega) _ (by rw [ha, hb, pow_zero, mul_one, mul_comm])]
    rw [Nat.factorial_zero, Nat.cast_one, mul_one, add_zero, add_comm k j, mul_comm (k.factorial : 𝕜)]
  · exact absurd rfl hvw
  · rw [key 0 j k (by omega) _ (by rw [hb, hc, pow_zero, one_mul])]; simp
  · rw [key k 0 j (by omega) _ (by rw [ha, hc, pow_zero, one_mul, mul_comm])]
    rw [Nat.factorial_zero, Nat.cast_one, one_mul, add_zero, add_comm k j, mul_comm (k.factorial : 𝕜)]
  · rw [key 0 k j (by omega) _ (by rw [hb, hc, pow_zero, one_mul, mul_comm])]
    rw [Nat.factorial_zero, Nat.cast_one, one_mul, zero_add, add_comm k j, mul_comm (k.factorial : 𝕜)]
  · exact absurd rfl hvw

/-- Integrals do not depend on which vertex comes first. -/
theorem integral_carry (h : ExactRule Q m) (hQ' : ExactRule Q' m) (hm : Matched number t t') (hd : T.det t ≠ 0) (hd' : T'.det t' ≠ 0)
    {P : MvPolynomial (Fin 2) 𝕜} (hP : P.totalDegree ≤ m) : triIntegral Q (carry number t t' P) = triIntegral Q' P := by
  obtain ⟨c, rfl⟩ := sum_of_terms hP
  rw [triIntegral_points, triIntegral_points, map_sum, pointSum_sum, pointSum_sum]
  refine Finset.sum_congr rfl fun e he => ?_
  rw [map_mul, carry_C, pointSum_C_mul, pointSum_C_mul, tri_monomial hQ' (mem_exponents.mp he), map_mul, map_pow, map_pow, carry_X0,
    carry_X1, ← triIntegral_points]
  refine congrArg (c e * ·) (bary_monomial h hd ?_ ?_ ?_ (mem_exponents.mp he))
  · exact (hm _).mpr (by rw [number.apply_symm_apply]; exact .inr (.inl rfl))
  · exact (hm _).mpr (by rw [number.apply_symm_apply]; exact .inr (.inr rfl))
  · exact fun e => (det_ne hd').2.1 (number.symm.injective e)

end
end Tulip
