import Verif.Spec.Elements
import Mathlib.Combinatorics.Nullstellensatz
import Mathlib.Tactic.LinearCombination
import Mathlib.Tactic.FieldSimp
import Mathlib.Tactic.Linarith
import Mathlib.Tactic.IntervalCases
import Mathlib.Tactic.FinCases

/-!
# Quadrature rules
-/

set_option linter.unusedSectionVars false

namespace Tulip
open Spec MvPolynomial

section
variable {𝕜 : Type} [Field 𝕜]

/-- Exponents of the monomials of degree at most `m`. -/
def exponents (m : Nat) : Finset (Nat × Nat) :=
  (Finset.range (m + 1) ×ˢ Finset.range (m + 1)).filter (fun e => e.1 + e.2 ≤ m)

theorem mem_exponents {m : Nat} {e : Nat × Nat} : e ∈ exponents m ↔ e.1 + e.2 ≤ m := by
  unfold exponents
  simp only [Finset.mem_filter, Finset.mem_product, Finset.mem_range]
  omega

/-- A polynomial in two variables as a sum of its terms. -/
theorem sum_of_terms {m : Nat} {P : MvPolynomial (Fin 2) 𝕜} (h : P.totalDegree ≤ m) :
    ∃ c : Nat × Nat → 𝕜, P = ∑ e ∈ exponents m, C (c e) * (X 0 ^ e.1 * X 1 ^ e.2) := by
  classical
  let f : Nat × Nat → (Fin 2 →₀ Nat) := fun e => Finsupp.single 0 e.1 + Finsupp.single 1 e.2
  have f0 : ∀ e, f e 0 = e.1 := fun e => by simp [f]
  have f1 : ∀ e, f e 1 = e.2 := fun e => by simp [f]
  have hf : Function.Injective f := by
    intro e e' h
    exact Prod.ext (by rw [← f0 e, h, f0]) (by rw [← f1 e, h, f1])
  have hs : ∀ d : Fin 2 →₀ Nat, d = f (d 0, d 1) := by
    intro d
    ext i
    fin_cases i
    · exact (f0 (d 0, d 1)).symm
    · exact (f1 (d 0, d 1)).symm
  refine ⟨fun e => coeff (f e) P, ?_⟩
  have hsub : P.support ⊆ (exponents m).image f := by
    intro d hd
    refine Finset.mem_image.mpr ⟨(d 0, d 1), mem_exponents.mpr ?_, (hs d).symm⟩
    have := (le_totalDegree hd).trans h
    rwa [Finsupp.sum_fintype _ _ (fun _ => rfl), Fin.sum_univ_two] at this
  conv_lhs => rw [P.as_sum]
  rw [Finset.sum_subset hsub (fun d _ hd => by rw [notMem_support_iff.mp hd, monomial_zero]),
    Finset.sum_image (fun a _ b _ h => hf h)]
  refine Finset.sum_congr rfl fun e _ => ?_
  rw [monomial_eq, Finsupp.prod_fintype _ _ (fun _ => pow_zero _), Fin.prod_univ_two, f0, f1]

end

section
variable {𝕜 : Type} [Field 𝕜] [LinearOrder 𝕜] [IsStrictOrderedRing 𝕜]

/-- A rule with `(p + 1) * (p + 1)` points in a triangle. -/
def gridRule (𝕜 : Type) [Field 𝕜] (p : Nat) : Rule 𝕜 where
  tri := ((List.range (p + 1)).product (List.range (p + 1))).map (fun e : ℕ × ℕ => (1 / (p + 1) ^ 2, (e.1 : 𝕜) / (2 * (p + 1)), (e.2 : 𝕜) / (2 * (p + 1))))
  seg := (List.range (p + 1)).map (fun i : ℕ => (1 / (p + 1), (i : 𝕜) / (p + 1)))

/-- There are adequate rules for every order. -/
theorem gridRule_adequate (p : Nat) : Adequate (gridRule 𝕜 p) p where
  tri := by
    intro r hr
    obtain ⟨e, _, rfl⟩ := List.mem_map.mp hr
    positivity
  seg := by
    intro r hr
    obtain ⟨i, hi, rfl⟩ := List.mem_map.mp hr
    have hi : (i : 𝕜) ≤ p := by exact_mod_cast Nat.lt_succ_iff.mp (List.mem_range.mp hi)
    refine ⟨by positivity, by positivity, ?_⟩
    show (i : 𝕜) / (p + 1) ≤ 1
    rw [div_le_one (by positivity)]
    linarith
  determines := by
    classical
    intro P hP h
    have h2 : (2 * ((p : 𝕜) + 1)) ≠ 0 := by positivity
    let G : Finset 𝕜 := (Finset.range (p + 1)).image (fun i : ℕ => (i : 𝕜) / (2 * (p + 1)))
    have hG : G.card = p + 1 := by
      rw [Finset.card_image_of_injective, Finset.card_range]
      intro i j hij
      exact_mod_cast (div_left_inj' h2).mp hij
    refine eq_zero_of_eval_zero_at_prod_finset P (fun _ => G) (fun i => ?_) (fun x hx => ?_)
    · rw [hG]
      exact Nat.lt_succ_of_le ((degreeOf_le_totalDegree P i).trans hP)
    · obtain ⟨i, hi, e0⟩ := Finset.mem_image.mp (hx 0)
      obtain ⟨j, hj, e1⟩ := Finset.mem_image.mp (hx 1)
      have := h _ (List.mem_map.mpr ⟨(i, j), List.pair_mem_product.mpr ⟨List.mem_range.mpr (Finset.mem_range.mp hi), List.mem_range.mpr (Finset.mem_range.mp hj)⟩, rfl⟩)
      dsimp only at this
      rw [e0, e1] at this
      rw [← this]
      congr 1
      congr 1
      funext k
      fin_cases k <;> rfl

/-- The closed Newton-Cotes rules of degree 3 (ten points in a triangle, Simpson's 3/8 rule on a segment). -/
def cubicRule (𝕜 : Type) [Field 𝕜] : Rule 𝕜 where
  tri := [(1/30, 0, 0), (1/30, 1, 0), (1/30, 0, 1), (3/40, 1/3, 0), (3/40, 2/3, 0), (3/40, 0, 1/3), (3/40, 0, 2/3),
    (3/40, 1/3, 2/3), (3/40, 2/3, 1/3), (9/20, 1/3, 1/3)]
  seg := [(1/8, 0), (3/8, 1/3), (3/8, 2/3), (1/8, 1)]

theorem cubicRule_exact : ExactRule (cubicRule 𝕜) 3 where
  tri := by
    intro j k hjk
    have hj : j ≤ 3 := by omega
    have hk : k ≤ 3 := by omega
    interval_cases j <;> interval_cases k <;> first | omega | (simp [cubicRule, Nat.factorial]; norm_num)
  seg := by
    intro j hj
    interval_cases j <;> · simp [cubicRule]; norm_num

theorem cubicRule_adequate {p : Nat} (hp : p ≤ 3) : Adequate (cubicRule 𝕜) p where
  tri := by
    intro r hr
    simp only [cubicRule, List.mem_cons, List.not_mem_nil, or_false] at hr
    rcases hr with rfl | rfl | rfl | rfl | rfl | rfl | rfl | rfl | rfl | rfl <;> norm_num
  seg := by
    intro r hr
    simp only [cubicRule, List.mem_cons, List.not_mem_nil, or_false] at hr
    rcases hr with rfl | rfl | rfl | rfl <;> norm_num
  determines := by
    intro P hP h
    obtain ⟨c, rfl⟩ := sum_of_terms (hP.trans hp)
    have he : exponents 3 = {(0,0), (1,0), (2,0), (3,0), (0,1), (1,1), (2,1), (0,2), (1,2), (0,3)} := by decide
    rw [he] at h ⊢
    simp only [cubicRule, List.forall_mem_cons, List.not_mem_nil, false_imp_iff, implies_true, and_true] at h
    simp only [map_sum, map_mul, map_pow, eval_C, eval_X, Matrix.cons_val_zero, Matrix.cons_val_one] at h
    simp only [Finset.sum_insert, Finset.mem_insert, Finset.mem_singleton, Prod.mk.injEq, Finset.sum_singleton,
      OfNat.ofNat_ne_zero, OfNat.ofNat_ne_one, one_ne_zero, zero_ne_one, and_false, false_and, or_false, not_false_eq_true, and_true, true_and,
      OfNat.zero_ne_ofNat, OfNat.one_ne_ofNat, Nat.reduceEqDiff, false_or, pow_zero, pow_one, mul_one, one_mul, zero_pow, ne_eq, mul_zero, add_zero, zero_add, one_pow] at h
    obtain ⟨h0, h1, h2, h3, h4, h5, h6, h7, h8, h9⟩ := h
    have a0 : c (0, 0) = 0 := by linarith
    have a1 : c (1, 0) = 0 := by linarith
    have a2 : c (2, 0) = 0 := by linarith
    have a3 : c (3, 0) = 0 := by linarith
    have b1 : c (0, 1) = 0 := by linarith
    have b2 : c (0, 2) = 0 := by linarith
    have b3 : c (0, 3) = 0 := by linarith
    have d1 : c (1, 1) = 0 := by linarith
    have d2 : c (2, 1) = 0 := by linarith
    have d3 : c (1, 2) = 0 := by linarith
    refine Finset.sum_eq_zero fun e he => ?_
    simp only [Finset.mem_insert, Finset.mem_singleton] at he
    rcases he with rfl | rfl | rfl | rfl | rfl | rfl | rfl | rfl | rfl | rfl <;> simp only [a0, a1, a2, a3, b1, b2, b3, d1, d2, d3, C_0, zero_mul]

end
end Tulip
