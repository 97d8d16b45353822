import Verif.Spec.Elements
import Verif.Proofs.MidpointRule
import Mathlib.Algebra.MvPolynomial.Funext

/-!
# Exact quadrature rules with positive weights for triangles and segments, for every degree
-/

namespace Tulip.Quadrature
open Tulip Tulip.Spec MvPolynomial

variable {𝕜 : Type} [Field 𝕜]

/-- the collapsed square -/
def collapsed (l : List (𝕜 × 𝕜)) : List (𝕜 × 𝕜 × 𝕜) :=
  l.flatMap fun r => l.map fun s => (2 * (r.1 * s.1) * (1 - r.2), r.2, (1 - r.2) * s.2)

theorem list_sum_mul (l : List (𝕜 × 𝕜)) (c : 𝕜) (f : 𝕜 × 𝕜 → 𝕜) : (l.map (fun r => c * f r)).sum = c * (l.map f).sum := by
  induction l with
  | nil => simp
  | cons a t ih => simp [ih, mul_add]

theorem list_sum_sub (l : List (𝕜 × 𝕜)) (f g : 𝕜 × 𝕜 → 𝕜) : (l.map (fun r => f r - g r)).sum = (l.map f).sum - (l.map g).sum := by
  induction l with
  | nil => simp
  | cons a t ih => simp [ih]; ring

theorem collapsed_sum (l : List (𝕜 × 𝕜)) (j k : Nat) :
    ((collapsed l).map (fun r => r.1 * (r.2.1 ^ j * r.2.2 ^ k))).sum =
      2 * (l.map (fun r => r.1 * (r.2 ^ j * (1 - r.2) ^ (k + 1)))).sum * (l.map (fun r => r.1 * r.2 ^ k)).sum := by
  have key : ∀ l' : List (𝕜 × 𝕜), ((l'.flatMap fun r => l.map fun s => (2 * (r.1 * s.1) * (1 - r.2), r.2, (1 - r.2) * s.2)).map
      (fun r : 𝕜 × 𝕜 × 𝕜 => r.1 * (r.2.1 ^ j * r.2.2 ^ k))).sum =
      2 * (l'.map (fun r => r.1 * (r.2 ^ j * (1 - r.2) ^ (k + 1)))).sum * (l.map (fun r => r.1 * r.2 ^ k)).sum := by
    intro l'
    induction l' with
    | nil => simp
    | cons a t ih =>
      simp only [List.flatMap_cons, List.map_append, List.sum_append, ih, List.map_cons, List.sum_cons, List.map_map]
      have : (l.map ((fun r : 𝕜 × 𝕜 × 𝕜 => r.1 * (r.2.1 ^ j * r.2.2 ^ k)) ∘
          fun s => (2 * (a.1 * s.1) * (1 - a.2), a.2, (1 - a.2) * s.2))).sum =
          2 * (a.1 * (a.2 ^ j * (1 - a.2) ^ (k + 1))) * (l.map (fun r => r.1 * r.2 ^ k)).sum := by
        rw [← list_sum_mul]
        refine congrArg List.sum (List.map_congr_left fun s _ => ?_)
        simp only [Function.comp, mul_pow, pow_succ]
        ring
      rw [this]
      ring
  exact key l

/-- the integrals of `x^j (1 - x)^k` -/
theorem beta_sum [CharZero 𝕜] {l : List (𝕜 × 𝕜)} {N : Nat} (h : ∀ j ≤ N, (l.map (fun r => r.1 * r.2 ^ j)).sum = 1 / (j + 1)) (k : Nat) :
    ∀ j, j + k ≤ N → (l.map (fun r => r.1 * (r.2 ^ j * (1 - r.2) ^ k))).sum =
      (j.factorial : 𝕜) * k.factorial / (j + k + 1).factorial := by
  induction k with
  | zero =>
    intro j hj
    simp only [pow_zero, mul_one, Nat.factorial_zero, Nat.cast_one, Nat.add_zero]
    rw [h j hj, Nat.factorial_succ]
    have : (j.factorial : 𝕜) ≠ 0 := by exact_mod_cast Nat.factorial_ne_zero j
    have : ((j : 𝕜) + 1) ≠ 0 := by exact_mod_cast Nat.succ_ne_zero j
    push_cast
    field_simp
  | succ k ih =>
    intro j hj
    have e : (l.map (fun r => r.1 * (r.2 ^ j * (1 - r.2) ^ (k + 1)))) =
        l.map (fun r => r.1 * (r.2 ^ j * (1 - r.2) ^ k) - r.1 * (r.2 ^ (j + 1) * (1 - r.2) ^ k)) :=
      List.map_congr_left fun r _ => by ring
    rw [e, list_sum_sub, ih j (by omega), ih (j + 1) (by omega)]
    rw [show j + 1 + k + 1 = (j + k + 1) + 1 by ring, show j + (k + 1) + 1 = (j + k + 1) + 1 by ring,
      Nat.factorial_succ (j + k + 1), Nat.factorial_succ j, Nat.factorial_succ k]
    have h1 : ((j + k + 1).factorial : 𝕜) ≠ 0 := by exact_mod_cast Nat.factorial_ne_zero _
    have h2 : ((j : 𝕜) + k + 1 + 1) ≠ 0 := by exact_mod_cast Nat.succ_ne_zero (j + k + 1)
    push_cast
    field_simp
    ring

/-- A polynomial of low degree that vanishes at the points of the collapsed square is zero. -/
theorem collapsed_determines [CharZero 𝕜] {l : List (𝕜 × 𝕜)} {p : Nat} (hn : (l.map Prod.snd).Nodup) (hl : p < l.length)
    (h1 : ∀ r ∈ l, r.2 ≠ 1) {P : MvPolynomial (Fin 2) 𝕜} (hP : P.totalDegree ≤ p)
    (h0 : ∀ r ∈ collapsed l, eval ![r.2.1, r.2.2] P = 0) : P = 0 := by
  classical
  have hcard : (l.map Prod.snd).toFinset.card = l.length := by
    rw [List.toFinset_card_of_nodup hn, List.length_map]
  -- a polynomial in one variable with that many zeros
  have zero : ∀ q : Polynomial 𝕜, q.natDegree ≤ p → (∀ r ∈ l, q.eval r.2 = 0) → q = 0 := by
    intro q hq h
    refine Polynomial.eq_zero_of_natDegree_lt_card_of_eval_eq_zero' q (l.map Prod.snd).toFinset ?_ (by rw [hcard]; omega)
    intro x hx
    obtain ⟨r, hr, rfl⟩ := List.mem_map.mp (List.mem_toFinset.mp hx)
    exact h r hr
  have ev : ∀ (a b : Polynomial 𝕜) (t : 𝕜), (aeval ![a, b] P).eval t = eval ![a.eval t, b.eval t] P := by
    intro a b t
    have h : ∀ Q : MvPolynomial (Fin 2) 𝕜, (aeval ![a, b] Q).eval t = eval ![a.eval t, b.eval t] Q := by
      intro Q
      induction Q using MvPolynomial.induction_on with
      | C c => simp
      | add u v hu hv => simp [hu, hv]
      | mul_X u i hu => fin_cases i <;> simp [hu]
    exact h P
  -- lines through the points
  have line : ∀ r ∈ l, ∀ y, eval ![r.2, y] P = 0 := by
    intro r hr y
    have hq := zero (aeval ![Polynomial.C r.2, Polynomial.C (1 - r.2) * Polynomial.X] P)
      ((aeval_natDegree_le P hP _ (n := 1) (by
        intro i
        fin_cases i
        · simp
        · exact Polynomial.natDegree_C_mul_le _ _ |>.trans Polynomial.natDegree_X_le)).trans (by omega)) (by
        intro s hs
        rw [ev]
        simp only [Polynomial.eval_C, Polynomial.eval_mul, Polynomial.eval_X]
        exact h0 (2 * (r.1 * s.1) * (1 - r.2), r.2, (1 - r.2) * s.2)
          (List.mem_flatMap.mpr ⟨r, hr, List.mem_map.mpr ⟨s, hs, rfl⟩⟩))
    have := congrArg (Polynomial.eval (y / (1 - r.2))) hq
    rw [ev] at this
    simp only [Polynomial.eval_C, Polynomial.eval_mul, Polynomial.eval_X, Polynomial.eval_zero] at this
    rwa [mul_div_cancel₀ _ (sub_ne_zero.mpr (h1 r hr).symm)] at this
  have : Infinite 𝕜 := Infinite.of_injective (fun n : ℕ => (n : 𝕜)) Nat.cast_injective
  apply MvPolynomial.funext
  intro x
  rw [map_zero]
  have hq := zero (aeval ![Polynomial.X, Polynomial.C (x 1)] P)
      ((aeval_natDegree_le P hP _ (n := 1) (by
        intro i
        fin_cases i
        · exact Polynomial.natDegree_X_le
        · simp)).trans (by omega)) (by
        intro s hs
        rw [ev]
        simp only [Polynomial.eval_C, Polynomial.eval_X]
        exact line s hs _)
  have := congrArg (Polynomial.eval (x 0)) hq
  rw [ev] at this
  simp only [Polynomial.eval_C, Polynomial.eval_X, Polynomial.eval_zero] at this
  rw [← this]
  congr 1
  congr 1
  funext i
  fin_cases i <;> rfl

variable [LinearOrder 𝕜] [IsStrictOrderedRing 𝕜]

/-- For every order and degree there is a rule that is adequate for the order and exact for the degree. -/
theorem exact_rule_exists (p m : Nat) : ∃ Q : Rule 𝕜, Adequate Q p ∧ ExactRule Q m := by
  obtain ⟨l₀, h1, h2, h3, h4⟩ := segment_rule (max p (m + 1))
  obtain ⟨l, hl⟩ : ∃ l : List (𝕜 × 𝕜), l = l₀.map (fun r => ((r.1 : 𝕜), (r.2 : 𝕜))) := ⟨_, rfl⟩
  have k1 : ∀ r ∈ l, 0 < r.1 ∧ 0 < r.2 ∧ r.2 < 1 := by
    intro r hr
    rw [hl] at hr
    obtain ⟨s, hs, rfl⟩ := List.mem_map.mp hr
    obtain ⟨a, b, c⟩ := h1 s hs
    have c' : ((s.2 : ℚ) : 𝕜) < ((1 : ℚ) : 𝕜) := Rat.cast_lt.mpr c
    exact ⟨Rat.cast_pos.mpr a, Rat.cast_pos.mpr b, by simpa using c'⟩
  have k2 : (l.map Prod.snd).Nodup := by
    rw [hl, List.map_map, show (Prod.snd ∘ fun r : ℚ × ℚ => ((r.1 : 𝕜), (r.2 : 𝕜))) = (fun x : ℚ => (x : 𝕜)) ∘ Prod.snd from rfl,
      ← List.map_map]
    exact h2.map Rat.cast_injective
  have k3 : p < l.length := by
    rw [hl, List.length_map]
    exact lt_of_le_of_lt (le_max_left _ _) h3
  have k4 : ∀ j ≤ m + 1, (l.map (fun r => r.1 * r.2 ^ j)).sum = 1 / (j + 1) := by
    intro j hj
    have := congrArg (fun x : ℚ => (x : 𝕜)) (h4 j (hj.trans (le_max_right _ _)))
    simp only [Rat.cast_div, Rat.cast_one, Rat.cast_add, Rat.cast_natCast] at this
    rw [← this, hl, List.map_map, Rat.cast_list_sum, List.map_map]
    refine congrArg List.sum (List.map_congr_left fun r _ => ?_)
    simp
  refine ⟨⟨collapsed l, l⟩, ⟨?_, fun r hr => ⟨(k1 r hr).1.le, (k1 r hr).2.1.le, (k1 r hr).2.2.le⟩,
    fun P hP h0 => collapsed_determines k2 k3 (fun r hr => (k1 r hr).2.2.ne) hP h0⟩, ⟨?_, fun j hj => k4 j (by omega)⟩⟩
  · intro r hr
    obtain ⟨a, ha, hr⟩ := List.mem_flatMap.mp hr
    obtain ⟨b, hb, rfl⟩ := List.mem_map.mp hr
    have := (k1 a ha)
    have := (k1 b hb).1
    have h3 : 0 < 1 - a.2 := by linarith
    have h4 := (k1 a ha).1
    simp only
    positivity
  · intro j k hjk
    rw [collapsed_sum, beta_sum k4 (k + 1) j (by omega), k4 k (by omega), Nat.factorial_succ k,
      show j + (k + 1) + 1 = j + k + 2 by ring]
    have h1 : ((k : 𝕜) + 1) ≠ 0 := by exact_mod_cast Nat.succ_ne_zero k
    have h2 : ((j + k + 2).factorial : 𝕜) ≠ 0 := by exact_mod_cast Nat.factorial_ne_zero _
    push_cast
    field_simp

end Tulip.Quadrature
