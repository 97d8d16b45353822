import Verif.Proofs.CarryIntegral
import Verif.Spec.Refined
import Mathlib.RingTheory.Polynomial.Basic
import Mathlib.Algebra.Ring.GeomSum

/-!
# Integrals over triangles and their parts
-/

set_option linter.unusedSectionVars false

namespace Tulip
open Spec MvPolynomial

section
variable {𝕜 : Type} [Field 𝕜] [CharZero 𝕜] {T T' : Triangulation 𝕜} {Q Q' : Rule 𝕜} {m : Nat}

/-- Mean of a function on the way from `A` to `B`. -/
noncomputable def lineMean (Q : Rule 𝕜) (G : MvPolynomial (Fin 2) 𝕜) (A B : 𝕜 × 𝕜) : 𝕜 :=
  (Q.seg.map (fun r => r.1 * eval ![(1 - r.2) * A.1 + r.2 * B.1, (1 - r.2) * A.2 + r.2 * B.2] G)).sum

/-- Mean of a power between two numbers. -/
theorem mean_power (h : ExactRule Q m) {n : Nat} (hn : n ≤ m) (x y : 𝕜) :
    (y - x) * (Q.seg.map (fun r => r.1 * ((1 - r.2) * x + r.2 * y) ^ n)).sum = (y ^ (n + 1) - x ^ (n + 1)) / (n + 1) := by
  have e : (Q.seg.map (fun r => r.1 * ((1 - r.2) * x + r.2 * y) ^ n)).sum =
      ∑ k ∈ Finset.range (n + 1), (x ^ k * y ^ (n - k) * (n.choose k)) * (Q.seg.map (fun r => r.1 * ((1 - r.2) ^ k * r.2 ^ (n - k)))).sum := by
    induction Q.seg with
    | nil => simp
    | cons r l ih =>
      simp only [List.map_cons, List.sum_cons, ih, mul_add, Finset.sum_add_distrib]
      congr 1
      rw [add_pow, Finset.mul_sum]
      refine Finset.sum_congr rfl fun k _ => ?_
      rw [mul_pow, mul_pow]
      ring
  have hz : ((n : 𝕜) + 1) ≠ 0 := by exact_mod_cast Nat.succ_ne_zero n
  have e2 : ∀ k ∈ Finset.range (n + 1), (x ^ k * y ^ (n - k) * (n.choose k)) * (Q.seg.map (fun r => r.1 * ((1 - r.2) ^ k * r.2 ^ (n - k)))).sum =
      (x ^ k * y ^ (n + 1 - 1 - k)) / ((n : 𝕜) + 1) := by
    intro k hk
    have hk' : k ≤ n := by have := Finset.mem_range.mp hk; omega
    rw [segment_beta h k (n - k) (by omega), show k + (n - k) + 1 = n + 1 by omega, Nat.add_sub_cancel, Nat.factorial_succ]
    have f : ((n.factorial : ℕ) : 𝕜) ≠ 0 := by exact_mod_cast n.factorial_ne_zero
    have c : ((n.choose k : ℕ) : 𝕜) * (k.factorial * (n - k).factorial) = n.factorial := by
      have := Nat.choose_mul_factorial_mul_factorial hk'
      rw [← this]; push_cast; ring
    push_cast
    field_simp
    linear_combination (x ^ k * y ^ (n - k)) * c
  have g := (Commute.all x y).geom_sum₂_mul (n + 1)
  rw [e, Finset.sum_congr rfl e2]
  simp only [div_eq_mul_inv]
  rw [← Finset.sum_mul]
  linear_combination (-((n : 𝕜) + 1)⁻¹) * g

/-- The line through two points. -/
noncomputable def along (A B : 𝕜 × 𝕜) (G : MvPolynomial (Fin 2) 𝕜) : Polynomial 𝕜 :=
  aeval ![Polynomial.C A.1 + Polynomial.X * Polynomial.C (B.1 - A.1), Polynomial.C A.2 + Polynomial.X * Polynomial.C (B.2 - A.2)] G

theorem along_eval (A B : 𝕜 × 𝕜) (G : MvPolynomial (Fin 2) 𝕜) (s : 𝕜) :
    (along A B G).eval s = eval ![(1 - s) * A.1 + s * B.1, (1 - s) * A.2 + s * B.2] G := by
  have : (Polynomial.evalRingHom s).comp (aeval (R := 𝕜) ![Polynomial.C A.1 + Polynomial.X * Polynomial.C (B.1 - A.1),
      Polynomial.C A.2 + Polynomial.X * Polynomial.C (B.2 - A.2)]).toRingHom =
      eval ![(1 - s) * A.1 + s * B.1, (1 - s) * A.2 + s * B.2] := by
    refine ringHom_ext (fun c => ?_) (Fin.forall_fin_two.mpr ⟨?_, ?_⟩)
    · simp
    · simp
      ring
    · simp
      ring
  exact congrArg (fun f => f G) this

theorem along_degree {A B : 𝕜 × 𝕜} {G : MvPolynomial (Fin 2) 𝕜} (hG : G.totalDegree ≤ m) : (along A B G).natDegree ≤ m := by
  unfold along
  refine (MvPolynomial.aeval_natDegree_le G hG (n := 1) _ (Fin.forall_fin_two.mpr ⟨?_, ?_⟩)).trans (mul_one m).le
  · exact Polynomial.natDegree_add_le_of_degree_le (by simp) ((Polynomial.natDegree_mul_C_le _ _).trans Polynomial.natDegree_X_le)
  · exact Polynomial.natDegree_add_le_of_degree_le (by simp) ((Polynomial.natDegree_mul_C_le _ _).trans Polynomial.natDegree_X_le)

/-- Means between points of a line come from a function on it. -/
theorem line_function (h : ExactRule Q m) {g : Polynomial 𝕜} (hg : g.natDegree ≤ m) :
    ∃ F : 𝕜 → 𝕜, ∀ x y, (y - x) * (Q.seg.map (fun r => r.1 * g.eval ((1 - r.2) * x + r.2 * y))).sum = F y - F x := by
  refine ⟨fun x => ∑ n ∈ Finset.range (m + 1), g.coeff n * (x ^ (n + 1) / ((n : 𝕜) + 1)), fun x y => ?_⟩
  have e : (Q.seg.map (fun r => r.1 * g.eval ((1 - r.2) * x + r.2 * y))).sum =
      ∑ n ∈ Finset.range (m + 1), g.coeff n * (Q.seg.map (fun r => r.1 * ((1 - r.2) * x + r.2 * y) ^ n)).sum := by
    induction Q.seg with
    | nil => simp
    | cons r l ih =>
      simp only [List.map_cons, List.sum_cons, ih, mul_add, Finset.sum_add_distrib]
      congr 1
      rw [Polynomial.eval_eq_sum_range' (Nat.lt_succ_of_le hg), Finset.mul_sum]
      exact Finset.sum_congr rfl fun k _ => by ring
  rw [e, Finset.mul_sum, ← Finset.sum_sub_distrib]
  refine Finset.sum_congr rfl fun n hn => ?_
  have := mean_power h (n := n) (by have := Finset.mem_range.mp hn; omega) x y
  rw [mul_left_comm, this]
  ring

/-- What the way from `A` to `B` contributes to the integral over the domain on its left. -/
noncomputable def contribution (Q : Rule 𝕜) (G : MvPolynomial (Fin 2) 𝕜) (A B : 𝕜 × 𝕜) : 𝕜 := (B.2 - A.2) * lineMean Q G A B

theorem contribution_line (h : ExactRule Q m) {G : MvPolynomial (Fin 2) 𝕜} (hG : G.totalDegree ≤ m) (A B : 𝕜 × 𝕜) :
    ∃ F : 𝕜 × 𝕜 → 𝕜, ∀ x y, OnLine A B x → OnLine A B y → contribution Q G x y = F y - F x := by
  obtain ⟨F, hF⟩ := line_function h (along_degree (A := A) (B := B) hG)
  by_cases hd : B.2 - A.2 = 0
  · refine ⟨fun _ => 0, ?_⟩
    rintro x y ⟨s, rfl⟩ ⟨u, rfl⟩
    unfold contribution
    have : ((1 - u) * A.2 + u * B.2) - ((1 - s) * A.2 + s * B.2) = 0 := by linear_combination (u - s) * hd
    dsimp only
    rw [this]
    ring
  · refine ⟨fun x => (B.2 - A.2) * F ((x.2 - A.2) / (B.2 - A.2)), ?_⟩
    rintro x y ⟨s, rfl⟩ ⟨u, rfl⟩
    have p : ∀ v : 𝕜, ((1 - v) * A.2 + v * B.2 - A.2) / (B.2 - A.2) = v := fun v => by
      field_simp
      ring
    dsimp only
    rw [p, p, ← mul_sub, ← hF]
    unfold contribution lineMean
    have q : (Q.seg.map (fun r => r.1 * (along A B G).eval ((1 - r.2) * s + r.2 * u))).sum =
        (Q.seg.map (fun r => r.1 * eval ![(1 - r.2) * ((1 - s) * A.1 + s * B.1) + r.2 * ((1 - u) * A.1 + u * B.1),
          (1 - r.2) * ((1 - s) * A.2 + s * B.2) + r.2 * ((1 - u) * A.2 + u * B.2)] G)).sum := by
      refine congrArg List.sum (List.map_congr_left fun r _ => ?_)
      rw [along_eval]
      refine congrArg (fun v => r.1 * eval v G) (funext (Fin.forall_fin_two.mpr ⟨?_, ?_⟩))
      · simp only [Matrix.cons_val_zero]
        ring
      · simp only [Matrix.cons_val_one, Matrix.cons_val_fin_one]
        ring
    dsimp only
    rw [q]
    ring

theorem onLine_left (A B : 𝕜 × 𝕜) : OnLine A B A := ⟨0, by simp⟩
theorem onLine_right (A B : 𝕜 × 𝕜) : OnLine A B B := ⟨1, by simp⟩

/-- It changes the sign with the direction. -/
theorem contribution_swap (h : ExactRule Q m) {G : MvPolynomial (Fin 2) 𝕜} (hG : G.totalDegree ≤ m) (A B : 𝕜 × 𝕜) :
    contribution Q G B A = -contribution Q G A B := by
  obtain ⟨F, hF⟩ := contribution_line h hG A B
  rw [hF _ _ (onLine_right A B) (onLine_left A B), hF _ _ (onLine_left A B) (onLine_right A B)]
  ring

/-- Those of the pieces of a straight way add up. -/
theorem contribution_steps (h : ExactRule Q m) {G : MvPolynomial (Fin 2) 𝕜} (hG : G.totalDegree ≤ m) {A B : 𝕜 × 𝕜} {n : Nat}
    {coord : Fin n → 𝕜 × 𝕜} (l : List (Fin n)) {v w : Fin n} (hw : coord w = B)
    (hv : coord v = A) (hl : ∀ x ∈ l, OnLine A B (coord x)) :
    ((steps v l w).map (fun e => contribution Q G (coord e.1) (coord e.2))).sum = contribution Q G A B := by
  obtain ⟨F, hF⟩ := contribution_line h hG A B
  have key : ∀ (l : List (Fin n)) (v : Fin n), OnLine A B (coord v) → (∀ x ∈ l, OnLine A B (coord x)) →
      ((steps v l w).map (fun e => contribution Q G (coord e.1) (coord e.2))).sum = F B - F (coord v) := by
    intro l
    induction l with
    | nil =>
      intro v hv _
      simp only [steps, List.map_cons, List.map_nil, List.sum_cons, List.sum_nil, add_zero, hw]
      exact hF _ _ hv (onLine_right A B)
    | cons x l ih =>
      intro v hv hl
      simp only [steps, List.map_cons, List.sum_cons]
      rw [ih x (hl x (List.mem_cons_self ..)) fun y hy => hl y (List.mem_cons_of_mem _ hy), hF _ _ hv (hl x (List.mem_cons_self ..))]
      ring
  rw [key l v (hv ▸ onLine_left A B) hl, hF _ _ (onLine_left A B) (onLine_right A B), hv]

/-- Rules that are exact give the same. -/
theorem contribution_same (h : ExactRule Q m) (h' : ExactRule Q' m) {G : MvPolynomial (Fin 2) 𝕜} (hG : G.totalDegree ≤ m) (A B : 𝕜 × 𝕜) :
    contribution Q' G A B = contribution Q G A B := by
  have key : ∀ {Q : Rule 𝕜}, ExactRule Q m → lineMean Q G A B = ∑ n ∈ Finset.range (m + 1), (along A B G).coeff n * (1 / ((n : 𝕜) + 1)) := by
    intro Q h
    have e : lineMean Q G A B = ∑ n ∈ Finset.range (m + 1), (along A B G).coeff n * (Q.seg.map (fun r => r.1 * r.2 ^ n)).sum := by
      unfold lineMean
      induction Q.seg with
      | nil => simp
      | cons r l ih =>
        simp only [List.map_cons, List.sum_cons, ih, mul_add, Finset.sum_add_distrib]
        congr 1
        rw [← along_eval, Polynomial.eval_eq_sum_range' (Nat.lt_succ_of_le (along_degree hG)), Finset.mul_sum]
        exact Finset.sum_congr rfl fun k _ => by ring
    rw [e]
    exact Finset.sum_congr rfl fun n hn => by rw [h.seg n (by have := Finset.mem_range.mp hn; omega)]
  unfold contribution
  rw [key h, key h']

end
end Tulip
