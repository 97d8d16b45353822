import Verif.Proofs.Quadrature
import Verif.Proofs.Elements
import Verif.Proofs.Plates

/-!
# Divergence theorem for polynomials on triangles, with an exact quadrature rule
-/

set_option linter.unusedSectionVars false

namespace Tulip
open Spec MvPolynomial

section
variable {𝕜 : Type} [Field 𝕜] [CharZero 𝕜] {T : Triangulation 𝕜}

/-- Weighted sum of values at points. -/
noncomputable def pointSum (l : List (𝕜 × (Fin 2 → 𝕜))) (P : MvPolynomial (Fin 2) 𝕜) : 𝕜 := (l.map (fun r => r.1 * eval r.2 P)).sum

theorem pointSum_zero (l : List (𝕜 × (Fin 2 → 𝕜))) : pointSum l 0 = 0 := by
  unfold pointSum
  refine List.sum_eq_zero fun x hx => ?_
  obtain ⟨r, _, rfl⟩ := List.mem_map.mp hx
  rw [map_zero, mul_zero]

theorem pointSum_add (l : List (𝕜 × (Fin 2 → 𝕜))) (P R : MvPolynomial (Fin 2) 𝕜) : pointSum l (P + R) = pointSum l P + pointSum l R := by
  unfold pointSum
  rw [← List.sum_map_add]
  exact congrArg List.sum (List.map_congr_left fun r _ => by rw [map_add, mul_add])

theorem pointSum_C_mul (l : List (𝕜 × (Fin 2 → 𝕜))) (c : 𝕜) (P : MvPolynomial (Fin 2) 𝕜) : pointSum l (C c * P) = c * pointSum l P := by
  unfold pointSum
  rw [← List.sum_map_mul_left]
  exact congrArg List.sum (List.map_congr_left fun r _ => by rw [map_mul, eval_C]; ring)

theorem pointSum_sum (l : List (𝕜 × (Fin 2 → 𝕜))) {ι : Type} (D : Finset ι) (P : ι → MvPolynomial (Fin 2) 𝕜) :
    pointSum l (∑ e ∈ D, P e) = ∑ e ∈ D, pointSum l (P e) := by
  classical
  induction D using Finset.induction_on with
  | empty => rw [Finset.sum_empty, Finset.sum_empty, pointSum_zero]
  | insert a s h ih => rw [Finset.sum_insert h, Finset.sum_insert h, pointSum_add, ih]

/-- The points of a triangle, with weights. -/
def triPoints (Q : Rule 𝕜) : List (𝕜 × (Fin 2 → 𝕜)) := Q.tri.map (fun r => (r.1, ![r.2.1, r.2.2]))

/-- The points of the side from `v` to `w`, with weights. -/
def sidePoints (Q : Rule 𝕜) (t : Tri T.nv) (v w : Fin T.nv) : List (𝕜 × (Fin 2 → 𝕜)) :=
  Q.seg.map (fun r => (r.1, Triangulation.onSide t v w (1 - r.2) r.2))

theorem list_sum_sub {α : Type _} (l : List α) (f g : α → 𝕜) :
    (l.map (fun a => f a - g a)).sum = (l.map f).sum - (l.map g).sum := by
  induction l with
  | nil => simp
  | cons a l ih =>
    simp only [List.map_cons, List.sum_cons, ih]
    ring

/-- Integral of `(1 - y)^j y^k` over the segment. -/
theorem segment_beta {Q : Rule 𝕜} {m : Nat} (h : ExactRule Q m) : ∀ j k : Nat, j + k ≤ m →
    (Q.seg.map (fun r => r.1 * ((1 - r.2) ^ j * r.2 ^ k))).sum = (j.factorial * k.factorial : 𝕜) / (j + k + 1).factorial := by
  intro j
  induction j with
  | zero =>
    intro k hk
    have := h.seg k (by omega)
    simp only [pow_zero, one_mul]
    rw [this, Nat.factorial_zero, Nat.cast_one, one_mul, zero_add, Nat.factorial_succ, Nat.cast_mul]
    have : (k.factorial : 𝕜) ≠ 0 := by exact_mod_cast k.factorial_ne_zero
    have : ((k + 1 : ℕ) : 𝕜) ≠ 0 := by exact_mod_cast Nat.succ_ne_zero k
    push_cast at this ⊢
    field_simp
  | succ j ih =>
    intro k hk
    have e : (Q.seg.map (fun r => r.1 * ((1 - r.2) ^ (j + 1) * r.2 ^ k))).sum =
        (Q.seg.map (fun r => r.1 * ((1 - r.2) ^ j * r.2 ^ k))).sum - (Q.seg.map (fun r => r.1 * ((1 - r.2) ^ j * r.2 ^ (k + 1)))).sum := by
      rw [← list_sum_sub]
      exact congrArg List.sum (List.map_congr_left fun r _ => by ring)
    rw [e, ih k (by omega), ih (k + 1) (by omega)]
    rw [show j + (k + 1) + 1 = (j + k + 1) + 1 by omega, show j + 1 + k + 1 = (j + k + 1) + 1 by omega,
      Nat.factorial_succ (j + k + 1), Nat.factorial_succ k, Nat.factorial_succ j]
    have h1 : ((j + k + 1).factorial : 𝕜) ≠ 0 := by exact_mod_cast Nat.factorial_ne_zero _
    have h2 : ((j + k + 1 + 1 : ℕ) : 𝕜) ≠ 0 := by exact_mod_cast Nat.succ_ne_zero (j + k + 1)
    push_cast at h1 h2 ⊢
    field_simp
    ring

/-- Points of the sides. -/
theorem onSide_verts {t : Tri T.nv} (hd : T.det t ≠ 0) (x y : 𝕜) :
    Triangulation.onSide t t.a t.b x y = ![y, 0] ∧ Triangulation.onSide t t.b t.c x y = ![x, y] ∧
    Triangulation.onSide t t.c t.a x y = ![0, x] ∧ Triangulation.onSide t t.b t.a x y = ![x, 0] ∧
    Triangulation.onSide t t.c t.b x y = ![y, x] ∧ Triangulation.onSide t t.a t.c x y = ![0, y] := by
  obtain ⟨h1, h2, h3⟩ := det_ne hd
  unfold Triangulation.onSide
  simp [h1, h2, h3, h1.symm, h2.symm, h3.symm]

/-- Integrals of a monomial over the sides. -/
theorem side_monomials {Q : Rule 𝕜} {m : Nat} (h : ExactRule Q m) {t : Tri T.nv} (hd : T.det t ≠ 0) {j k : Nat} (hjk : j + k ≤ m) :
    (pointSum (sidePoints Q t t.a t.b) (X 0 ^ j * X 1 ^ k) = (if k = 0 then (1 : 𝕜) / (j + 1) else 0) ∧
    pointSum (sidePoints Q t t.b t.c) (X 0 ^ j * X 1 ^ k) = (j.factorial * k.factorial : 𝕜) / (j + k + 1).factorial ∧
    pointSum (sidePoints Q t t.c t.a) (X 0 ^ j * X 1 ^ k) = (if j = 0 then (1 : 𝕜) / (k + 1) else 0)) ∧
    (pointSum (sidePoints Q t t.b t.a) (X 0 ^ j * X 1 ^ k) = pointSum (sidePoints Q t t.a t.b) (X 0 ^ j * X 1 ^ k) ∧ pointSum (sidePoints Q t t.c t.b) (X 0 ^ j * X 1 ^ k) = pointSum (sidePoints Q t t.b t.c) (X 0 ^ j * X 1 ^ k) ∧
    pointSum (sidePoints Q t t.a t.c) (X 0 ^ j * X 1 ^ k) = pointSum (sidePoints Q t t.c t.a) (X 0 ^ j * X 1 ^ k)) := by
  have base : ∀ v w, pointSum (sidePoints Q t v w) (X 0 ^ j * X 1 ^ k) =
      (Q.seg.map (fun r => r.1 * (Triangulation.onSide t v w (1 - r.2) r.2 0 ^ j * Triangulation.onSide t v w (1 - r.2) r.2 1 ^ k))).sum := by
    intro v w
    unfold pointSum sidePoints
    rw [List.map_map]
    refine congrArg List.sum (List.map_congr_left fun r _ => ?_)
    simp only [Function.comp, map_mul, map_pow, eval_X]
  have pw : ∀ i, i ≤ m → (Q.seg.map (fun r => r.1 * (1 - r.2) ^ i)).sum = (1 : 𝕜) / ((i : 𝕜) + 1) := by
    intro i hi
    have := segment_beta h i 0 (by omega)
    simp only [pow_zero, mul_one] at this
    rw [this, Nat.factorial_zero, Nat.cast_one, mul_one, add_zero, Nat.factorial_succ, Nat.cast_mul]
    have h1 : (i.factorial : 𝕜) ≠ 0 := by exact_mod_cast i.factorial_ne_zero
    have h2 : ((i + 1 : ℕ) : 𝕜) ≠ 0 := by exact_mod_cast Nat.succ_ne_zero i
    push_cast at h2 ⊢
    field_simp
  have zero : ∀ f : 𝕜 × 𝕜 → 𝕜, (∀ r, f r = 0) → (Q.seg.map f).sum = 0 := fun f hf =>
    List.sum_eq_zero fun x hx => by obtain ⟨r, _, rfl⟩ := List.mem_map.mp hx; exact hf r
  simp only [base, (onSide_verts hd _ _).1, (onSide_verts hd _ _).2.1, (onSide_verts hd _ _).2.2.1, (onSide_verts hd _ _).2.2.2.1,
    (onSide_verts hd _ _).2.2.2.2.1, (onSide_verts hd _ _).2.2.2.2.2, Matrix.cons_val_zero, Matrix.cons_val_one]
  have s1 := segment_beta h j k hjk
  have s2 := segment_beta h k j (by omega)
  have ab : (Q.seg.map (fun r => r.1 * (r.2 ^ j * 0 ^ k))).sum = if k = 0 then (1 : 𝕜) / (j + 1) else 0 := by
    split
    · next e => subst e; simp only [pow_zero, mul_one]; exact h.seg j (by omega)
    · next e => exact zero _ fun r => by rw [zero_pow e]; ring
  have ba : (Q.seg.map (fun r => r.1 * ((1 - r.2) ^ j * 0 ^ k))).sum = if k = 0 then (1 : 𝕜) / (j + 1) else 0 := by
    split
    · next e => subst e; simp only [pow_zero, mul_one]; exact pw j (by omega)
    · next e => exact zero _ fun r => by rw [zero_pow e]; ring
  have ca : (Q.seg.map (fun r => r.1 * (0 ^ j * (1 - r.2) ^ k))).sum = if j = 0 then (1 : 𝕜) / (k + 1) else 0 := by
    split
    · next e => subst e; simp only [pow_zero, one_mul]; exact pw k (by omega)
    · next e => exact zero _ fun r => by rw [zero_pow e]; ring
  have ac : (Q.seg.map (fun r => r.1 * (0 ^ j * r.2 ^ k))).sum = if j = 0 then (1 : 𝕜) / (k + 1) else 0 := by
    split
    · next e => subst e; simp only [pow_zero, one_mul]; exact h.seg k (by omega)
    · next e => exact zero _ fun r => by rw [zero_pow e]; ring
  have cb : (Q.seg.map (fun r => r.1 * (r.2 ^ j * (1 - r.2) ^ k))).sum = (j.factorial * k.factorial : 𝕜) / (j + k + 1).factorial := by
    rw [mul_comm (j.factorial : 𝕜), add_comm j k, ← s2]
    exact congrArg List.sum (List.map_congr_left fun r _ => by ring)
  exact ⟨⟨ab, s1, ca⟩, by rw [ba, ab], by rw [cb, s1], by rw [ac, ca]⟩

/-- Integral of a monomial over the triangle. -/
theorem tri_monomial {Q : Rule 𝕜} {m : Nat} (h : ExactRule Q m) {j k : Nat} (hjk : j + k ≤ m) :
    pointSum (triPoints Q) (X 0 ^ j * X 1 ^ k) = 2 * (j.factorial * k.factorial) / (j + k + 2).factorial := by
  rw [← h.tri j k hjk]
  unfold pointSum triPoints
  rw [List.map_map]
  refine congrArg List.sum (List.map_congr_left fun r _ => ?_)
  simp [Function.comp]

/-- Integrals over a side in both directions. -/
theorem sidePoints_swap {Q : Rule 𝕜} {m : Nat} (h : ExactRule Q m) {t : Tri T.nv} (hd : T.det t ≠ 0)
    {P : MvPolynomial (Fin 2) 𝕜} (hP : P.totalDegree ≤ m) {v w : Fin T.nv} (hvw : (v, w) ∈ t.sides) :
    pointSum (sidePoints Q t w v) P = pointSum (sidePoints Q t v w) P := by
  obtain ⟨c, rfl⟩ := sum_of_terms hP
  simp only [pointSum_sum, pointSum_C_mul]
  refine Finset.sum_congr rfl fun e he => ?_
  obtain ⟨_, h1, h2, h3⟩ := side_monomials h hd (mem_exponents.mp he)
  simp only [Tri.sides, List.mem_cons, Prod.mk.injEq, List.not_mem_nil, or_false] at hvw
  rcases hvw with ⟨rfl, rfl⟩ | ⟨rfl, rfl⟩ | ⟨rfl, rfl⟩
  · rw [h1]
  · rw [h2]
  · rw [h3]

theorem pderiv_monomials (j k : Nat) :
    pderiv 0 (X 0 ^ j * X 1 ^ k : MvPolynomial (Fin 2) 𝕜) = C (j : 𝕜) * (X 0 ^ (j - 1) * X 1 ^ k) ∧
    pderiv 1 (X 0 ^ j * X 1 ^ k : MvPolynomial (Fin 2) 𝕜) = C (k : 𝕜) * (X 0 ^ j * X 1 ^ (k - 1)) := by
  have n01 : (0 : Fin 2) ≠ 1 := by decide
  constructor
  · rw [pderiv_mul, pderiv_pow, pderiv_pow, pderiv_X_self, pderiv_X_of_ne n01.symm, map_natCast]
    ring
  · rw [pderiv_mul, pderiv_pow, pderiv_pow, pderiv_X_self, pderiv_X_of_ne n01, map_natCast]
    ring

/-- Integrals of derivatives, from those over the sides. -/
theorem integral_pderiv {Q : Rule 𝕜} {m : Nat} (h : ExactRule Q m) {t : Tri T.nv} (hd : T.det t ≠ 0)
    {P : MvPolynomial (Fin 2) 𝕜} (hP : P.totalDegree ≤ m) :
    pointSum (triPoints Q) (pderiv 0 P) = 2 * (pointSum (sidePoints Q t t.b t.c) P - pointSum (sidePoints Q t t.c t.a) P) ∧
    pointSum (triPoints Q) (pderiv 1 P) = 2 * (pointSum (sidePoints Q t t.b t.c) P - pointSum (sidePoints Q t t.a t.b) P) := by
  obtain ⟨c, rfl⟩ := sum_of_terms hP
  simp only [map_sum, pderiv_C_mul, pointSum_sum, pointSum_C_mul, ← Finset.sum_sub_distrib, Finset.mul_sum]
  have fz : ∀ n : Nat, (n.factorial : 𝕜) ≠ 0 := fun n => by exact_mod_cast n.factorial_ne_zero
  have nz : ∀ n : Nat, ((n : 𝕜) + 1) ≠ 0 := fun n => by exact_mod_cast Nat.succ_ne_zero n
  constructor
  · refine Finset.sum_congr rfl fun e he => ?_
    have he := mem_exponents.mp he
    obtain ⟨⟨_, h2, h3⟩, _⟩ := side_monomials h hd he
    rw [h2, h3, (pderiv_monomials _ _).1, pointSum_C_mul]
    obtain ⟨j, k⟩ := e
    dsimp only at he ⊢
    cases j with
    | zero =>
      rw [if_pos rfl, Nat.factorial_zero, Nat.cast_one, one_mul, zero_add, Nat.factorial_succ]
      have := fz k
      have := nz k
      push_cast
      field_simp
      ring
    | succ j =>
      rw [if_neg (Nat.succ_ne_zero j), Nat.add_sub_cancel, tri_monomial h (by omega), Nat.factorial_succ j,
        show j + 1 + k + 1 = j + k + 2 by omega]
      push_cast
      ring
  · refine Finset.sum_congr rfl fun e he => ?_
    have he := mem_exponents.mp he
    obtain ⟨⟨h1, h2, _⟩, _⟩ := side_monomials h hd he
    rw [h1, h2, (pderiv_monomials _ _).2, pointSum_C_mul]
    obtain ⟨j, k⟩ := e
    dsimp only at he ⊢
    cases k with
    | zero =>
      rw [if_pos rfl, Nat.factorial_zero, Nat.cast_one, mul_one, add_zero, Nat.factorial_succ]
      have := fz j
      have := nz j
      push_cast
      field_simp
      ring
    | succ k =>
      rw [if_neg (Nat.succ_ne_zero k), Nat.add_sub_cancel, tri_monomial h (by omega), Nat.factorial_succ k,
        show j + (k + 1) + 1 = j + k + 2 by omega]
      push_cast
      ring

/-- The divergence theorem in a triangle, for a polynomial times a constant vector. -/
theorem triangle_divergence {Q : Rule 𝕜} {m : Nat} (h : ExactRule Q m) {t : Tri T.nv} (hd : T.det t ≠ 0)
    {P : MvPolynomial (Fin 2) 𝕜} (hP : P.totalDegree ≤ m) (g : 𝕜 × 𝕜) :
    (Q.tri.map (fun r => T.det t / 2 * r.1 * inner2 (eval ![r.2.1, r.2.2] (T.gradient t P).1, eval ![r.2.1, r.2.2] (T.gradient t P).2) g)).sum =
      across T g (t.a, t.b) * pointSum (sidePoints Q t t.a t.b) P + across T g (t.b, t.c) * pointSum (sidePoints Q t t.b t.c) P +
        across T g (t.c, t.a) * pointSum (sidePoints Q t t.c t.a) P := by
  obtain ⟨i0, i1⟩ := integral_pderiv h hd hP
  have e : (Q.tri.map (fun r => T.det t / 2 * r.1 * inner2 (eval ![r.2.1, r.2.2] (T.gradient t P).1, eval ![r.2.1, r.2.2] (T.gradient t P).2) g)).sum =
      T.det t / 2 * inner2 (T.gradHat t t.b) g * pointSum (triPoints Q) (pderiv 0 P) +
      T.det t / 2 * inner2 (T.gradHat t t.c) g * pointSum (triPoints Q) (pderiv 1 P) := by
    unfold pointSum triPoints
    rw [List.map_map, List.map_map, ← List.sum_map_mul_left, ← List.sum_map_mul_left, ← List.sum_map_add]
    refine congrArg List.sum (List.map_congr_left fun r _ => ?_)
    unfold Triangulation.gradient inner2
    simp only [Function.comp, map_add, map_mul, eval_C]
    ring
  rw [e, i0, i1]
  obtain ⟨_, gb, gc⟩ := gradHat_verts hd
  rw [gb, gc]
  unfold across inner2
  have h2 : (2 : 𝕜) ≠ 0 := two_ne_zero
  dsimp only
  field_simp
  ring

end
end Tulip
