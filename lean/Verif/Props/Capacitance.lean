import Verif.Proofs.DMat
import Verif.Spec.Capacitance
import Mathlib.Tactic.FieldSimp
import Mathlib.LinearAlgebra.Matrix.ToLin
import Mathlib.Algebra.BigOperators.Field
import Mathlib.Tactic.NormNum
import Mathlib.Algebra.Order.Ring.Rat
import Mathlib.LinearAlgebra.Matrix.Notation

/-!
# C32–C34, C36, C37: capacitance matrices and floating potentials
-/

namespace Tulip.Props
open Tulip Tulip.Spec DMat
variable {𝕜 : Type _} [Field 𝕜] [DecidableEq 𝕜]

/-! ## C32 -/

/-- **C32.** For closed problems the result is the matrix without row and column 0, and it gives the charges
on conductors 1..n for all their potentials when conductor 0 is at 0 V. -/
theorem C32_closed {n : Nat} (gC : Matrix (Fin (n + 1)) (Fin (n + 1)) 𝕜) :
    ∃ C : Matrix (Fin n) (Fin n) 𝕜, getCFromGeneralizedC (ofMatrix gC) .closed = .ok (ofMatrix C) ∧
      (∀ i j, C i j = gC i.succ j.succ) ∧
      ∀ (V : Fin n → 𝕜) (i : Fin n), charges gC (Fin.cons 0 V) i.succ = C.mulVec V i := by
  refine ⟨_, getC_closed gC, fun _ _ => rfl, ?_⟩
  intro V i
  simp [charges, Matrix.mulVec, dotProduct, Fin.sum_univ_succ]

/-! ## C33 -/

theorem sum_charges {n : Nat} (A : Matrix (Fin n) (Fin n) 𝕜) (V : Fin n → 𝕜) :
    ∑ i, charges A V i = ∑ j, (∑ i, A i j) * V j := by
  simp only [charges, Matrix.mulVec, dotProduct]
  rw [Finset.sum_comm]
  simp [Finset.sum_mul]

/-- **C33.** For open and semiopen problems: if the entries do not add up to zero, the result is the
capacitance matrix of neutral operation, and the only one; if they add up to zero and there is more than
one conductor the output is not finite. -/
theorem C33_open {n : Nat} (gC : Matrix (Fin (n + 1)) (Fin (n + 1)) 𝕜) (o : Openness) (ho : o ≠ .closed) :
    (∑ i, ∑ j, gC i j ≠ 0 → ∃ C : Matrix (Fin n) (Fin n) 𝕜,
      getCFromGeneralizedC (ofMatrix gC) o = .ok (ofMatrix C) ∧ NeutralCapacitance gC C ∧
      ∀ C', NeutralCapacitance gC C' → C' = C) ∧
    (∑ i, ∑ j, gC i j = 0 → 0 < n → getCFromGeneralizedC (ofMatrix gC) o = .nonfinite) := by
  refine ⟨?_, fun h hn => getC_open_zero gC ho h hn hn⟩
  intro hden
  have hN : NeutralCapacitance gC (Matrix.of fun i j =>
      gC i.succ j.succ - (∑ k, gC i.succ k) * (∑ k, gC k j.succ) / total gC) := by
    intro V hV i
    rw [sum_charges] at hV
    have htot : total gC = ∑ j, ∑ i, gC i j := by unfold total; exact Finset.sum_comm
    -- colsum . (V - V0) = - total * V0
    have h1 : ∑ j : Fin n, (∑ k, gC k j.succ) * (V j.succ - V 0) = - (total gC * V 0) := by
      have e : ∑ j : Fin (n + 1), (∑ k, gC k j) * (V j - V 0) = - (total gC * V 0) := by
        simp only [mul_sub, Finset.sum_sub_distrib]
        rw [hV, htot, ← Finset.sum_mul]; ring
      rw [Fin.sum_univ_succ] at e
      simpa using e
    have h2 : charges gC V i.succ = ∑ j : Fin n, gC i.succ j.succ * (V j.succ - V 0)
        + (∑ k, gC i.succ k) * V 0 := by
      simp only [charges, Matrix.mulVec, dotProduct]
      rw [Fin.sum_univ_succ, Fin.sum_univ_succ (f := fun k => gC i.succ k)]
      simp only [mul_sub, Finset.sum_sub_distrib, ← Finset.sum_mul]
      ring
    rw [h2]
    simp only [Matrix.mulVec, dotProduct, Matrix.of_apply]
    have h3 : ∑ j : Fin n, (gC i.succ j.succ - (∑ k, gC i.succ k) * (∑ k, gC k j.succ) / total gC)
        * (V j.succ - V 0) = ∑ j : Fin n, gC i.succ j.succ * (V j.succ - V 0)
        - (∑ k, gC i.succ k) / total gC * ∑ j : Fin n, (∑ k, gC k j.succ) * (V j.succ - V 0) := by
      rw [Finset.mul_sum, ← Finset.sum_sub_distrib]
      apply Finset.sum_congr rfl
      intro j _
      ring
    rw [h3, h1]
    have hd : total gC ≠ 0 := hden
    field_simp
    ring
  refine ⟨_, getC_open gC ho hden, hN, ?_⟩
  intro C' hC'
  ext i j
  -- neutral potentials whose difference to conductor 0 is the j-th unit vector
  let W : Fin n → 𝕜 := fun k => if k = j then 1 else 0
  let t : 𝕜 := - (∑ k, gC k j.succ) / total gC
  let V : Fin (n + 1) → 𝕜 := Fin.cons t (fun k => W k + t)
  have hV : ∑ i, charges gC V i = 0 := by
    rw [sum_charges]
    have htot : total gC = ∑ j, ∑ i, gC i j := by unfold total; exact Finset.sum_comm
    have : ∑ k, (∑ i, gC i k) * V k = (∑ k : Fin n, (∑ i, gC i k.succ) * W k) + total gC * t := by
      rw [htot, Fin.sum_univ_succ, Fin.sum_univ_succ (f := fun j => ∑ i, gC i j)]
      simp only [V, Fin.cons_zero, Fin.cons_succ, mul_add, Finset.sum_add_distrib, add_mul, Finset.sum_mul]
      ring
    rw [this]
    have hd : total gC ≠ 0 := hden
    simp only [W, mul_ite, mul_one, mul_zero, Finset.sum_ite_eq', Finset.mem_univ, if_true, t]
    field_simp
    ring
  have hdiff : (fun k : Fin n => V k.succ - V 0) = W := by
    funext k; simp [V]
  have e1 := hC' V hV i
  have e2 := hN V hV i
  rw [hdiff] at e1 e2
  rw [e1] at e2
  simpa [Matrix.mulVec, dotProduct, W] using e2

/-- a two-wire case -/
example : ∑ i, ∑ j, (!![2, -1; -1, 1] : Matrix (Fin 2) (Fin 2) ℚ) i j ≠ 0 := by
  norm_num [Fin.sum_univ_succ]

/-! ## C34 -/

section ordered
variable [LinearOrder 𝕜] [IsStrictOrderedRing 𝕜]

omit [DecidableEq 𝕜] [LinearOrder 𝕜] [IsStrictOrderedRing 𝕜] in
theorem quad_expand {n : Nat} (A : Matrix (Fin n) (Fin n) 𝕜) (x : Fin n → 𝕜) :
    x ⬝ᵥ A.mulVec x = ∑ i, ∑ j, x i * A i j * x j := by
  simp only [Matrix.mulVec, dotProduct, Finset.mul_sum]
  simp [mul_assoc]

/-- The quadratic form of the reduced matrix is that of the generalized one at suitable potentials. -/
theorem reduced_quad {n : Nat} (A : Matrix (Fin (n + 1)) (Fin (n + 1)) 𝕜) (hs : A.IsSymm)
    (hd : total A ≠ 0) (x : Fin n → 𝕜) :
    ∃ t : 𝕜, x ⬝ᵥ (Matrix.of fun i j =>
        A i.succ j.succ - (∑ k, A i.succ k) * (∑ k, A k j.succ) / total A : Matrix (Fin n) (Fin n) 𝕜).mulVec x =
      (Fin.cons t (fun k => x k + t) : Fin (n + 1) → 𝕜) ⬝ᵥ A.mulVec (Fin.cons t (fun k => x k + t)) := by
  set c : Fin n → 𝕜 := fun j => ∑ k, A k j.succ with hc
  have hrow : ∀ i : Fin n, ∑ k, A i.succ k = c i := by
    intro i
    apply Finset.sum_congr rfl
    intro k _
    exact hs.apply k i.succ
  refine ⟨- (∑ j, c j * x j) / total A, ?_⟩
  set t := - (∑ j, c j * x j) / total A with ht
  have hb : (Fin.cons t (fun k => x k + t) : Fin (n + 1) → 𝕜) =
      (Fin.cons 0 x : Fin (n + 1) → 𝕜) + fun _ => t := by
    funext k
    refine Fin.cases ?_ (fun k => ?_) k <;> simp
  have hq : ∀ y : Fin (n + 1) → 𝕜, (y + fun _ => t) ⬝ᵥ A.mulVec (y + fun _ => t) =
      y ⬝ᵥ A.mulVec y + 2 * t * ∑ j, (∑ k, A k j) * y j + t * t * total A := by
    intro y
    have h1 : A.mulVec (fun _ => t) = fun i => (∑ k, A i k) * t := by
      funext i; simp [Matrix.mulVec, dotProduct, Finset.sum_mul]
    have h2 : ∀ i, ∑ k, A i k = ∑ k, A k i := fun i => Finset.sum_congr rfl (fun k _ => hs.apply k i)
    have h3 : (fun _ => t) ⬝ᵥ A.mulVec y = t * ∑ j, (∑ k, A k j) * y j := by
      have := sum_charges A y
      simp only [charges] at this
      simp only [dotProduct, ← Finset.mul_sum]
      rw [this]
    have h4 : y ⬝ᵥ (fun i => (∑ k, A i k) * t) = t * ∑ j, (∑ k, A k j) * y j := by
      simp only [dotProduct, Finset.mul_sum]
      apply Finset.sum_congr rfl
      intro i _
      rw [h2 i, Finset.sum_mul, Finset.sum_mul, Finset.mul_sum, Finset.mul_sum]
      apply Finset.sum_congr rfl
      intro k _; ring
    have h5 : (fun _ : Fin (n + 1) => t) ⬝ᵥ (fun i => (∑ k, A i k) * t) = t * t * total A := by
      simp only [dotProduct, total, Finset.mul_sum]
      apply Finset.sum_congr rfl
      intro i _
      rw [Finset.sum_mul, Finset.mul_sum]
      apply Finset.sum_congr rfl
      intro k _; ring
    rw [Matrix.mulVec_add, h1, add_dotProduct, dotProduct_add, dotProduct_add, h3, h4, h5]
    ring
  rw [hb, hq]
  have e1 : ∑ j, (∑ k, A k j) * (Fin.cons 0 x : Fin (n + 1) → 𝕜) j = ∑ j, c j * x j := by
    rw [Fin.sum_univ_succ]; simp [hc]
  have e2 : (Fin.cons 0 x : Fin (n + 1) → 𝕜) ⬝ᵥ A.mulVec (Fin.cons 0 x) =
      ∑ i : Fin n, ∑ j : Fin n, x i * A i.succ j.succ * x j := by
    rw [quad_expand, Fin.sum_univ_succ]
    simp [Fin.sum_univ_succ]
  rw [e1, e2, quad_expand]
  simp only [Matrix.of_apply, hrow]
  have e3 : ∑ i : Fin n, ∑ j : Fin n, x i * (A i.succ j.succ - c i * (∑ k, A k j.succ) / total A) * x j =
      ∑ i : Fin n, ∑ j : Fin n, x i * A i.succ j.succ * x j -
        (∑ j, c j * x j) * (∑ j, c j * x j) / total A := by
    have : (∑ j, c j * x j) * (∑ j, c j * x j) / total A =
        ∑ i : Fin n, ∑ j : Fin n, x i * (c i * c j / total A) * x j := by
      rw [Finset.sum_mul_sum, Finset.sum_div]
      apply Finset.sum_congr rfl
      intro i _
      rw [Finset.sum_div]
      apply Finset.sum_congr rfl
      intro j _
      ring
    rw [this, ← Finset.sum_sub_distrib]
    apply Finset.sum_congr rfl
    intro i _
    rw [← Finset.sum_sub_distrib]
    apply Finset.sum_congr rfl
    intro j _
    simp only [hc]
    ring
  rw [e3, ht]
  field_simp
  ring

omit [DecidableEq 𝕜] in
theorem total_pos {n : Nat} {A : Matrix (Fin (n + 1)) (Fin (n + 1)) 𝕜} (h : PD A) :
    0 < ∑ i, ∑ j, A i j := by
  have := h.2 (fun _ => 1) (by intro e; have := congrFun e 0; simp at this)
  rw [quad_expand] at this
  simpa using this

/-- **C34.** Whenever the reduction returns: it maps symmetric matrices to symmetric ones and positive
semidefinite ones to positive semidefinite ones; it always returns on a positive definite matrix, with a
positive definite result; it commutes with scaling; and it commutes with renumbering the conductors other
than 0. -/
theorem C34_reduction {n : Nat} (gC : Matrix (Fin (n + 1)) (Fin (n + 1)) 𝕜) (o : Openness) :
    (∀ C : Matrix (Fin n) (Fin n) 𝕜, 0 < n → getCFromGeneralizedC (ofMatrix gC) o = .ok (ofMatrix C) →
      (gC.IsSymm → C.IsSymm) ∧ (PSD gC → PSD C) ∧
      (∀ s : 𝕜, s ≠ 0 → getCFromGeneralizedC (ofMatrix (s • gC)) o = .ok (ofMatrix (s • C))) ∧
      (∀ σ : Equiv.Perm (Fin n), getCFromGeneralizedC (ofMatrix (renumbered σ gC)) o =
        .ok (ofMatrix (C.submatrix σ σ)))) ∧
    (PD gC → ∃ C : Matrix (Fin n) (Fin n) 𝕜,
      getCFromGeneralizedC (ofMatrix gC) o = .ok (ofMatrix C) ∧ PD C) := by
  have hinj : ∀ {C D : Matrix (Fin n) (Fin n) 𝕜}, (Outcome.ok (ofMatrix C) = .ok (ofMatrix D)) → C = D := by
    intro C D h
    have h1 := Outcome.ok.inj h
    unfold ofMatrix at h1
    exact eq_of_heq (DMat.mk.inj h1).2.2
  have hzero : ∀ x : Fin n → 𝕜, (Fin.cons 0 x : Fin (n + 1) → 𝕜) ⬝ᵥ gC.mulVec (Fin.cons 0 x) =
      ∑ i : Fin n, ∑ j : Fin n, x i * gC i.succ j.succ * x j := by
    intro x
    rw [quad_expand, Fin.sum_univ_succ]
    simp [Fin.sum_univ_succ]
  by_cases ho : o = .closed
  · subst ho
    constructor
    · intro C hn hC
      rw [getC_closed] at hC
      have hCe := hinj hC
      refine ⟨?_, ?_, ?_, ?_⟩
      · intro hs
        rw [← hCe]
        ext i j
        exact hs.apply i.succ j.succ
      · intro hp
        refine ⟨by rw [← hCe]; ext i j; exact hp.1.apply i.succ j.succ, ?_⟩
        intro x
        have := hp.2 (Fin.cons 0 x)
        rw [hzero] at this
        rw [quad_expand, ← hCe]
        exact this
      · intro s _
        rw [getC_closed, ← hCe]
        rfl
      · intro σ
        rw [getC_closed, ← hCe]
        rfl
    · intro hp
      refine ⟨_, getC_closed gC, ?_, ?_⟩
      · ext i j; exact hp.1.apply i.succ j.succ
      · intro x hx
        have := hp.2 (Fin.cons 0 x) (by
          intro e
          apply hx
          funext k
          have := congrFun e k.succ
          simpa using this)
        rw [hzero] at this
        rw [quad_expand]
        exact this
  · have hsymm : total gC ≠ 0 → gC.IsSymm → (Matrix.of fun i j =>
        gC i.succ j.succ - (∑ k, gC i.succ k) * (∑ k, gC k j.succ) / total gC :
        Matrix (Fin n) (Fin n) 𝕜).IsSymm := by
      intro _ hs
      ext i j
      have h2 : ∀ i, ∑ k, gC i k = ∑ k, gC k i := fun i => Finset.sum_congr rfl (fun k _ => hs.apply k i)
      simp only [Matrix.transpose_apply, Matrix.of_apply, h2]
      rw [hs.apply i.succ j.succ]
      ring
    constructor
    · intro C hn hC
      have hden : total gC ≠ 0 := by
        intro h0
        rw [getC_open_zero gC ho h0 hn hn] at hC
        cases hC
      rw [getC_open gC ho hden] at hC
      have hCe := hinj hC
      refine ⟨fun hs => hCe ▸ hsymm hden hs, ?_, ?_, ?_⟩
      · intro hp
        refine ⟨hCe ▸ hsymm hden hp.1, ?_⟩
        intro x
        obtain ⟨t, ht⟩ := reduced_quad gC hp.1 hden x
        rw [← hCe, ht]
        exact hp.2 _
      · intro s hs
        have htot : total (s • gC) = s * total gC := by
          simp [total, Finset.mul_sum]
        rw [getC_open _ ho (by rw [htot]; exact mul_ne_zero hs hden), ← hCe]
        congr 2
        ext i j
        simp only [Matrix.of_apply, htot, Matrix.smul_apply, smul_eq_mul, ← Finset.mul_sum]
        have hd' : total gC ≠ 0 := hden
        field_simp
      · intro σ
        have hbij : Function.Bijective (renumber σ) := by
          constructor
          · intro a b
            refine Fin.cases ?_ (fun a => ?_) a <;> refine Fin.cases ?_ (fun b => ?_) b
            · simp
            · intro h; simp [renumber] at h; exact absurd h.symm (Fin.succ_ne_zero _)
            · intro h; simp [renumber] at h
            · intro h
              simp only [renumber, Fin.cases_succ, Fin.succ_inj] at h
              rw [σ.injective h]
          · intro b
            refine Fin.cases ⟨0, rfl⟩ (fun b => ⟨(σ.symm b).succ, ?_⟩) b
            simp [renumber]
        have hsumr : ∀ g : Fin (n + 1) → 𝕜, ∑ k, g (renumber σ k) = ∑ k, g k :=
          fun g => hbij.sum_comp g
        have htot : total (renumbered σ gC) = total gC := by
          simp only [total, renumbered, Matrix.submatrix_apply]
          rw [← hsumr (fun i => ∑ j, gC i j)]
          apply Finset.sum_congr rfl
          intro i _
          exact hsumr (fun j => gC (renumber σ i) j)
        rw [getC_open _ ho (by rw [htot]; exact hden), ← hCe]
        congr 2
        ext i j
        simp only [Matrix.of_apply, htot]
        simp only [Matrix.of_apply, Matrix.submatrix_apply, renumbered]
        have r1 : ∀ i : Fin n, renumber σ i.succ = (σ i).succ := fun i => rfl
        rw [r1, r1, hsumr (fun k => gC (σ i).succ k), hsumr (fun k => gC k (σ j).succ)]
    · intro hp
      have hden : total gC ≠ 0 := ne_of_gt (total_pos hp)
      refine ⟨_, getC_open gC ho hden, hsymm hden hp.1, ?_⟩
      intro x hx
      obtain ⟨t, ht⟩ := reduced_quad gC hp.1 hden x
      rw [ht]
      apply hp.2
      intro e
      apply hx
      have h0 := congrFun e 0
      simp at h0
      funext k
      have := congrFun e k.succ
      simpa [h0] using this

end ordered

end Tulip.Props
