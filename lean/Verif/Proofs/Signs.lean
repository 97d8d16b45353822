import Verif.Props.Modes
import Verif.Props.Floating

/-!
# Matrices without positive entries off the diagonal
-/

set_option linter.unusedSectionVars false

namespace Tulip.Props
open Tulip Tulip.Spec Matrix

variable {𝕜 : Type} [Field 𝕜] [DecidableEq 𝕜] [LinearOrder 𝕜] [IsStrictOrderedRing 𝕜]

/-- The negative part of `u` is in the kernel if it vanishes where the charges of `u` are negative. -/
theorem neg_part_kernel {n : Nat} {C : Matrix (Fin n) (Fin n) 𝕜} (hC : PSD C) (hoff : ∀ a b, a ≠ b → C a b ≤ 0) (u : Fin n → 𝕜)
    (hu : ∀ j, 0 ≤ u j ∨ 0 ≤ C.mulVec u j) : C.mulVec (fun j => max (-u j) 0) = 0 := by
  obtain ⟨w, hw⟩ : ∃ w : Fin n → 𝕜, w = fun j => max (-u j) 0 := ⟨_, rfl⟩
  obtain ⟨p, hp⟩ : ∃ p : Fin n → 𝕜, p = fun j => max (u j) 0 := ⟨_, rfl⟩
  rw [← hw]
  have hup : u = p - w := by
    funext j
    rw [hp, hw]
    show u j = max (u j) 0 - max (-u j) 0
    rcases le_total 0 (u j) with h | h
    · rw [max_eq_left h, max_eq_right (by linarith)]; ring
    · rw [max_eq_right h, max_eq_left (by linarith)]; ring
  have hw0 : ∀ j, 0 ≤ w j := fun j => by rw [hw]; exact le_max_right _ _
  have hp0 : ∀ j, 0 ≤ p j := fun j => by rw [hp]; exact le_max_right _ _
  have hwu : ∀ j, 0 ≤ u j → w j = 0 := fun j h => by rw [hw]; exact max_eq_right (by linarith)
  have hwp : ∀ j, w j * p j = 0 := by
    intro j
    rcases le_total 0 (u j) with h | h
    · rw [hwu j h, zero_mul]
    · rw [hp]
      exact mul_eq_zero_of_right _ (max_eq_right h)
  have h1 : 0 ≤ w ⬝ᵥ C.mulVec u := by
    refine Finset.sum_nonneg fun j _ => ?_
    rcases hu j with h | h
    · rw [hwu j h, zero_mul]
    · exact mul_nonneg (hw0 j) h
  have h2 : w ⬝ᵥ C.mulVec p ≤ 0 := by
    have : w ⬝ᵥ C.mulVec p = ∑ a, ∑ b, C a b * (w a * p b) := by
      simp only [Matrix.mulVec, dotProduct, Finset.mul_sum]
      exact Finset.sum_congr rfl fun a _ => Finset.sum_congr rfl fun b _ => by ring
    rw [this]
    refine Finset.sum_nonpos fun a _ => Finset.sum_nonpos fun b _ => ?_
    by_cases hab : a = b
    · subst hab
      rw [hwp, mul_zero]
    · exact mul_nonpos_of_nonpos_of_nonneg (hoff a b hab) (mul_nonneg (hw0 a) (hp0 b))
  refine PSD.kernel hC (le_antisymm ?_ (hC.2 w))
  rw [hup, Matrix.mulVec_sub, dotProduct_sub] at h1
  linarith

/-- The inverse of a nonsingular matrix of this kind has no negative entries. -/
theorem inverse_nonneg {n : Nat} {C : Matrix (Fin n) (Fin n) 𝕜} (hC : PSD C) (hoff : ∀ a b, a ≠ b → C a b ≤ 0)
    (hdet : C.det ≠ 0) (i j : Fin n) : 0 ≤ C⁻¹ i j := by
  have e : C.mulVec (fun k => C⁻¹ k j) = fun k => if k = j then 1 else 0 := by
    funext k
    have := congrFun (congrFun (Matrix.mul_nonsing_inv C (isUnit_iff_ne_zero.mpr hdet)) k) j
    rw [Matrix.one_apply] at this
    exact this
  have hk := neg_part_kernel hC hoff (fun k => C⁻¹ k j) (fun k => Or.inr (by rw [e]; dsimp only; split <;> simp))
  have hz : (fun k => max (-C⁻¹ k j) 0) = 0 := by
    have h1 := congrArg (C⁻¹.mulVec) hk
    rwa [Matrix.mulVec_mulVec, Matrix.nonsing_inv_mul _ (isUnit_iff_ne_zero.mpr hdet), Matrix.one_mulVec, Matrix.mulVec_zero] at h1
  have := congrFun hz i
  exact neg_nonpos.mp (max_eq_right_iff.mp this)

/-- Floating potentials lie between 0 and 1. -/
theorem floating_bounds {n : Nat} {C : Matrix (Fin n) (Fin n) 𝕜} (hC : PSD C) (hoff : ∀ a b, a ≠ b → C a b ≤ 0)
    (hrow : ∀ a, 0 ≤ ∑ b, C a b) {M : DMat 𝕜} (h : floatingFromC (DMat.ofMatrix C) = .ok M) :
    ∃ R : Matrix (Fin n) (Fin n) 𝕜, M = DMat.ofMatrix R ∧ ∀ i j, 0 ≤ R i j ∧ R i j ≤ 1 ∧ R i i = 1 := by
  obtain ⟨c1, c2⟩ := C36_floating C
  by_cases hu : ∀ i, ∃! v, Spec.FloatingPotentials C i v
  · obtain ⟨R, e, hR⟩ := c1 hu
    rw [h] at e
    refine ⟨R, Outcome.ok.inj e, fun i j => ?_⟩
    obtain ⟨r1, r2, r3⟩ := hR i
    -- a vector in the kernel that vanishes at `i` is 0
    have zero : ∀ w : Fin n → 𝕜, C.mulVec w = 0 → w i = 0 → ∀ j, w j = 0 := by
      intro w hw hi j
      have hf : Spec.FloatingPotentials C i (R i + w) := by
        refine ⟨by rw [Pi.add_apply, r1, hi, add_zero], fun k hk => ?_⟩
        unfold charges
        rw [Matrix.mulVec_add, hw, add_zero]
        exact r2 k hk
      have := congrFun (r3 _ hf) j
      rw [Pi.add_apply] at this
      linarith
    refine ⟨?_, ?_, r1⟩
    · have hk := neg_part_kernel hC hoff (R i) (fun k => by
        by_cases hk : k = i
        · subst hk; exact Or.inl (by rw [r1]; exact zero_le_one)
        · exact Or.inr (r2 k hk).ge)
      have := zero _ hk (max_eq_right (by rw [r1]; linarith [zero_lt_one (α := 𝕜)])) j
      exact neg_nonpos.mp (max_eq_right_iff.mp this)
    · have e1 : ∀ k, C.mulVec (fun l => 1 - R i l) k = ∑ l, C k l - C.mulVec (R i) k := by
        intro k
        simp only [Matrix.mulVec, dotProduct, mul_sub, mul_one, Finset.sum_sub_distrib]
      have hk := neg_part_kernel hC hoff (fun l => 1 - R i l) (fun k => by
        by_cases hk : k = i
        · subst hk
          exact Or.inl (by rw [r1, sub_self])
        · refine Or.inr ?_
          rw [e1, show C.mulVec (R i) k = 0 from r2 k hk, sub_zero]
          exact hrow k)
      have := zero _ hk (by show max (-(1 - R i i)) 0 = 0; rw [r1, sub_self, neg_zero, max_self]) j
      have := neg_nonpos.mp (max_eq_right_iff.mp this)
      linarith
  · rw [not_forall] at hu
    rw [c2 hu] at h
    cases h

/-- The signs are kept when conductor 0 becomes the reference. -/
theorem reduced_signs {n : Nat} {G : Matrix (Fin (n + 1)) (Fin (n + 1)) 𝕜} {C : Matrix (Fin n) (Fin n) 𝕜} {o : Openness}
    (hs : G.IsSymm) (hoff : ∀ a b, a ≠ b → G a b ≤ 0) (hrow : ∀ a, 0 ≤ ∑ b, G a b)
    (hC : getCFromGeneralizedC (DMat.ofMatrix G) o = .ok (DMat.ofMatrix C)) :
    (∀ a b, a ≠ b → C a b ≤ 0) ∧ ∀ a, 0 ≤ ∑ b, C a b := by
  by_cases ho : o = .closed
  · subst ho
    rw [getC_closed] at hC
    have := ofMatrix_eq (Outcome.ok.inj hC)
    subst this
    refine ⟨fun a b hab => hoff _ _ (fun e => hab (Fin.succ_injective _ e)), fun a => ?_⟩
    have h1 := hrow a.succ
    rw [Fin.sum_univ_succ] at h1
    have h2 := hoff a.succ 0 (Fin.succ_ne_zero a)
    show 0 ≤ ∑ b : Fin n, G a.succ b.succ
    linarith
  · have ht0 : 0 ≤ total G := Finset.sum_nonneg fun i _ => hrow i
    rcases Nat.eq_zero_or_pos n with h | h
    · subst h
      exact ⟨fun a => a.elim0, fun a => a.elim0⟩
    have ht : total G ≠ 0 := (reduce_iff G o).mp ⟨C, hC⟩ ho h
    have htp : 0 < total G := lt_of_le_of_ne ht0 (Ne.symm ht)
    rw [getC_open G ho ht] at hC
    have := ofMatrix_eq (Outcome.ok.inj hC)
    subst this
    have hcol : ∀ b, ∑ k, G k b = ∑ k, G b k := fun b => Finset.sum_congr rfl fun k _ => hs.apply b k
    refine ⟨fun a b hab => ?_, fun a => ?_⟩
    · show G a.succ b.succ - (∑ k, G a.succ k) * (∑ k, G k b.succ) / total G ≤ 0
      have h1 := hoff a.succ b.succ (fun e => hab (Fin.succ_injective _ e))
      have h2 : 0 ≤ (∑ k, G a.succ k) * (∑ k, G k b.succ) / total G := by
        rw [hcol]
        exact div_nonneg (mul_nonneg (hrow _) (hrow _)) ht0
      linarith
    · show 0 ≤ ∑ b : Fin n, (G a.succ b.succ - (∑ k, G a.succ k) * (∑ k, G k b.succ) / total G)
      rw [Finset.sum_sub_distrib, ← Finset.sum_div, ← Finset.mul_sum]
      have h1 : ∑ b : Fin n, G a.succ b.succ = (∑ k, G a.succ k) - G a.succ 0 := by
        rw [Fin.sum_univ_succ (f := fun k => G a.succ k)]; ring
      have h2 : ∑ b : Fin n, ∑ k, G k b.succ = total G - ∑ k, G 0 k := by
        simp only [hcol]
        unfold total
        rw [Fin.sum_univ_succ]; ring
      rw [h1, h2]
      have h3 := hoff a.succ 0 (Fin.succ_ne_zero a)
      have h4 : (∑ k, G a.succ k) * (total G - ∑ k, G 0 k) / total G ≤ ∑ k, G a.succ k := by
        rw [div_le_iff₀ htp]
        have := hrow 0
        exact mul_le_mul_of_nonneg_left (by linarith) (hrow _)
      linarith

end Tulip.Props
