import Verif.Proofs.Bernstein

/-!
# Spaces of order `p` on triangles exist

Bernstein polynomials, and their products with Whitney functions (the basis of Arnold, Falk and Winther), meet the
specification of elements of order `p` on every mesh of triangles.
-/

set_option linter.unusedSectionVars false

namespace Tulip
open Matrix Spec MvPolynomial

section
variable {𝕜 : Type} [Field 𝕜] {T : Triangulation 𝕜}

/-- The multi-index belongs to the triangle. -/
def Within {nv : Nat} (t : Tri nv) (α : Fin nv → ℕ) : Prop := ∀ v, α v ≠ 0 → IsVertex t v

open Classical in
/-- Multi-indices of the nodal functions. -/
noncomputable def hDofs (T : Triangulation 𝕜) (p : Nat) : Finset (Fin T.nv → ℕ) :=
  (Finset.piAntidiag Finset.univ p).filter (fun α => ∃ t ∈ T.tris, Within t α)

open Classical in
/-- Multi-indices and pairs of vertices of the Nedelec functions. -/
noncomputable def wDofs (T : Triangulation 𝕜) (q : Nat) : Finset ((Fin T.nv → ℕ) × Fin T.nv × Fin T.nv) :=
  (Finset.piAntidiag Finset.univ q ×ˢ Finset.univ).filter (fun k => k.2.1 < k.2.2 ∧ (∀ l, l < k.2.1 → k.1 l = 0) ∧
    ∃ t ∈ T.tris, Within t k.1 ∧ IsVertex t k.2.1 ∧ IsVertex t k.2.2)

theorem mem_hDofs {p : Nat} {α : Fin T.nv → ℕ} : α ∈ hDofs T p ↔ ∑ v, α v = p ∧ ∃ t ∈ T.tris, Within t α := by
  unfold hDofs
  simp [Finset.mem_piAntidiag]

theorem mem_wDofs {q : Nat} {k : (Fin T.nv → ℕ) × Fin T.nv × Fin T.nv} :
    k ∈ wDofs T q ↔ ∑ v, k.1 v = q ∧ k.2.1 < k.2.2 ∧ (∀ l, l < k.2.1 → k.1 l = 0) ∧
      ∃ t ∈ T.tris, Within t k.1 ∧ IsVertex t k.2.1 ∧ IsVertex t k.2.2 := by
  unfold wDofs
  simp [Finset.mem_piAntidiag]

/-- Fields, triangle by triangle. -/
abbrev Fields (T : Triangulation 𝕜) := {t : Tri T.nv // t ∈ T.tris} → MvPolynomial (Fin 2) 𝕜 × MvPolynomial (Fin 2) 𝕜

/-- Functions, triangle by triangle. -/
abbrev Functions (T : Triangulation 𝕜) := {t : Tri T.nv // t ∈ T.tris} → MvPolynomial (Fin 2) 𝕜

noncomputable def wFun (T : Triangulation 𝕜) (k : (Fin T.nv → ℕ) × Fin T.nv × Fin T.nv) : Fields T :=
  fun t => monoP 𝕜 t.1 k.1 • whitneyP T t.1 k.2.1 k.2.2

noncomputable def hFun (T : Triangulation 𝕜) (α : Fin T.nv → ℕ) : Functions T :=
  fun t => C (Nat.multinomial Finset.univ α : 𝕜) * monoP 𝕜 t.1 α

/-- All products of `q` barycentric coordinates and a Whitney function. -/
noncomputable def rawW (T : Triangulation 𝕜) (q : Nat) : Submodule 𝕜 (Fields T) :=
  Submodule.span 𝕜 (wFun T '' {k | ∑ v, k.1 v = q})

/-- All products of `q` barycentric coordinates. -/
noncomputable def rawH (T : Triangulation 𝕜) (q : Nat) : Submodule 𝕜 (Functions T) :=
  Submodule.span 𝕜 ((fun α (t : {t : Tri T.nv // t ∈ T.tris}) => monoP 𝕜 t.1 α) '' {α | ∑ v, α v = q})

theorem sum_single (v : Fin T.nv) (α : Fin T.nv → ℕ) : ∑ w, (bump α v) w = ∑ w, α w + 1 := by
  unfold bump
  simp [Finset.sum_add_distrib]

theorem Within.add {t : Tri T.nv} {α : Fin T.nv → ℕ} (h : Within t α) {v : Fin T.nv} (hv : IsVertex t v) :
    Within t (bump α v) := by
  intro w hw
  by_cases e : w = v
  · rw [e]; exact hv
  · refine h w ?_
    simpa [bump, e] using hw

theorem three_vertices {t : Tri T.nv} {l i j v : Fin T.nv} (hl : IsVertex t l) (hi : IsVertex t i) (hj : IsVertex t j)
    (h1 : l < i) (h2 : i < j) (hv : IsVertex t v) : v = l ∨ v = i ∨ v = j := by
  have h3 := h1.trans h2
  rcases hl with rfl | rfl | rfl <;> rcases hi with rfl | rfl | rfl <;>
    first
      | exact absurd h1 (lt_irrefl _)
      | (rcases hj with rfl | rfl | rfl <;>
          first
            | exact absurd h2 (lt_irrefl _)
            | exact absurd h3 (lt_irrefl _)
            | (rcases hv with rfl | rfl | rfl <;> simp))

/-- The basis spans all products. -/
theorem rawW_le (q : Nat) : rawW T q ≤ Submodule.span 𝕜 (wFun T '' (wDofs T q : Set _)) := by
  unfold rawW
  rw [Submodule.span_le]
  rintro _ ⟨⟨β, i, j⟩, hβ, rfl⟩
  change ∑ v, β v = q at hβ
  -- ordered pairs
  have main : ∀ (β : Fin T.nv → ℕ) (i j : Fin T.nv), ∑ v, β v = q → i < j →
      wFun T (β, i, j) ∈ Submodule.span 𝕜 (wFun T '' (wDofs T q : Set _)) := by
    intro β i j hβ hij
    by_cases ht : ∃ t ∈ T.tris, Within t β ∧ IsVertex t i ∧ IsVertex t j
    · by_cases hlow : ∀ l, l < i → β l = 0
      · exact Submodule.subset_span ⟨_, mem_wDofs.mpr ⟨hβ, hij, hlow, ht⟩, rfl⟩
      · push Not at hlow
        obtain ⟨l, hli, hl⟩ := hlow
        obtain ⟨t0, ht0, hw, vi, vj⟩ := ht
        have vl := hw l hl
        obtain ⟨γ, rfl⟩ : ∃ γ, β = bump γ l := exists_bump hl
        rw [sum_single] at hβ
        have hγ : Within t0 γ := by
          intro w hw'
          refine hw w ?_
          unfold bump
          omega
        have low : ∀ w : Fin T.nv, w = i ∨ w = j → ∀ l', l' < l → (bump γ w) l' = 0 := by
          intro w hw' l' hl'
          by_contra hne
          have hv : IsVertex t0 l' := (hγ.add (by rcases hw' with rfl | rfl; exacts [vi, vj])) l' hne
          rcases three_vertices vl vi vj hli hij hv with rfl | rfl | rfl
          · exact lt_irrefl _ hl'
          · exact lt_asymm hl' hli
          · exact lt_asymm hl' (hli.trans hij)
        have e : wFun T (bump γ l, i, j) =
            wFun T (bump γ i, l, j) - wFun T (bump γ j, l, i) := by
          funext t
          show monoP 𝕜 t.1 (bump γ l) • whitneyP T t.1 i j =
            monoP 𝕜 t.1 (bump γ i) • whitneyP T t.1 l j - monoP 𝕜 t.1 (bump γ j) • whitneyP T t.1 l i
          rw [monoP_add, monoP_add, monoP_add, mul_comm, mul_smul, whitneyP_relation, smul_sub, smul_smul, smul_smul,
            mul_comm (monoP 𝕜 t.1 γ), mul_comm (monoP 𝕜 t.1 γ)]
        rw [e]
        refine Submodule.sub_mem _ (Submodule.subset_span ⟨_, mem_wDofs.mpr ⟨?_, hli.trans hij, low i (Or.inl rfl), t0, ht0,
          hγ.add vi, vl, vj⟩, rfl⟩) (Submodule.subset_span ⟨_, mem_wDofs.mpr ⟨?_, hli, low j (Or.inr rfl), t0, ht0,
          hγ.add vj, vl, vi⟩, rfl⟩)
        · rw [sum_single, hβ]
        · rw [sum_single, hβ]
    · have : wFun T (β, i, j) = 0 := by
        funext t
        show monoP 𝕜 t.1 β • whitneyP T t.1 i j = 0
        by_cases hv : IsVertex t.1 i ∧ IsVertex t.1 j
        · have : ¬ Within t.1 β := fun hw => ht ⟨t.1, t.2, hw, hv⟩
          unfold Within at this
          push Not at this
          obtain ⟨v, h1, h2⟩ := this
          rw [monoP_off h2 h1, zero_smul]
        · rw [whitneyP_off hv, smul_zero]
      rw [this]
      exact Submodule.zero_mem _
  rcases lt_trichotomy i j with h | h | h
  · exact main β i j hβ h
  · have : wFun T (β, i, j) = 0 := by
      funext t
      show monoP 𝕜 t.1 β • whitneyP T t.1 i j = 0
      rw [h, whitneyP_self, smul_zero]
    rw [this]
    exact Submodule.zero_mem _
  · have : wFun T (β, i, j) = -wFun T (β, j, i) := by
      funext t
      show monoP 𝕜 t.1 β • whitneyP T t.1 i j = -(monoP 𝕜 t.1 β • whitneyP T t.1 j i)
      rw [whitneyP_swap, smul_neg]
    rw [this]
    exact Submodule.neg_mem _ (main β j i hβ h)

/-- Multiplication with a barycentric coordinate. -/
theorem rawW_mul {q : Nat} (v : Fin T.nv) {f : Fields T} (hf : f ∈ rawW T q) :
    (fun t => baryP 𝕜 t.1 v • f t : Fields T) ∈ rawW T (q + 1) := by
  let L : Fields T →ₗ[𝕜] Fields T :=
    { toFun := fun f t => baryP 𝕜 t.1 v • f t
      map_add' := fun f g => by funext t; exact smul_add _ _ _
      map_smul' := fun c f => by funext t; exact smul_comm (baryP 𝕜 t.1 v) c (f t) }
  have : rawW T q ≤ (rawW T (q + 1)).comap L := by
    unfold rawW
    rw [Submodule.span_le]
    rintro _ ⟨⟨β, i, j⟩, hβ, rfl⟩
    change ∑ v, β v = q at hβ
    refine Submodule.subset_span ⟨(bump β v, i, j), ?_, ?_⟩
    · show ∑ w, (bump β v) w = q + 1
      rw [sum_single, hβ]
    · funext t
      show monoP 𝕜 t.1 (bump β v) • whitneyP T t.1 i j = baryP 𝕜 t.1 v • (monoP 𝕜 t.1 β • whitneyP T t.1 i j)
      rw [monoP_add, mul_smul]
  exact this hf

theorem rawW_up (hd : ∀ t ∈ T.tris, T.det t ≠ 0) {q : Nat} {f : Fields T} (hf : f ∈ rawW T q) (r : Nat) : f ∈ rawW T (q + r) := by
  induction r with
  | zero => exact hf
  | succ r ih =>
    have : f = ∑ v, (fun t => baryP 𝕜 t.1 v • f t : Fields T) := by
      funext t
      rw [Finset.sum_apply, ← Finset.sum_smul, sum_baryP (hd t.1 t.2), one_smul]
    rw [this]
    exact Submodule.sum_mem _ fun v _ => rawW_mul v ih

theorem gradHat_mem (hd : ∀ t ∈ T.tris, T.det t ≠ 0) (v : Fin T.nv) :
    (fun t => (C (T.gradHat t.1 v).1, C (T.gradHat t.1 v).2) : Fields T) ∈ rawW T 0 := by
  have : (fun t => (C (T.gradHat t.1 v).1, C (T.gradHat t.1 v).2) : Fields T) = ∑ j, wFun T (0, j, v) := by
    funext t
    rw [Finset.sum_apply, gradHat_eq_sum (hd t.1 t.2)]
    refine Finset.sum_congr rfl fun j _ => ?_
    show _ = monoP 𝕜 t.1 0 • whitneyP T t.1 j v
    simp [monoP]
  rw [this]
  exact Submodule.sum_mem _ fun j _ => Submodule.subset_span ⟨_, by show ∑ v, (0 : Fin T.nv → ℕ) v = 0; simp, rfl⟩

theorem exists_pred {α : Fin T.nv → ℕ} {q : Nat} (h : ∑ v, α v = q + 1) : ∃ (v : Fin T.nv) (γ : Fin T.nv → ℕ), α = bump γ v ∧ ∑ w, γ w = q := by
  obtain ⟨v, hv⟩ : ∃ v, α v ≠ 0 := by
    by_contra hne
    push Not at hne
    simp [hne] at h
  obtain ⟨γ, rfl⟩ := exists_bump hv
  rw [sum_single] at h
  exact ⟨v, γ, rfl, by omega⟩

/-- Gradients of products of `q + 1` barycentric coordinates. -/
theorem gradient_mem (hd : ∀ t ∈ T.tris, T.det t ≠ 0) : ∀ (q : Nat) (α : Fin T.nv → ℕ), ∑ v, α v = q + 1 →
    (fun t => T.gradient t.1 (monoP 𝕜 t.1 α) : Fields T) ∈ rawW T q := by
  have prodRule : ∀ (γ : Fin T.nv → ℕ) (v : Fin T.nv),
      (fun t => T.gradient t.1 (monoP 𝕜 t.1 (bump γ v)) : Fields T) =
      (fun t => baryP 𝕜 t.1 v • T.gradient t.1 (monoP 𝕜 t.1 γ)) + ∑ j, wFun T (γ, j, v) := by
    intro γ v
    funext t
    rw [Pi.add_apply, Finset.sum_apply, monoP_add, gradient_mul, gradient_baryP (hd t.1 t.2)]
    have e : ∑ j, wFun T (γ, j, v) t = monoP 𝕜 t.1 γ • (C (T.gradHat t.1 v).1, C (T.gradHat t.1 v).2) := by
      rw [gradHat_eq_sum (hd t.1 t.2), Finset.smul_sum]
      rfl
    rw [e]
    rfl
  have sums : ∀ (q : Nat) (γ : Fin T.nv → ℕ) (v : Fin T.nv), ∑ v, γ v = q → ∑ j, wFun T (γ, j, v) ∈ rawW T q :=
    fun q γ v h => Submodule.sum_mem _ fun j _ => Submodule.subset_span ⟨(γ, j, v), h, rfl⟩
  intro q
  induction q with
  | zero =>
    intro α hα
    obtain ⟨v, γ, rfl, hγ⟩ := exists_pred hα
    rw [prodRule]
    refine Submodule.add_mem _ ?_ (sums 0 γ v hγ)
    have : (fun t => baryP 𝕜 t.1 v • T.gradient t.1 (monoP 𝕜 t.1 γ) : Fields T) = 0 := by
      funext t
      have hz : γ = 0 := by
        funext w
        exact (Finset.sum_eq_zero_iff.mp hγ) w (Finset.mem_univ w)
      rw [hz]
      simp [monoP, Triangulation.gradient]
    rw [this]
    exact Submodule.zero_mem _
  | succ q ih =>
    intro α hα
    obtain ⟨v, γ, rfl, hγ⟩ := exists_pred hα
    rw [prodRule]
    exact Submodule.add_mem _ (rawW_mul v (ih γ hγ)) (sums (q + 1) γ v hγ)

/-! ## Nodal functions -/

theorem rawH_le [CharZero 𝕜] (q : Nat) : rawH T q ≤ Submodule.span 𝕜 (hFun T '' (hDofs T q : Set _)) := by
  unfold rawH
  rw [Submodule.span_le]
  rintro _ ⟨α, hα, rfl⟩
  change ∑ v, α v = q at hα
  by_cases ht : ∃ t ∈ T.tris, Within t α
  · have e : (fun (t : {t : Tri T.nv // t ∈ T.tris}) => monoP 𝕜 t.1 α) =
        (Nat.multinomial Finset.univ α : 𝕜)⁻¹ • hFun T α := by
      funext t
      have h0 : (Nat.multinomial Finset.univ α : 𝕜) ≠ 0 := by exact_mod_cast (Nat.multinomial_pos _ _).ne'
      show monoP 𝕜 t.1 α = (Nat.multinomial Finset.univ α : 𝕜)⁻¹ • (C (Nat.multinomial Finset.univ α : 𝕜) * monoP 𝕜 t.1 α)
      rw [smul_eq_C_mul, ← mul_assoc, ← C_mul, inv_mul_cancel₀ h0, C_1, one_mul]
    show (fun (t : {t : Tri T.nv // t ∈ T.tris}) => monoP 𝕜 t.1 α) ∈ _
    rw [e]
    exact Submodule.smul_mem _ _ (Submodule.subset_span ⟨α, mem_hDofs.mpr ⟨hα, ht⟩, rfl⟩)
  · have : (fun (t : {t : Tri T.nv // t ∈ T.tris}) => monoP 𝕜 t.1 α) = 0 := by
      funext t
      have : ¬ Within t.1 α := fun hw => ht ⟨t.1, t.2, hw⟩
      unfold Within at this
      push Not at this
      obtain ⟨v, h1, h2⟩ := this
      exact monoP_off h2 h1
    show (fun (t : {t : Tri T.nv // t ∈ T.tris}) => monoP 𝕜 t.1 α) ∈ _
    rw [this]
    exact Submodule.zero_mem _

theorem rawH_mul {q : Nat} (v : Fin T.nv) {f : Functions T} (hf : f ∈ rawH T q) :
    (fun t => baryP 𝕜 t.1 v * f t : Functions T) ∈ rawH T (q + 1) := by
  let L : Functions T →ₗ[𝕜] Functions T :=
    { toFun := fun f t => baryP 𝕜 t.1 v * f t
      map_add' := fun f g => by funext t; exact mul_add (baryP 𝕜 t.1 v) (f t) (g t)
      map_smul' := fun c f => by funext t; exact Algebra.mul_smul_comm c (baryP 𝕜 t.1 v) (f t) }
  have : rawH T q ≤ (rawH T (q + 1)).comap L := by
    unfold rawH
    rw [Submodule.span_le]
    rintro _ ⟨α, hα, rfl⟩
    change ∑ v, α v = q at hα
    refine Submodule.subset_span ⟨bump α v, ?_, ?_⟩
    · show ∑ w, (bump α v) w = q + 1
      rw [sum_single, hα]
    · funext t
      exact monoP_add t.1 α v
  exact this hf

theorem rawH_up (hd : ∀ t ∈ T.tris, T.det t ≠ 0) {q : Nat} {f : Functions T} (hf : f ∈ rawH T q) (r : Nat) : f ∈ rawH T (q + r) := by
  induction r with
  | zero => exact hf
  | succ r ih =>
    have : f = ∑ v, (fun t => baryP 𝕜 t.1 v * f t : Functions T) := by
      funext t
      rw [Finset.sum_apply, ← Finset.sum_mul, sum_baryP (hd t.1 t.2), one_mul]
    rw [this]
    exact Submodule.sum_mem _ fun v _ => rawH_mul v ih

theorem linearOn_mem (hd : ∀ t ∈ T.tris, T.det t ≠ 0) (f : Fin T.nv → 𝕜) :
    (fun t => linearOn t.1 f : Functions T) ∈ rawH T 1 := by
  have : (fun t => linearOn t.1 f : Functions T) =
      ∑ v, f v • (fun (t : {t : Tri T.nv // t ∈ T.tris}) => monoP 𝕜 t.1 (bump 0 v)) := by
    funext t
    obtain ⟨ha, hb, hc⟩ := baryP_verts (hd t.1 t.2)
    have e : ∀ v, monoP 𝕜 t.1 (bump 0 v) = baryP 𝕜 t.1 v := by
      intro v
      rw [monoP_add]
      simp [monoP]
    rw [Finset.sum_apply]
    simp only [Pi.smul_apply, e]
    rw [sum_verts (hd t.1 t.2) _ (fun k hk => by rw [baryP_off hk, smul_zero]), ha, hb, hc]
    simp only [smul_eq_C_mul]
    rfl
  rw [this]
  exact Submodule.sum_mem _ fun v _ => Submodule.smul_mem _ _ (Submodule.subset_span ⟨_, by
    show ∑ w, bump (0 : Fin T.nv → ℕ) v w = 1
    rw [sum_single]
    simp, rfl⟩)

open Classical in
theorem sum_hFun (hd : ∀ t ∈ T.tris, T.det t ≠ 0) (p : Nat) (t : {t : Tri T.nv // t ∈ T.tris}) :
    ∑ α ∈ hDofs T p, hFun T α t = 1 := by
  have h := Finset.sum_pow_eq_sum_piAntidiag Finset.univ (fun v => baryP 𝕜 t.1 v) p
  rw [sum_baryP (hd t.1 t.2), one_pow] at h
  rw [h]
  unfold hDofs
  rw [Finset.sum_filter_of_ne]
  · exact Finset.sum_congr rfl fun α _ => by unfold hFun monoP; rw [map_natCast]
  · intro α _ hne
    refine ⟨t.1, t.2, fun v hv => ?_⟩
    by_contra hno
    refine hne ?_
    unfold hFun
    rw [monoP_off hno hv, mul_zero]

end
end Tulip
