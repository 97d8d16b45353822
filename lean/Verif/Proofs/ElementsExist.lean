import Verif.Proofs.BernsteinComplete

/-!
# Elements of every order exist on every mesh of triangles
-/

set_option linter.unusedSectionVars false

namespace Tulip
open Matrix Spec MvPolynomial

section
variable {𝕜 : Type} [Field 𝕜] [CharZero 𝕜] {T : Triangulation 𝕜}

theorem gradient_C_mul (t : Tri T.nv) (c : 𝕜) (P : MvPolynomial (Fin 2) 𝕜) :
    T.gradient t (C c * P) = c • T.gradient t P := by
  unfold Triangulation.gradient
  simp only [pderiv_mul, pderiv_C, zero_mul, zero_add, Prod.smul_mk, smul_eq_C_mul]
  refine Prod.ext ?_ ?_ <;> · dsimp only; ring

/-- A function of the numbers as a function of what is numbered. -/
noncomputable def onDofs {ι : Type} (D : Finset ι) (u : Fin D.card → 𝕜) : ι → 𝕜 := by
  classical
  exact fun α => if h : α ∈ D then u (D.equivFin ⟨α, h⟩) else 0

theorem onDofs_symm {ι : Type} (D : Finset ι) (u : Fin D.card → 𝕜) (i : Fin D.card) :
    onDofs D u (D.equivFin.symm i).1 = u i := by
  unfold onDofs
  rw [dif_pos (D.equivFin.symm i).2]
  congr 1
  exact D.equivFin.apply_symm_apply i

theorem sum_dofs {ι : Type} (D : Finset ι) {M : Type _} [AddCommMonoid M] (g : ι → M) :
    ∑ i, g (D.equivFin.symm i).1 = ∑ α ∈ D, g α := by
  rw [Equiv.sum_comp D.equivFin.symm (fun α => g α.1), Finset.sum_coe_sort]

theorem of_span {ι : Type} (D : Finset ι) {M : Type _} [AddCommGroup M] [Module 𝕜 M] (f : ι → M) {x : M}
    (h : x ∈ Submodule.span 𝕜 (f '' (D : Set ι))) : ∃ u : Fin D.card → 𝕜, ∑ i, u i • f (D.equivFin.symm i).1 = x := by
  obtain ⟨c, hc⟩ := (Submodule.mem_span_image_finset_iff_exists_fun' 𝕜).mp h
  refine ⟨fun i => c (D.equivFin.symm i).1, ?_⟩
  rw [sum_dofs D (fun α => c α • f α)]
  exact hc

open Classical in
/-- On every mesh of triangles there are finite element spaces of every order. -/
theorem bernstein_exist [LinearOrder 𝕜] (hT : Proper T) {p : Nat} (hp : 1 ≤ p) : ∃ S : Shapes T, Elements S p ∧
    ((∀ t ∈ T.tris, ∀ t' ∈ T.tris, (∀ v, IsVertex t v → IsVertex t' v) → t = t') → Complete S p) := by
  have hd : ∀ t ∈ T.tris, T.det t ≠ 0 := fun t ht => (hT.area t ht).ne'
  obtain ⟨q, rfl⟩ : ∃ q, p = q + 1 := ⟨p - 1, by omega⟩
  let H := hDofs T (q + 1)
  let K := wDofs T q
  let α : Fin H.card → Fin T.nv → ℕ := fun i => (H.equivFin.symm i).1
  let κ : Fin K.card → (Fin T.nv → ℕ) × Fin T.nv × Fin T.nv := fun k => (K.equivFin.symm k).1
  have hα : ∀ i, α i ∈ H := fun i => (H.equivFin.symm i).2
  have hκ : ∀ k, κ k ∈ K := fun k => (K.equivFin.symm k).2
  -- gradients
  have hG : ∀ i, ∃ u : Fin K.card → 𝕜, ∑ k, u k • wFun T (κ k) = (fun t => T.gradient t.1 (hFun T (α i) t) : Fields T) := by
    intro i
    refine of_span K (wFun T) (rawW_le q ?_)
    have e : (fun t => T.gradient t.1 (hFun T (α i) t) : Fields T) =
        (Nat.multinomial Finset.univ (α i) : 𝕜) • (fun t => T.gradient t.1 (monoP 𝕜 t.1 (α i)) : Fields T) := by
      funext t
      exact gradient_C_mul t.1 _ _
    rw [e]
    exact Submodule.smul_mem _ _ (gradient_mem hd q (α i) (mem_hDofs.mp (hα i)).1)
  choose G hG using hG
  let N : Tri T.nv → Fin H.card → MvPolynomial (Fin 2) 𝕜 := fun t i => C (Nat.multinomial Finset.univ (α i) : 𝕜) * monoP 𝕜 t (α i)
  let W : Tri T.nv → Fin K.card → MvPolynomial (Fin 2) 𝕜 × MvPolynomial (Fin 2) 𝕜 :=
    fun t k => monoP 𝕜 t (κ k).1 • whitneyP T t (κ k).2.1 (κ k).2.2
  let S : Shapes T :=
    { n := H.card, ne := K.card, nd := K.card, N := N, W := W
      R := fun t k => ((W t k).2, -(W t k).1)
      onSeg := fun s => (Finset.univ.filter (fun i => ∀ v, α i v ≠ 0 → v = s.a ∨ v = s.b)).toList
      node := fun i => ((∑ v, (α i v : 𝕜) * (T.coord v).1) / (q + 1), (∑ v, (α i v : 𝕜) * (T.coord v).2) / (q + 1))
      grad := fun k i => G i k }
  have memSeg : ∀ s i, i ∈ S.onSeg s ↔ ∀ v, α i v ≠ 0 → v = s.a ∨ v = s.b := by
    intro s i
    show i ∈ (Finset.univ.filter (fun i => ∀ v, α i v ≠ 0 → v = s.a ∨ v = s.b)).toList ↔ _
    simp
  have hNF : ∀ t (ht : t ∈ T.tris) i, N t i = hFun T (α i) ⟨t, ht⟩ := fun _ _ _ => rfl
  have hWF : ∀ t (ht : t ∈ T.tris) k, W t k = wFun T (κ k) ⟨t, ht⟩ := fun _ _ _ => rfl
  have within : ∀ t i, N t i ≠ 0 → Within t (α i) := by
    intro t i hne v hv
    by_contra hno
    exact hne (by show C _ * monoP 𝕜 t (α i) = 0; rw [monoP_off hno hv, mul_zero])
  have some : ∀ i, ∃ v, α i v ≠ 0 := by
    intro i
    by_contra hne
    push Not at hne
    have := (mem_hDofs.mp (hα i)).1
    simp [hne] at this
  have whit : ∀ t k, W t k ≠ 0 → IsVertex t (κ k).2.1 := by
    intro t k hne
    by_contra hno
    exact hne (by show monoP 𝕜 t (κ k).1 • whitneyP T t (κ k).2.1 (κ k).2.2 = 0; rw [whitneyP_off (fun h => hno h.1), smul_zero])
  have side : ∀ t ∈ T.tris, ∀ v w, IsVertex t v → IsVertex t w → ∀ x y : 𝕜, x + y = 1 → ∀ i,
      sideValue S t v w x y i = (Nat.multinomial Finset.univ (α i) : 𝕜) * ∏ k, between v w x y k ^ α i k := by
    intro t ht v w hv hw x y hxy i
    show eval (Triangulation.onSide t v w x y) (C (Nat.multinomial Finset.univ (α i) : 𝕜) * monoP 𝕜 t (α i)) = _
    rw [map_mul, eval_C, eval_side (hd t ht) hv hw hxy]
  have sideVerts : ∀ t : Tri T.nv, ∀ v w, (v, w) ∈ t.sides → IsVertex t v ∧ IsVertex t w := by
    intro t v w h
    simp only [Tri.sides, List.mem_cons, Prod.mk.injEq, List.not_mem_nil, or_false] at h
    unfold IsVertex
    rcases h with ⟨rfl, rfl⟩ | ⟨rfl, rfl⟩ | ⟨rfl, rfl⟩ <;> simp
  have sideNe : ∀ t ∈ T.tris, ∀ v w, (v, w) ∈ t.sides → v ≠ w := by
    intro t ht v w h
    obtain ⟨h1, h2, h3⟩ := det_ne (hd t ht)
    simp only [Tri.sides, List.mem_cons, Prod.mk.injEq, List.not_mem_nil, or_false] at h
    rcases h with ⟨rfl, rfl⟩ | ⟨rfl, rfl⟩ | ⟨rfl, rfl⟩
    exacts [h1, h2, h3]
  have degW : ∀ t k, (W t k).1.totalDegree ≤ q + 1 ∧ (W t k).2.totalDegree ≤ q + 1 := by
    intro t k
    have h1 := totalDegree_monoP (𝕜 := 𝕜) t (κ k).1
    rw [(mem_wDofs.mp (hκ k)).1] at h1
    obtain ⟨h2, h3⟩ := totalDegree_whitneyP t (κ k).2.1 (κ k).2.2
    exact ⟨(totalDegree_mul _ _).trans (Nat.add_le_add h1 h2), (totalDegree_mul _ _).trans (Nat.add_le_add h1 h3)⟩
  have basisW : ∀ u : Fin K.card → 𝕜, (∀ t ∈ T.tris, ∑ k, C (u k) * (W t k).1 = 0 ∧ ∑ k, C (u k) * (W t k).2 = 0) → ∀ k, u k = 0 := by
    intro u hu k
    have := wFun_indep hd (onDofs K u) ?_ (κ k) (hκ k)
    · rwa [onDofs_symm] at this
    · intro t
      obtain ⟨h1, h2⟩ := hu t.1 t.2
      rw [← sum_dofs K (fun k => C (onDofs K u k) * (wFun T k t).1), ← sum_dofs K (fun k => C (onDofs K u k) * (wFun T k t).2)]
      simp only [onDofs_symm]
      exact ⟨h1, h2⟩
  have fields : ∀ f : Fields T, f ∈ rawW T q → ∃ u : Fin K.card → 𝕜, ∀ t (ht : t ∈ T.tris),
      ∑ k, C (u k) * (W t k).1 = (f ⟨t, ht⟩).1 ∧ ∑ k, C (u k) * (W t k).2 = (f ⟨t, ht⟩).2 := by
    intro f hf
    obtain ⟨u, hu⟩ := of_span K (wFun T) (rawW_le q hf)
    refine ⟨u, fun t ht => ?_⟩
    have := congrFun hu ⟨t, ht⟩
    rw [Finset.sum_apply] at this
    rw [← this, Prod.fst_sum, Prod.snd_sum]
    simp only [Pi.smul_apply, Prod.smul_fst, Prod.smul_snd, smul_eq_C_mul]
    exact ⟨rfl, rfl⟩
  have complete : (∀ t ∈ T.tris, ∀ t' ∈ T.tris, (∀ v, IsVertex t v → IsVertex t' v) → t = t') → Complete S (q + 1) := by
    intro hsame
    refine ⟨fun P hP => ?_, fun k => wFun_flux hd (hκ k), fun F hF => ?_⟩
    · obtain ⟨u, hu⟩ := of_span H (hFun T) (nodal_mem hd hsame hp hP)
      refine ⟨u, fun t ht => ?_⟩
      have := congrFun hu ⟨t, ht⟩
      rw [Finset.sum_apply] at this
      rw [← this]
      exact Finset.sum_congr rfl fun i _ => (smul_eq_C_mul _ _).symm
    · obtain ⟨u, hu⟩ := of_span K (wFun T) (field_mem hd hsame hF)
      refine ⟨u, fun t ht => ?_⟩
      have := congrFun hu ⟨t, ht⟩
      rw [Finset.sum_apply] at this
      have h1 := congrArg Prod.fst this
      have h2 := congrArg Prod.snd this
      rw [Prod.fst_sum] at h1
      rw [Prod.snd_sum] at h2
      simp only [Pi.smul_apply, Prod.smul_fst, Prod.smul_snd, smul_eq_C_mul] at h1 h2
      refine ⟨h2, ?_⟩
      have : ∑ k, C (u k) * (S.R t k).2 = -∑ k, C (u k) * (W t k).1 := by
        rw [← Finset.sum_neg_distrib]
        exact Finset.sum_congr rfl fun k _ => mul_neg _ _
      exact this.trans (neg_eq_iff_eq_neg.mpr h1)
  refine ⟨S, ?_, complete⟩
  constructor
  · intro t _ i
    refine (totalDegree_mul _ _).trans ?_
    rw [totalDegree_C, zero_add]
    exact (totalDegree_monoP t (α i)).trans (mem_hDofs.mp (hα i)).1.le
  · exact fun t _ k => degW t k
  · intro t _ k
    refine ⟨(degW t k).2, ?_⟩
    show (-(W t k).1).totalDegree ≤ q + 1
    rw [totalDegree_neg]
    exact (degW t k).1
  · intro t ht t' ht' v w hv hw hv' hw' x y hxy i
    rw [side t ht v w hv hw x y hxy, side t' ht' v w hv' hw' x y hxy]
  · intro t ht
    have := sum_hFun hd (q + 1) ⟨t, ht⟩
    rw [← sum_dofs] at this
    exact this
  · intro u hu i
    have := hFun_indep hd (onDofs H u) ?_ (α i) (hα i)
    · rwa [onDofs_symm] at this
    · intro t
      rw [← sum_dofs H (fun α => C (onDofs H u α) * hFun T α t)]
      simp only [onDofs_symm]
      exact hu t.1 t.2
  · exact basisW
  · intro u hu
    refine basisW u fun t ht => ?_
    obtain ⟨h1, h2⟩ := hu t ht
    refine ⟨?_, h1⟩
    have : -∑ k, C (u k) * (W t k).1 = 0 := by
      rw [← Finset.sum_neg_distrib, ← h2]
      exact Finset.sum_congr rfl fun k _ => (mul_neg _ _).symm
    exact neg_eq_zero.mp this
  · intro s hs t ht hst u hu i hi
    obtain ⟨hv, hw⟩ := sideVerts t _ _ hst
    have := hFun_indep_side hd ht hv hw (sideNe t ht _ _ hst) (onDofs H u) ?_ (α i) (hα i) ((memSeg s i).mp hi)
    · rwa [onDofs_symm] at this
    · intro x y hxy
      rw [← sum_dofs H (fun α => onDofs H u α * eval (Triangulation.onSide t s.a s.b x y) (hFun T α ⟨t, ht⟩))]
      simp only [onDofs_symm]
      exact hu x y hxy
  · intro s hs t ht hst i hi x y hxy
    obtain ⟨hv, hw⟩ := sideVerts t _ _ hst
    rw [side t ht _ _ hv hw x y hxy]
    rw [memSeg] at hi
    push Not at hi
    obtain ⟨k, hk, k1, k2⟩ := hi
    rw [Finset.prod_eq_zero (Finset.mem_univ k) (by unfold between; rw [if_neg k1, if_neg k2, add_zero, zero_pow hk]), mul_zero]
  · intro s _ s' _ i hi hi'
    rw [memSeg] at hi hi'
    obtain ⟨v, hv⟩ := some i
    exact ⟨v, hi v hv, hi' v hv⟩
  · intro t _ t' _ i h1 h2
    obtain ⟨v, hv⟩ := some i
    exact ⟨v, within t i h1 v hv, within t' i h2 v hv⟩
  · intro t _ t' _ k h1 h2
    exact ⟨(κ k).2.1, whit t k h1, whit t' k h2⟩
  · have rot : ∀ t k, S.R t k ≠ 0 → W t k ≠ 0 := by
      intro t k h1 h2
      refine h1 ?_
      show ((W t k).2, -(W t k).1) = 0
      rw [h2]
      simp
    intro t _ t' _ k h1 h2
    exact ⟨(κ k).2.1, whit t k (rot t k h1), whit t' k (rot t' k h2)⟩
  · intro f
    have hm := rawH_up hd (linearOn_mem hd f) q
    rw [add_comm] at hm
    obtain ⟨u, hu⟩ := of_span H (hFun T) (rawH_le _ hm)
    refine ⟨u, fun t ht => ?_⟩
    have := congrFun hu ⟨t, ht⟩
    rw [Finset.sum_apply] at this
    rw [← this]
    exact Finset.sum_congr rfl fun i _ => (smul_eq_C_mul _ _).symm
  · intro g
    have hm := rawW_up hd (uniform_mem hd (-g.2, g.1)) q
    rw [zero_add] at hm
    obtain ⟨u, hu⟩ := fields _ hm
    refine ⟨u, fun t ht => ⟨(hu t ht).2, ?_⟩⟩
    have h1 := (hu t ht).1
    dsimp only at h1
    have : ∑ k, C (u k) * (S.R t k).2 = -∑ k, C (u k) * (W t k).1 := by
      rw [← Finset.sum_neg_distrib]
      exact Finset.sum_congr rfl fun k _ => mul_neg _ _
    refine this.trans ?_
    rw [h1, C_neg, neg_neg]
  · intro t ht i
    have := congrFun (hG i) ⟨t, ht⟩
    rw [Finset.sum_apply] at this
    refine Eq.trans ?_ this
    refine Prod.ext ?_ ?_
    · rw [Prod.fst_sum]
      simp only [Pi.smul_apply, Prod.smul_fst, smul_eq_C_mul]
      rfl
    · rw [Prod.snd_sum]
      simp only [Pi.smul_apply, Prod.smul_snd, smul_eq_C_mul]
      rfl

theorem elements_exist [LinearOrder 𝕜] (hT : Proper T) {p : Nat} (hp : 1 ≤ p) : ∃ S : Shapes T, Elements S p :=
  let ⟨S, h, _⟩ := bernstein_exist hT hp
  ⟨S, h⟩

/-- On a conforming mesh there are complete ones. -/
theorem complete_exist {𝕜 : Type} [Field 𝕜] [LinearOrder 𝕜] [IsStrictOrderedRing 𝕜] {T : Triangulation 𝕜} (hT : Proper T)
    (hc : Conforming T) {p : Nat} (hp : 1 ≤ p) : ∃ S : Shapes T, Elements S p ∧ Complete S p :=
  let ⟨S, h, k⟩ := bernstein_exist hT hp
  ⟨S, h, k fun _ ht _ ht' hv => same_vertices hT hc ht ht' hv⟩

end
end Tulip
