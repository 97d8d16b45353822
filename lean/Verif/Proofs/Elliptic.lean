import Verif.Proofs.Prescribed

/-!
# Well-posedness of elliptic discrete problems
-/

set_option linter.unusedSectionVars false

namespace Tulip
open Matrix Spec

section
variable {𝕜 : Type} [Field 𝕜] {F : FEM 𝕜} {mats : Materials 𝕜} {A : Analytic 𝕜} {b : Bool}

theorem vector_form {α : Type _} {n : Nat} (L : List α) (c : α → 𝕜) (B : α → Fin n → 𝕜 × 𝕜) (x : α → 𝕜 × 𝕜)
    (u : Fin n → 𝕜) : ∑ i, u i * (L.map (fun q => c q * inner2 (B q i) (x q))).sum =
      (L.map (fun q => c q * inner2 (vectorAt (B q) u) (x q))).sum := by
  induction L with
  | nil => simp
  | cons q L ih =>
    simp only [List.map_cons, List.sum_cons, mul_add, Finset.sum_add_distrib]
    rw [ih]
    congr 1
    simp only [inner2, vectorAt, Finset.sum_mul, ← Finset.sum_add_distrib, Finset.mul_sum]
    exact Finset.sum_congr rfl (fun i _ => by ring)

theorem scalar_form {α : Type _} {n : Nat} (L : List α) (c : α → 𝕜) (B : α → Fin n → 𝕜) (x : α → 𝕜)
    (u : Fin n → 𝕜) : ∑ i, u i * (L.map (fun q => c q * (B q i * x q))).sum =
      (L.map (fun q => c q * (scalarAt (B q) u * x q))).sum := by
  induction L with
  | nil => simp
  | cons q L ih =>
    simp only [List.map_cons, List.sum_cons, mul_add, Finset.sum_add_distrib]
    rw [ih]
    congr 1
    simp only [scalarAt, Finset.sum_mul, Finset.mul_sum]
    exact Finset.sum_congr rfl (fun i _ => by ring)

/-- The weak form tested with `v`. -/
theorem weakForm_test (A : Analytic 𝕜) (eps : Int → 𝕜) (opens : List Int) (u v : Fin F.n → 𝕜) :
    ∑ i, v i * weakForm A F eps opens u i =
      (F.dom.map (fun q => q.w * eps q.attr * inner2 (vectorAt q.gradN v) (vectorAt q.gradN u))).sum +
      ((F.bdr.filter (fun q => q.attr ∈ opens)).map
        (fun q => q.w * A.abc q.pos * (scalarAt q.N v * scalarAt q.N u))).sum := by
  unfold weakForm
  simp only [mul_add, Finset.sum_add_distrib]
  rw [vector_form F.dom (fun q => q.w * eps q.attr) (fun q => q.gradN) (fun q => vectorAt q.gradN u) v,
    scalar_form (F.bdr.filter (fun q => q.attr ∈ opens)) (fun q => q.w * A.abc q.pos) (fun q => q.N) (fun q => scalarAt q.N u) v]

end

section
variable {𝕜 : Type} [Field 𝕜] [LinearOrder 𝕜] [IsStrictOrderedRing 𝕜] {F : FEM 𝕜} {mats : Materials 𝕜}
  {A : Analytic 𝕜} {b : Bool}

theorem inner2_self_nonneg (a : 𝕜 × 𝕜) : 0 ≤ inner2 a a := add_nonneg (mul_self_nonneg _) (mul_self_nonneg _)

theorem inner2_self_eq_zero {a : 𝕜 × 𝕜} (h : inner2 a a = 0) : a = (0, 0) := by
  unfold inner2 at h
  have h1 := (add_eq_zero_iff_of_nonneg (mul_self_nonneg a.1) (mul_self_nonneg a.2)).mp h
  exact Prod.ext (mul_self_eq_zero.mp h1.1) (mul_self_eq_zero.mp h1.2)

theorem sum_nonneg_eq_zero {α : Type _} {f : α → 𝕜} : ∀ {L : List α}, (∀ q ∈ L, 0 ≤ f q) → (L.map f).sum = 0 →
    ∀ q ∈ L, f q = 0
  | [], _, _ => fun q hq => by cases hq
  | a :: L, h, e => by
    rw [List.map_cons, List.sum_cons] at e
    have h2 : 0 ≤ (L.map f).sum := by
      apply List.sum_nonneg
      intro x hx
      obtain ⟨q, hq, rfl⟩ := List.mem_map.mp hx
      exact h q (List.mem_cons_of_mem _ hq)
    obtain ⟨e1, e2⟩ := (add_eq_zero_iff_of_nonneg (h a List.mem_cons_self) h2).mp e
    intro q hq
    rcases List.mem_cons.mp hq with rfl | hq
    · exact e1
    · exact sum_nonneg_eq_zero (fun q hq => h q (List.mem_cons_of_mem _ hq)) e2 q hq

theorem sum_map_nonneg {α : Type _} {f : α → 𝕜} {L : List α} (h : ∀ q ∈ L, 0 ≤ f q) : 0 ≤ (L.map f).sum := by
  apply List.sum_nonneg
  intro x hx
  obtain ⟨q, hq, rfl⟩ := List.mem_map.mp hx
  exact h q hq

theorem declaredEps_pos (h : ∀ d ∈ mats.dielectrics, 0 < d.relativePermittivity) (b : Bool) (a : Int) :
    0 < declaredEps mats b a := by
  unfold declaredEps
  cases b
  · rw [if_neg (by decide)]
    cases hd : mats.dielectrics.find? (fun d => d.tag = a) with
    | none => exact one_pos
    | some d => exact h d (List.mem_of_find?_eq_some hd)
  · rw [if_pos rfl]
    exact one_pos

theorem Spec.Elliptic.weights_nonneg (h : Elliptic A F mats) (b : Bool) (u : Fin F.n → 𝕜) : ∀ q ∈ F.dom,
    0 ≤ q.w * declaredEps mats b q.attr * inner2 (vectorAt q.gradN u) (vectorAt q.gradN u) := fun q hq =>
  mul_nonneg (mul_nonneg (h.weights q hq).le (declaredEps_pos h.permittivities b _).le) (inner2_self_nonneg _)

theorem Spec.Elliptic.opens_nonneg (h : Elliptic A F mats) (u : Fin F.n → 𝕜) :
    ∀ q ∈ F.bdr.filter (fun q => q.attr ∈ mats.openBoundaries.map OpenBoundary.tag),
    0 ≤ q.w * A.abc q.pos * (scalarAt q.N u * scalarAt q.N u) := by
  intro q hq
  obtain ⟨h1, h2⟩ := List.mem_filter.mp hq
  obtain ⟨o, ho, e⟩ := List.mem_map.mp (of_decide_eq_true h2)
  exact mul_nonneg (h.opens q h1 ⟨o, ho, e⟩) (mul_self_nonneg _)

/-- A potential whose weak form tested with itself vanishes has no gradient. -/
theorem Spec.Elliptic.gradient_zero (h : Elliptic A F mats) (b : Bool) {u : Fin F.n → 𝕜}
    (hu : ∑ i, u i * weakForm A F (declaredEps mats b) (mats.openBoundaries.map OpenBoundary.tag) u i = 0) :
    ∀ q ∈ F.dom, vectorAt q.gradN u = (0, 0) := by
  rw [weakForm_test] at hu
  have h1 := (add_eq_zero_iff_of_nonneg (sum_map_nonneg (h.weights_nonneg b u)) (sum_map_nonneg (h.opens_nonneg u))).mp hu
  intro q hq
  have h2 := sum_nonneg_eq_zero (h.weights_nonneg b u) h1.1 q hq
  have h3 : q.w * declaredEps mats b q.attr ≠ 0 := mul_ne_zero (h.weights q hq).ne' (declaredEps_pos h.permittivities b _).ne'
  exact inner2_self_eq_zero ((mul_eq_zero.mp h2).resolve_left h3)

theorem Spec.Elliptic.wellPosed (h : Elliptic A F mats) : WellPosed A F mats where
  unique := by
    intro b u h0 h1
    refine h.potentials u h0 (h.gradient_zero b ?_)
    refine Finset.sum_eq_zero (fun i _ => ?_)
    by_cases hi : ∃ p ∈ mats.pecs, OnBoundary F p.tag i
    · rw [h0 i hi, zero_mul]
    · rw [h1 i hi, mul_zero]
  diagonal := by
    intro b k hk e
    have hs : ∑ i, (if i = k then (1 : 𝕜) else 0) *
        weakForm A F (declaredEps mats b) (mats.openBoundaries.map OpenBoundary.tag) (fun j => if j = k then 1 else 0) i = 0 := by
      rw [Finset.sum_eq_single k]
      · rw [if_pos rfl, e, mul_zero]
      · intro i _ hi
        rw [if_neg hi, zero_mul]
      · intro hk
        exact absurd (Finset.mem_univ _) hk
    obtain ⟨q, hq, hne⟩ := h.nodes k hk
    have := h.gradient_zero b hs q hq
    apply hne
    unfold vectorAt at this
    simp only [ite_mul, one_mul, zero_mul, Finset.sum_ite_eq', Finset.mem_univ, if_true] at this
    exact this
  projection := by
    intro d hd
    apply h.fluxes d
    have hs : ∑ k, d k * (F.dom.map (fun q => q.w * inner2 (q.R k) (vectorAt q.R d))).sum = 0 :=
      Finset.sum_eq_zero (fun k _ => by rw [hd k, mul_zero])
    rw [vector_form F.dom (fun q => q.w) (fun q => q.R) (fun q => vectorAt q.R d) d] at hs
    intro q hq
    have h2 := sum_nonneg_eq_zero (fun q hq => mul_nonneg (h.weights q hq).le (inner2_self_nonneg _)) hs q hq
    exact inner2_self_eq_zero ((mul_eq_zero.mp h2).resolve_left (h.weights q hq).ne')

end

section
variable {𝕜 : Type} [Field 𝕜] {F : FEM 𝕜} {mats : Materials 𝕜} {A : Analytic 𝕜}

/-- Well-posed problems have a field for any potentials. -/
theorem Spec.WellPosed.exists_field (h : WellPosed A F mats) (hs : Separate F mats) (b : Bool) (V : Int → 𝕜) :
    ∃ t, PrescribedField A F mats b V t := by
  classical
  obtain ⟨g, hg⟩ : ∃ g : Fin F.n → 𝕜, ∀ k, ∀ p ∈ mats.pecs, OnBoundary F p.tag k → g k = V p.tag := by
    refine ⟨fun k => if hk : ∃ p ∈ mats.pecs, OnBoundary F p.tag k then V hk.choose.tag else 0, ?_⟩
    intro k p hp hk
    have hex : ∃ p ∈ mats.pecs, OnBoundary F p.tag k := ⟨p, hp, hk⟩
    show (if hk : ∃ p ∈ mats.pecs, OnBoundary F p.tag k then V hk.choose.tag else 0) = _
    rw [dif_pos hex, hs _ hex.choose_spec.1 p hp k hex.choose_spec.2 hk]
  let K : Matrix (Fin F.n) (Fin F.n) 𝕜 := Matrix.of fun i j =>
    if ∃ p ∈ mats.pecs, OnBoundary F p.tag i then (if i = j then 1 else 0) else systemMatrix A F mats b i j
  have hK : ∀ u i, (K *ᵥ u) i = if ∃ p ∈ mats.pecs, OnBoundary F p.tag i then u i else (systemMatrix A F mats b *ᵥ u) i := by
    intro u i
    by_cases hi : ∃ p ∈ mats.pecs, OnBoundary F p.tag i
    · rw [if_pos hi]
      unfold Matrix.mulVec dotProduct
      simp only [K, Matrix.of_apply, if_pos hi, ite_mul, one_mul, zero_mul, Finset.sum_ite_eq, Finset.mem_univ, if_true]
    · rw [if_neg hi]
      unfold Matrix.mulVec dotProduct
      simp only [K, Matrix.of_apply, if_neg hi]
  have hdet : K.det ≠ 0 := by
    intro h0
    obtain ⟨u, hu, e⟩ := Matrix.exists_mulVec_eq_zero_iff.mpr h0
    apply hu
    funext k
    refine h.unique b u ?_ ?_ k
    · intro i hi
      have := congrFun e i
      rwa [hK, if_pos hi] at this
    · intro i hi
      have := congrFun e i
      rwa [hK, if_neg hi, systemMatrix_mulVec] at this
  let phi : Fin F.n → 𝕜 := K⁻¹ *ᵥ fun k => if ∃ p ∈ mats.pecs, OnBoundary F p.tag k then g k else 0
  have hphi : K *ᵥ phi = fun k => if ∃ p ∈ mats.pecs, OnBoundary F p.tag k then g k else 0 := by
    show K *ᵥ (K⁻¹ *ᵥ _) = _
    rw [Matrix.mulVec_mulVec, Matrix.mul_nonsing_inv _ (isUnit_iff_ne_zero.mpr hdet), Matrix.one_mulVec]
  let e : Fin F.ne → 𝕜 := fun k => -∑ i, F.grad k i * phi i
  have hD : F.massD.det ≠ 0 := projectionUnique_iff.mp h.projection
  refine ⟨⟨phi, e, F.massD⁻¹ *ᵥ (F.mixed (declaredEps mats b) *ᵥ e)⟩, ?_, ?_, fun _ => rfl, ?_⟩
  · rintro k c ⟨p, hp, hk⟩ hc
    have := congrFun hphi k
    rw [hK, if_pos ⟨p, hp, hk⟩, if_pos ⟨p, hp, hk⟩, hg k p hp hk, hc p hp hk] at this
    exact this
  · intro k hk
    have hk' : ¬ ∃ p ∈ mats.pecs, OnBoundary F p.tag k := fun ⟨p, hp, ho⟩ => hk p hp ho
    have := congrFun hphi k
    rw [hK, if_neg hk', if_neg hk', systemMatrix_mulVec] at this
    exact this
  · rw [displacement_iff, Matrix.mulVec_mulVec, Matrix.mul_nonsing_inv _ (isUnit_iff_ne_zero.mpr hD), Matrix.one_mulVec]

end
end Tulip
