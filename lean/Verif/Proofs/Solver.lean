import Verif.Spec.Solver
import Verif.Proofs.DMat
import Mathlib.LinearAlgebra.Matrix.ToLinearEquiv
import Mathlib.Tactic.LinearCombination

/-!
# The linear systems of `Solve`
-/

namespace Tulip
open Matrix Spec
variable {𝕜 : Type _} [Field 𝕜]

theorem eliminated_mulVec {n : Nat} (K : Matrix (Fin n) (Fin n) 𝕜) (ess : List (Fin n)) (u : Fin n → 𝕜)
    (i : Fin n) :
    (eliminated K ess *ᵥ u) i = if i ∈ ess then K i i * u i
      else ∑ j, if j ∈ ess then 0 else K i j * u j := by
  unfold eliminated
  simp only [mulVec, dotProduct, Matrix.of_apply]
  split
  · next h =>
    rw [Finset.sum_eq_single i]
    · simp [h]
    · intro j _ hj
      simp [h, Ne.symm hj]
    · simp
  · next h =>
    apply Finset.sum_congr rfl
    intro j _
    by_cases hj : j ∈ ess
    · have : i ≠ j := by rintro rfl; exact h hj
      simp [hj, this]
    · simp [h, hj]

theorem eliminated_det {n : Nat} {K : Matrix (Fin n) (Fin n) 𝕜} {ess : List (Fin n)}
    (h : Regular K (· ∈ ess)) : (eliminated K ess).det ≠ 0 := by
  intro h0
  obtain ⟨v, hv, hAv⟩ := Matrix.exists_mulVec_eq_zero_iff.mpr h0
  apply hv
  have hz : ∀ i ∈ ess, v i = 0 := by
    intro i hi
    have := congrFun hAv i
    rw [eliminated_mulVec, if_pos hi] at this
    rcases mul_eq_zero.mp this with h1 | h1
    · exact absurd h1 (h.2 i hi)
    · exact h1
  have := h.1 v ⟨hz, by
    intro i hi
    have := congrFun hAv i
    rw [eliminated_mulVec, if_neg hi] at this
    simp only [mulVec, dotProduct]
    refine Eq.trans ?_ this
    apply Finset.sum_congr rfl
    intro j _
    by_cases hj : j ∈ ess
    · simp [hj, hz j hj]
    · simp [hj]⟩
  rw [this]; rfl

/-- A solution of the eliminated system solves the Dirichlet problem. -/
theorem dirichlet_of_system {n : Nat} {K : Matrix (Fin n) (Fin n) 𝕜} {ess : List (Fin n)}
    (h : Regular K (· ∈ ess)) {x b u : Fin n → 𝕜}
    (hu : eliminated K ess *ᵥ u = Solver.formRhs K (eliminated K ess) ess x b) :
    DirichletSolution K (· ∈ ess) x b u := by
  have h1 : ∀ i ∈ ess, u i = x i := by
    intro i hi
    have := congrFun hu i
    unfold Solver.formRhs at this
    rw [if_pos hi, eliminated_mulVec, eliminated_mulVec, if_pos hi, if_pos hi] at this
    exact mul_left_cancel₀ (h.2 i hi) this
  refine ⟨h1, ?_⟩
  intro i hi
  have := congrFun hu i
  unfold Solver.formRhs at this
  rw [if_neg hi, sub_mulVec, Pi.sub_apply, eliminated_mulVec, eliminated_mulVec, if_neg hi, if_neg hi] at this
  simp only [mulVec, dotProduct] at this ⊢
  have e1 : ∀ w : Fin n → 𝕜, ∑ j, K i j * w j =
      (∑ j, if j ∈ ess then 0 else K i j * w j) + ∑ j, if j ∈ ess then K i j * w j else 0 := by
    intro w
    rw [← Finset.sum_add_distrib]
    apply Finset.sum_congr rfl
    intro j _
    by_cases hj : j ∈ ess <;> simp [hj]
  have e2 : (∑ j, if j ∈ ess then K i j * u j else 0) = ∑ j, if j ∈ ess then K i j * x j else 0 := by
    apply Finset.sum_congr rfl
    intro j _
    by_cases hj : j ∈ ess
    · simp [hj, h1 j hj]
    · simp [hj]
  rw [e1 u, e2]
  rw [e1 x] at this
  linear_combination this

theorem dirichlet_unique {n : Nat} {K : Matrix (Fin n) (Fin n) 𝕜} {fixed : Fin n → Prop}
    (h : Regular K fixed) {g b u v : Fin n → 𝕜}
    (hu : DirichletSolution K fixed g b u) (hv : DirichletSolution K fixed g b v) : u = v := by
  have := h.1 (fun i => u i - v i) ⟨by
    intro i hi
    show u i - v i = 0
    rw [hu.1 i hi, hv.1 i hi, sub_self], by
    intro i hi
    have e : (K *ᵥ fun i => u i - v i) = K *ᵥ u - K *ᵥ v := by
      rw [← mulVec_sub]; rfl
    rw [e, Pi.sub_apply, hu.2 i hi, hv.2 i hi, sub_self]⟩
  funext i
  have := congrFun this i
  simpa [sub_eq_zero] using this

/-- Linear combinations of solutions. -/
theorem dirichlet_linear {n : Nat} {K : Matrix (Fin n) (Fin n) 𝕜} {fixed : Fin n → Prop}
    {g1 b1 u1 g2 b2 u2 : Fin n → 𝕜} (h1 : DirichletSolution K fixed g1 b1 u1)
    (h2 : DirichletSolution K fixed g2 b2 u2) (α β : 𝕜) :
    DirichletSolution K fixed (fun i => α * g1 i + β * g2 i) (fun i => α * b1 i + β * b2 i)
      (fun i => α * u1 i + β * u2 i) := by
  refine ⟨fun i hi => by simp only; rw [h1.1 i hi, h2.1 i hi], fun i hi => ?_⟩
  have e : (K *ᵥ fun i => α * u1 i + β * u2 i) = α • (K *ᵥ u1) + β • (K *ᵥ u2) := by
    rw [← mulVec_smul, ← mulVec_smul, ← mulVec_add]; rfl
  rw [e]
  simp [h1.2 i hi, h2.2 i hi]

theorem mulVec_comb {m n : Nat} (M : Matrix (Fin m) (Fin n) 𝕜) (u v : Fin n → 𝕜) (α β : 𝕜) :
    (M *ᵥ fun i => α * u i + β * v i) = fun i => α * (M *ᵥ u) i + β * (M *ᵥ v) i := by
  have : (fun i => α * u i + β * v i) = α • u + β • v := rfl
  rw [this, mulVec_add, mulVec_smul, mulVec_smul]; rfl

theorem mulVec_injective_of_det {n : Nat} {A : Matrix (Fin n) (Fin n) 𝕜} (h : A.det ≠ 0) {u v : Fin n → 𝕜}
    (e : A *ᵥ u = A *ᵥ v) : u = v :=
  Matrix.mulVec_injective_of_isUnit ((Matrix.isUnit_iff_isUnit_det A).mpr (isUnit_iff_ne_zero.mpr h)) e

/-! ## `applyBoundary` -/

theorem mem_bdrDofs {F : FEM 𝕜} {a : Int} {i : Fin F.n} : i ∈ F.bdrDofs a ↔ OnBoundary F a i := by
  unfold FEM.bdrDofs OnBoundary
  simp only [List.mem_flatMap, List.mem_filter, decide_eq_true_eq]
  constructor
  · rintro ⟨b, ⟨h1, h2⟩, h3⟩; exact ⟨b, h1, h2, h3⟩
  · rintro ⟨b, h1, h2, h3⟩; exact ⟨b, ⟨h1, h2⟩, h3⟩

theorem prescribe_keys (ks : List Int) (V : Int → 𝕜) :
    (prescribe ks V).getAttributesAsArray = ks := by
  unfold prescribe AttrToValueMap.getAttributesAsArray SMap.keys
  simp [Function.comp_def]

theorem prescribe_vals (ks : List Int) (V : Int → 𝕜) :
    (prescribe ks V).getValuesAsArray = ks.map V := by
  unfold prescribe AttrToValueMap.getValuesAsArray SMap.vals
  simp [Function.comp_def]

/-- On positive attributes the loop returns. -/
theorem applyLoop_ok {F : FEM 𝕜} (bdrMax : Int) (V : Int → 𝕜) : ∀ (ks : List Int) (gf : Fin F.n → 𝕜),
    (∀ a ∈ ks, 1 ≤ a) → ∃ r, F.applyLoop bdrMax ks (ks.map V) gf = .ok r ∧
      (∀ i, (∀ a ∈ ks, a ≤ bdrMax → ¬ OnBoundary F a i) → r i = gf i) ∧
      (∀ i c, (∀ a ∈ ks, a ≤ bdrMax → OnBoundary F a i → V a = c) →
        (∃ a ∈ ks, a ≤ bdrMax ∧ OnBoundary F a i) → r i = c) := by
  intro ks
  induction ks with
  | nil => intro gf _; exact ⟨gf, rfl, fun _ _ => rfl, by rintro i c _ ⟨a, h, _⟩; cases h⟩
  | cons a as ih =>
    intro gf hpos
    simp only [List.map_cons, FEM.applyLoop]
    have hpos' : ∀ b ∈ as, 1 ≤ b := fun b hb => hpos b (List.mem_cons_of_mem _ hb)
    by_cases ha : a ≤ bdrMax
    · rw [if_pos ha, if_pos (hpos a (by simp))]
      obtain ⟨r, h1, h2, h3⟩ := ih (F.projectBdr (fun _ => V a) a gf) hpos'
      refine ⟨r, h1, ?_, ?_⟩
      · intro i hi
        rw [h2 i (fun b hb => hi b (List.mem_cons_of_mem _ hb))]
        unfold FEM.projectBdr
        rw [if_neg]
        rw [mem_bdrDofs]
        exact hi a (by simp) ha
      · intro i c hc hex
        by_cases hlater : ∃ b ∈ as, b ≤ bdrMax ∧ OnBoundary F b i
        · exact h3 i c (fun b hb => hc b (List.mem_cons_of_mem _ hb)) hlater
        · have hno : ∀ b ∈ as, b ≤ bdrMax → ¬ OnBoundary F b i :=
            fun b hb hb' hon => hlater ⟨b, hb, hb', hon⟩
          rw [h2 i hno]
          obtain ⟨b, hb, hb', hon⟩ := hex
          rcases List.mem_cons.mp hb with rfl | hb
          · unfold FEM.projectBdr
            rw [if_pos (mem_bdrDofs.mpr hon)]
            exact hc b (by simp) hb' hon
          · exact absurd hon (hno b hb hb')
    · rw [if_neg ha]
      obtain ⟨r, h1, h2, h3⟩ := ih gf hpos'
      refine ⟨r, h1, fun i hi => h2 i (fun b hb => hi b (List.mem_cons_of_mem _ hb)), ?_⟩
      intro i c hc ⟨b, hb, hb', hon⟩
      rcases List.mem_cons.mp hb with rfl | hb
      · exact absurd hb' ha
      · exact h3 i c (fun b hb => hc b (List.mem_cons_of_mem _ hb)) ⟨b, hb, hb', hon⟩

theorem applyLoop_comb {F : FEM 𝕜} (bdrMax : Int) (V1 V2 : Int → 𝕜) (α β : 𝕜) :
    ∀ (ks : List Int) (g1 g2 r1 r2 : Fin F.n → 𝕜),
    F.applyLoop bdrMax ks (ks.map V1) g1 = .ok r1 → F.applyLoop bdrMax ks (ks.map V2) g2 = .ok r2 →
    F.applyLoop bdrMax ks (ks.map (fun a => α * V1 a + β * V2 a)) (fun i => α * g1 i + β * g2 i) =
      .ok (fun i => α * r1 i + β * r2 i) := by
  intro ks
  induction ks with
  | nil =>
    intro g1 g2 r1 r2 h1 h2
    simp only [List.map_nil, FEM.applyLoop, Outcome.ok.injEq] at *
    rw [h1, h2]
  | cons a as ih =>
    intro g1 g2 r1 r2 h1 h2
    simp only [List.map_cons, FEM.applyLoop] at *
    by_cases ha : a ≤ bdrMax
    · by_cases ha' : 1 ≤ a
      · simp only [ha, ha', if_true] at *
        rw [← ih _ _ _ _ h1 h2]
        congr 1
        funext i
        unfold FEM.projectBdr
        split <;> rfl
      · simp only [ha, ha', if_true, if_false] at h1
        cases h1
    · simp only [ha, if_false] at *
      exact ih _ _ _ _ h1 h2

theorem applyBoundary_comb {F : FEM 𝕜} (V1 V2 : Int → 𝕜) (α β : 𝕜) (ks : List Int)
    {g1 g2 r1 r2 : Fin F.n → 𝕜} (h1 : F.applyBoundary (prescribe ks V1) g1 = .ok r1)
    (h2 : F.applyBoundary (prescribe ks V2) g2 = .ok r2) :
    F.applyBoundary (prescribe ks (fun a => α * V1 a + β * V2 a)) (fun i => α * g1 i + β * g2 i) =
      .ok (fun i => α * r1 i + β * r2 i) := by
  unfold FEM.applyBoundary at *
  rw [prescribe_keys] at *
  simp only [prescribe_vals] at *
  split
  · next h =>
    rw [if_pos h] at h1 h2
    cases h1; cases h2; rfl
  · next h =>
    rw [if_neg h] at h1 h2
    cases hm : arrayMax F.bdrAttrs with
    | ok m =>
      rw [hm] at h1 h2
      simp only [Outcome.ok_bind] at *
      exact applyLoop_comb m V1 V2 α β ks _ _ _ _ h1 h2
    | _ => rw [hm] at h1; cases h1

/-! ## Markers -/

theorem foldl_max_ge (l : List Int) (a : Int) : a ≤ l.foldl max a ∧ ∀ x ∈ l, x ≤ l.foldl max a := by
  induction l generalizing a with
  | nil => simp
  | cons b bs ih =>
    simp only [List.foldl_cons, List.mem_cons]
    obtain ⟨h1, h2⟩ := ih (max a b)
    refine ⟨le_trans (le_max_left _ _) h1, ?_⟩
    rintro x (rfl | hx)
    · exact le_trans (le_max_right _ _) h1
    · exact h2 x hx

theorem foldl_max_mem (l : List Int) (a : Int) : l.foldl max a = a ∨ l.foldl max a ∈ l := by
  induction l generalizing a with
  | nil => simp
  | cons b bs ih =>
    simp only [List.foldl_cons, List.mem_cons]
    rcases ih (max a b) with h | h
    · rcases le_total a b with hab | hab
      · rw [max_eq_right hab] at h ⊢; exact Or.inr (Or.inl h)
      · rw [max_eq_left hab] at h ⊢; exact Or.inl h
    · exact Or.inr (Or.inr h)

theorem arrayMax_spec {l : List Int} (h : l ≠ []) : ∃ m, arrayMax l = .ok m ∧ m ∈ l ∧ ∀ x ∈ l, x ≤ m := by
  cases l with
  | nil => exact absurd rfl h
  | cons a as =>
    refine ⟨_, rfl, ?_, ?_⟩
    · rcases foldl_max_mem as a with h | h
      · rw [h]; simp
      · exact List.mem_cons_of_mem _ h
    · intro x hx
      rcases List.mem_cons.mp hx with rfl | hx
      · exact (foldl_max_ge as x).1
      · exact (foldl_max_ge as a).2 x hx

theorem arrayMax_ok {l : List Int} {m : Int} (h : arrayMax l = .ok m) : m ∈ l ∧ ∀ x ∈ l, x ≤ m := by
  have hne : l ≠ [] := by rintro rfl; cases h
  obtain ⟨m', h1, h2, h3⟩ := arrayMax_spec hne
  rw [h1] at h; cases h; exact ⟨h2, h3⟩

theorem markLoop_ok : ∀ (as marker : List Int), (∀ a ∈ as, 0 < a ∧ (a - 1).toNat < marker.length) →
    ∃ r, markLoop as marker = .ok r ∧ r.length = marker.length ∧
      ∀ k, r.getD k 0 = if ((k : Int) + 1) ∈ as then 1 else marker.getD k 0 := by
  intro as
  induction as with
  | nil => intro m _; exact ⟨m, rfl, rfl, by simp⟩
  | cons a as ih =>
    intro m h
    obtain ⟨h1, h2⟩ := h a (by simp)
    obtain ⟨r, e1, e2, e3⟩ := ih (m.set (a - 1).toNat 1) (by
      intro b hb
      rw [List.length_set]
      exact h b (List.mem_cons_of_mem _ hb))
    refine ⟨r, by unfold markLoop; rw [if_pos h1, if_pos h2, e1], by rw [e2, List.length_set], ?_⟩
    intro k
    rw [e3 k]
    by_cases hk : ((k : Int) + 1) ∈ as
    · simp [hk]
    · simp only [hk, if_false, List.mem_cons, or_false]
      simp only [List.getD_eq_getElem?_getD, List.getElem?_set]
      by_cases hka : (k : Int) + 1 = a
      · have : (a - 1).toNat = k := by omega
        rw [if_pos hka, if_pos this, if_pos (this ▸ h2)]; rfl
      · have : (a - 1).toNat ≠ k := by omega
        rw [if_neg hka, if_neg this]

theorem markLoop_throw : ∀ (as marker : List Int), (∃ a ∈ as, a ≤ 0) →
    (∀ a ∈ as, 0 < a → (a - 1).toNat < marker.length) → markLoop as marker = .throw .mfemVerify := by
  intro as
  induction as with
  | nil => rintro m ⟨a, h, _⟩; cases h
  | cons a as ih =>
    intro m hex h
    by_cases ha : 0 < a
    · simp only [markLoop, ha, if_true, h a (by simp) ha]
      apply ih
      · obtain ⟨b, hb, hb'⟩ := hex
        rcases List.mem_cons.mp hb with rfl | hb
        · omega
        · exact ⟨b, hb, hb'⟩
      · intro b hb hb'
        rw [List.length_set]
        exact h b (List.mem_cons_of_mem _ hb) hb'
    · simp [markLoop, ha]

/-- Markers of positive attributes. -/
theorem AttrToMarker_ok {bdrAttrs attrs : List Int} (hb : bdrAttrs ≠ []) (ha : attrs ≠ [])
    (hpos : ∀ a ∈ attrs, 0 < a) : ∃ mk, AttrToMarker bdrAttrs attrs = .ok mk ∧
      (∀ a ∈ attrs, a ≤ mk.length) ∧ (∀ a ∈ bdrAttrs, a ≤ mk.length) ∧
      (∀ k, mk.getD k 0 = if ((k : Int) + 1) ∈ attrs then 1 else 0) ∧
      ((mk.length : Int) ∈ attrs ∨ (mk.length : Int) ∈ bdrAttrs) := by
  obtain ⟨m1, e1, hm1, hle1⟩ := arrayMax_spec ha
  obtain ⟨m2, e2, hm2, hle2⟩ := arrayMax_spec hb
  have hpos1 := hpos m1 hm1
  have hne : attrs ≠ [-1] := by
    rintro rfl
    have := hpos (-1) (by simp); omega
  obtain ⟨r, h1, h2, h3⟩ := markLoop_ok attrs (List.replicate (max m1 m2).toNat 0) (by
    intro a ha'
    refine ⟨hpos a ha', ?_⟩
    rw [List.length_replicate]
    have := hle1 a ha'
    have := hpos a ha'
    omega)
  have hl : attrs.length ≠ 0 := by simpa using ha
  refine ⟨r, ?_, ?_, ?_, ?_, ?_⟩
  · unfold AttrToMarker
    rw [if_neg hl, e1, e2]
    simp only [Outcome.ok_bind]
    rw [if_neg hne, h1]
  · intro a ha'
    rw [h2, List.length_replicate]
    have := hle1 a ha'; omega
  · intro a ha'
    rw [h2, List.length_replicate]
    have := hle2 a ha'; omega
  · intro k
    rw [h3 k]
    split
    · rfl
    · simp [List.getD_eq_getElem?_getD, List.getElem?_replicate]
      split <;> rfl
  · rw [h2, List.length_replicate]
    have : ((max m1 m2).toNat : Int) = max m1 m2 := by omega
    rw [this]
    rcases le_total m1 m2 with h | h
    · rw [max_eq_right h]; exact Or.inr hm2
    · rw [max_eq_left h]; exact Or.inl hm1

end Tulip
