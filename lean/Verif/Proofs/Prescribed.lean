import Verif.Proofs.DriverField
import Verif.Proofs.DriverSpec
import Verif.Proofs.DriverMatrix
import Verif.Proofs.Flux

/-!
# Fields with prescribed conductor potentials: uniqueness and superposition
-/

set_option linter.unusedSectionVars false

namespace Tulip
open Matrix Spec

variable {𝕜 : Type} [Field 𝕜] {F : FEM 𝕜} {mats : Materials 𝕜} {A : Analytic 𝕜} {b : Bool}

theorem Spec.PrescribedField.unique (hw : WellPosed A F mats) (hs : Separate F mats) {V : Int → 𝕜}
    {t u : SolverSolution F} (ht : PrescribedField A F mats b V t) (hu : PrescribedField A F mats b V u) : t = u := by
  have hphi : t.phi = u.phi := by
    have : ∀ k, t.phi k - u.phi k = 0 := by
      refine hw.unique b (fun k => t.phi k - u.phi k) ?_ ?_
      · rintro k ⟨p, hp, hk⟩
        have h : ∀ q ∈ mats.pecs, OnBoundary F q.tag k → V q.tag = V p.tag := fun q hq hqk => by
          rw [hs q hq p hp k hqk hk]
        show t.phi k - u.phi k = 0
        rw [ht.values k _ ⟨p, hp, hk⟩ h, hu.values k _ ⟨p, hp, hk⟩ h, sub_self]
      · intro k hk
        have hk' : ∀ p ∈ mats.pecs, ¬ OnBoundary F p.tag k := fun p hp h => hk ⟨p, hp, h⟩
        have h1 := ht.equations k hk'
        have h2 := hu.equations k hk'
        rw [← systemMatrix_mulVec] at h1 h2 ⊢
        have : (fun k => t.phi k - u.phi k) = t.phi - u.phi := rfl
        rw [this, mulVec_sub, Pi.sub_apply, h1, h2, sub_self]
    funext k
    exact sub_eq_zero.mp (this k)
  have he : t.e = u.e := by
    funext k
    rw [ht.e, hu.e, hphi]
  have hd : t.d = u.d := by
    apply mulVec_injective_of_det (projectionUnique_iff.mp hw.projection)
    rw [(displacement_iff _ _ _).mp ht.d, (displacement_iff _ _ _).mp hu.d, he]
  cases t
  cases u
  simp only at hphi he hd
  subst hphi he hd
  rfl

theorem Spec.PrescribedField.superposed (hs : Separate F mats) {n : Nat} (c : Fin n → 𝕜) {V : Fin n → Int → 𝕜}
    {t : Fin n → SolverSolution F} (h : ∀ j, PrescribedField A F mats b (V j) (t j)) :
    PrescribedField A F mats b (fun a => ∑ j, c j * V j a) (Tulip.superposed c t) where
  values := by
    rintro k x ⟨p, hp, hk⟩ hx
    rw [← hx p hp hk]
    show ∑ j, c j * (t j).phi k = ∑ j, c j * V j p.tag
    refine Finset.sum_congr rfl (fun j _ => ?_)
    rw [(h j).values k (V j p.tag) ⟨p, hp, hk⟩ (fun q hq hqk => by rw [hs q hq p hp k hqk hk])]
  equations := by
    intro k hk
    rw [← systemMatrix_mulVec]
    have : (Tulip.superposed c t).phi = ∑ j, c j • (t j).phi := by
      funext k
      simp [Tulip.superposed]
    rw [this, mulVec_sum, Finset.sum_apply]
    refine Finset.sum_eq_zero (fun j _ => ?_)
    rw [mulVec_smul, Pi.smul_apply, systemMatrix_mulVec, (h j).equations k hk, smul_zero]
  e := by
    intro k
    show ∑ j, c j * (t j).e k = -∑ i, F.grad k i * ∑ j, c j * (t j).phi i
    simp only [(h _).e, Finset.mul_sum, mul_neg]
    rw [Finset.sum_neg_distrib, Finset.sum_comm]
    congr 1
    refine Finset.sum_congr rfl (fun j _ => Finset.sum_congr rfl (fun k _ => ?_))
    ring
  d := by
    have hd : (Tulip.superposed c t).d = ∑ j, c j • (t j).d := by
      funext k
      simp [Tulip.superposed]
    have he : (Tulip.superposed c t).e = ∑ j, c j • (t j).e := by
      funext k
      simp [Tulip.superposed]
    rw [displacement_iff, hd, he, mulVec_sum, mulVec_sum]
    refine Finset.sum_congr rfl (fun j _ => ?_)
    rw [mulVec_smul, mulVec_smul, (displacement_iff _ _ _).mp (h j).d]

theorem Spec.PrescribedField.congr {V W : Int → 𝕜} {t : SolverSolution F} (h : PrescribedField A F mats b V t)
    (hVW : ∀ p ∈ mats.pecs, V p.tag = W p.tag) : PrescribedField A F mats b W t :=
  ⟨fun k c hk hc => h.values k c hk (fun p hp ho => by rw [hVW p hp, hc p hp ho]), h.equations, h.e, h.d⟩

/-- The field with the potentials `V` is the one superposed from the one-volt fields. -/
theorem Spec.PrescribedField.eq_superposed (hw : WellPosed A F mats) (hs : Separate F mats) {ps : List (PEC 𝕜)}
    (hN : Numbering mats ps) (ht : (ps.map PEC.tag).Nodup) {u : Fin ps.length → SolverSolution F}
    (hu : ∀ j : Fin ps.length, PrescribedField A F mats b (oneVolt ps[j].tag) (u j)) {V : Int → 𝕜}
    {t : SolverSolution F} (h : PrescribedField A F mats b V t) :
    t = Tulip.superposed (fun j : Fin ps.length => V ps[j].tag) u := by
  refine h.unique hw hs ((Spec.PrescribedField.superposed hs _ hu).congr ?_)
  intro p hp
  obtain ⟨i, hi, rfl⟩ := List.mem_iff_getElem.mp (hN.all.mem_iff.mpr hp)
  rw [Finset.sum_eq_single (⟨i, hi⟩ : Fin ps.length)]
  · simp [oneVolt]
  · intro j _ hj
    have : ps[i].tag ≠ ps[j].tag := by
      intro e
      apply hj
      have := (List.Nodup.getElem_inj_iff ht (i := i) (j := j.1) (hi := by simpa using hi) (hj := by simp)).mp
        (by simpa using e)
      exact Fin.ext this.symm
    simp only [oneVolt]
    rw [if_neg this, mul_zero]
  · intro h
    exact absurd (Finset.mem_univ _) h

end Tulip
