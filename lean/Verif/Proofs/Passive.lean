import Verif.Spec.Passive
import Verif.Spec.Capacitance
import Verif.Proofs.Elliptic
import Verif.Proofs.DMat

/-!
# Energy of discrete fields
-/

set_option linter.unusedSectionVars false

namespace Tulip
open Matrix Spec

section
variable {𝕜 : Type} [Field 𝕜] {F : FEM 𝕜} {mats : Materials 𝕜} {A : Analytic 𝕜} {b : Bool}

/-- The potential at a degree of freedom on a conductor. -/
theorem Spec.PrescribedField.at_conductor (hs : Separate F mats) {V : Int → 𝕜} {t : SolverSolution F}
    (h : PrescribedField A F mats b V t) {p : PEC 𝕜} (hp : p ∈ mats.pecs) {k : Fin F.n} (hk : OnBoundary F p.tag k) :
    t.phi k = V p.tag :=
  h.values k _ ⟨p, hp, hk⟩ (fun q hq ho => by rw [hs q hq p hp k ho hk])

/-- Potentials times reactions add up to the weak form. -/
theorem sum_reaction (hs : Separate F mats) {ps : List (PEC 𝕜)} (hp : ps.Perm mats.pecs) (hn : (ps.map PEC.tag).Nodup)
    {V W : Int → 𝕜} {t u : SolverSolution F} (ht : PrescribedField A F mats b V t) (hu : PrescribedField A F mats b W u) :
    (ps.map (fun p => W p.tag * reaction A F mats b t p.tag)).sum =
      ∑ k, u.phi k * weakForm A F (declaredEps mats b) (mats.openBoundaries.map OpenBoundary.tag) t.phi k := by
  classical
  have hsum : ∀ (l : List (PEC 𝕜)) (f : PEC 𝕜 → Fin F.n → 𝕜),
      (l.map (fun p => ∑ k, f p k)).sum = ∑ k, (l.map (fun p => f p k)).sum := by
    intro l f
    induction l with
    | nil => simp
    | cons a l ih => simp only [List.map_cons, List.sum_cons, ih, Finset.sum_add_distrib]
  unfold reaction
  simp only [Finset.mul_sum]
  rw [hsum]
  refine Finset.sum_congr rfl fun k _ => ?_
  generalize hw : weakForm A F (declaredEps mats b) (mats.openBoundaries.map OpenBoundary.tag) t.phi k = w
  by_cases hk : ∃ p ∈ mats.pecs, OnBoundary F p.tag k
  · obtain ⟨p, hpm, ho⟩ := hk
    rw [hu.at_conductor hs hpm ho]
    have key : ∀ l : List (PEC 𝕜), (∀ q ∈ l, q ∈ mats.pecs) → (l.map PEC.tag).Nodup →
        (l.map (fun q => W q.tag * if OnBoundary F q.tag k then w else 0)).sum =
          if p.tag ∈ l.map PEC.tag then W p.tag * w else 0 := by
      intro l
      induction l with
      | nil => intro _ _; simp
      | cons a l ih =>
        intro hl hnd
        rw [List.map_cons, List.nodup_cons] at hnd
        rw [List.map_cons, List.sum_cons, ih (fun q hq => hl q (List.mem_cons_of_mem _ hq)) hnd.2]
        by_cases ha : OnBoundary F a.tag k
        · have e : a.tag = p.tag := hs a (hl a List.mem_cons_self) p hpm k ha ho
          have hnp : p.tag ∉ l.map PEC.tag := by rw [← e]; exact hnd.1
          rw [if_pos ha, if_neg hnp, List.map_cons, if_pos (by rw [e]; exact List.mem_cons_self), e, add_zero]
        · have e : a.tag ≠ p.tag := fun e => ha (by rw [e]; exact ho)
          rw [if_neg ha, mul_zero, zero_add, List.map_cons]
          by_cases hm : p.tag ∈ l.map PEC.tag
          · rw [if_pos hm, if_pos (List.mem_cons_of_mem _ hm)]
          · rw [if_neg hm, if_neg (by rw [List.mem_cons]; rintro (h | h); exacts [e h.symm, hm h])]
    rw [key ps (fun q hq => hp.mem_iff.mp hq) hn, if_pos (List.mem_map_of_mem (hp.mem_iff.mpr hpm))]
  · have hz : w = 0 := hw.symm.trans (ht.equations k (fun p hp ho => hk ⟨p, hp, ho⟩))
    rw [hz, mul_zero]
    refine List.sum_eq_zero ?_
    intro x hx
    obtain ⟨q, _, rfl⟩ := List.mem_map.mp hx
    rw [ite_self, mul_zero]

/-- The weak form is symmetric. -/
theorem weakForm_symm (eps : Int → 𝕜) (opens : List Int) (u v : Fin F.n → 𝕜) :
    ∑ k, u k * weakForm A F eps opens v k = ∑ k, v k * weakForm A F eps opens u k := by
  rw [weakForm_test, weakForm_test]
  congr 1
  · congr 1
    refine List.map_congr_left fun q _ => ?_
    unfold inner2
    ring
  · congr 1
    refine List.map_congr_left fun q _ => ?_
    ring

theorem doubleEnergy_eq (t : SolverSolution F) : doubleEnergy A F mats b t =
    ∑ k, t.phi k * weakForm A F (declaredEps mats b) (mats.openBoundaries.map OpenBoundary.tag) t.phi k :=
  (weakForm_test A _ _ _ _).symm

end

section
variable {𝕜 : Type} [Field 𝕜] [LinearOrder 𝕜] [IsStrictOrderedRing 𝕜] {F : FEM 𝕜} {mats : Materials 𝕜} {A : Analytic 𝕜} {b : Bool}

theorem Spec.Elliptic.energy_nonneg (h : Elliptic A F mats) (b : Bool) (t : SolverSolution F) :
    0 ≤ doubleEnergy A F mats b t :=
  add_nonneg (sum_map_nonneg (h.weights_nonneg b _)) (sum_map_nonneg (h.opens_nonneg _))

/-- A field without energy is constant, and zero if some open boundary absorbs. -/
theorem Spec.Elliptic.energy_zero (h : Elliptic A F mats) (h1 : OnePiece F mats) {t : SolverSolution F}
    (he : doubleEnergy A F mats b t = 0) : (∀ k l, t.phi k = t.phi l) ∧ (Absorbing A F mats → ∀ k, t.phi k = 0) := by
  have hc : ∀ k l, t.phi k = t.phi l := h1.constant _ (h.gradient_zero b ((doubleEnergy_eq t).symm.trans he))
  refine ⟨hc, ?_⟩
  rintro ⟨q, hq, ⟨o, ho, e⟩, hpos, hne⟩ k
  have hz := (add_eq_zero_iff_of_nonneg (sum_map_nonneg (h.weights_nonneg b t.phi)) (sum_map_nonneg (h.opens_nonneg t.phi))).mp he
  have hq' : q ∈ F.bdr.filter (fun q => q.attr ∈ mats.openBoundaries.map OpenBoundary.tag) :=
    List.mem_filter.mpr ⟨hq, decide_eq_true (by rw [← e]; exact List.mem_map_of_mem ho)⟩
  have hz' := sum_nonneg_eq_zero (h.opens_nonneg t.phi) hz.2 q hq'
  have hz'' : scalarAt q.N t.phi = 0 := mul_self_eq_zero.mp ((mul_eq_zero.mp hz').resolve_left hpos.ne')
  have : scalarAt q.N t.phi = t.phi k * scalarAt q.N (fun _ => 1) := by
    unfold scalarAt
    rw [Finset.mul_sum]
    refine Finset.sum_congr rfl fun l _ => ?_
    rw [hc l k]
    ring
  rw [this] at hz''
  exact (mul_eq_zero.mp hz'').resolve_right hne

/-- The inverse of a positive definite matrix, scaled, is one. -/
theorem PD_inv {n : Nat} {C : Matrix (Fin n) (Fin n) 𝕜} (h : PD C) (hdet : C.det ≠ 0) : PD C⁻¹ := by
  refine ⟨by rw [Matrix.IsSymm, Matrix.transpose_nonsing_inv, h.1.eq], ?_⟩
  intro x hx
  have e : C.mulVec (C⁻¹.mulVec x) = x := by
    rw [mulVec_mulVec, Matrix.mul_nonsing_inv _ (isUnit_iff_ne_zero.mpr hdet), one_mulVec]
  have hy : C⁻¹.mulVec x ≠ 0 := by
    intro h0
    rw [h0, mulVec_zero] at e
    exact hx e.symm
  have := h.2 _ hy
  rw [e, dotProduct_comm] at this
  exact this

theorem PD_smul {n : Nat} {C : Matrix (Fin n) (Fin n) 𝕜} (h : PD C) {c : 𝕜} (hc : 0 < c) : PD (c • C) := by
  refine ⟨by rw [Matrix.IsSymm, Matrix.transpose_smul, h.1.eq], ?_⟩
  intro x hx
  rw [smul_mulVec, dotProduct_smul, smul_eq_mul]
  exact mul_pos hc (h.2 x hx)

end
end Tulip
