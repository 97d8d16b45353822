import Verif.Spec.Couplings
import Verif.Proofs.Passive

/-!
# Discrete maximum principle
-/

set_option linter.unusedSectionVars false

namespace Tulip
open Matrix Spec

section
variable {𝕜 : Type} [Field 𝕜] {F : FEM 𝕜} {mats : Materials 𝕜} {A : Analytic 𝕜}

/-- The weak form by columns. -/
theorem weakForm_columns (eps : Int → 𝕜) (opens : List Int) (u : Fin F.n → 𝕜) (i : Fin F.n) :
    weakForm A F eps opens u i = ∑ j, u j * weakForm A F eps opens (fun k => if k = j then 1 else 0) i := by
  have unit : ∀ (v : Fin F.n → 𝕜) (i : Fin F.n), weakForm A F eps opens v i = ∑ k, (if k = i then 1 else 0) * weakForm A F eps opens v k := by
    intro v i
    simp only [ite_mul, one_mul, zero_mul, Finset.sum_ite_eq', Finset.mem_univ, if_true]
  rw [unit u i, weakForm_symm]
  refine Finset.sum_congr rfl fun j _ => ?_
  rw [unit (fun k => if k = j then 1 else 0) i, weakForm_symm, ← unit]

theorem weakForm_linear (eps : Int → 𝕜) (opens : List Int) (a b : 𝕜) (u v : Fin F.n → 𝕜) (i : Fin F.n) :
    weakForm A F eps opens (fun k => a * u k + b * v k) i = a * weakForm A F eps opens u i + b * weakForm A F eps opens v i := by
  rw [weakForm_columns, weakForm_columns eps opens u, weakForm_columns eps opens v, Finset.mul_sum, Finset.mul_sum,
    ← Finset.sum_add_distrib]
  exact Finset.sum_congr rfl fun j _ => by ring

end

section
variable {𝕜 : Type} [Field 𝕜] [LinearOrder 𝕜] [IsStrictOrderedRing 𝕜] {F : FEM 𝕜} {mats : Materials 𝕜} {A : Analytic 𝕜}
  {b : Bool}

/-- A constant potential draws charge at open boundaries only. -/
theorem weakForm_one (hC : RepresentsConstants F) (he : Elliptic A F mats) (hN : PositiveOnOpen F mats) (b : Bool) (i : Fin F.n) :
    0 ≤ weakForm A F (declaredEps mats b) (mats.openBoundaries.map OpenBoundary.tag) (fun _ => 1) i ∧
    (mats.openBoundaries = [] →
      weakForm A F (declaredEps mats b) (mats.openBoundaries.map OpenBoundary.tag) (fun _ => 1) i = 0) := by
  have hd : (F.dom.map (fun q => q.w * declaredEps mats b q.attr * inner2 (q.gradN i) (vectorAt q.gradN fun _ => 1))).sum = 0 := by
    refine List.sum_eq_zero fun x hx => ?_
    obtain ⟨q, hq, rfl⟩ := List.mem_map.mp hx
    have : vectorAt q.gradN (fun _ => (1 : 𝕜)) = (0, 0) := by
      unfold vectorAt
      simp only [one_mul]
      rw [(hC.gradN q hq).1, (hC.gradN q hq).2]
    rw [this]
    unfold inner2
    ring
  unfold weakForm
  rw [hd, zero_add]
  refine ⟨sum_map_nonneg fun q hq => ?_, fun h => ?_⟩
  · obtain ⟨h1, h2⟩ := List.mem_filter.mp hq
    obtain ⟨o, ho, e⟩ := List.mem_map.mp (of_decide_eq_true h2)
    refine mul_nonneg (he.opens q h1 ⟨o, ho, e⟩) (mul_nonneg (hN q h1 ⟨o, ho, e⟩ i) ?_)
    unfold scalarAt
    exact Finset.sum_nonneg fun k _ => mul_nonneg zero_le_one (hN q h1 ⟨o, ho, e⟩ k)
  · rw [h]
    simp

/-- An upper bound on the conductors is an upper bound everywhere. -/
theorem upper_bound (hC : RepresentsConstants F) (he : Elliptic A F mats) (hN : PositiveOnOpen F mats)
    (hK : NoPositiveCoupling A F mats b) {u : Fin F.n → 𝕜} {hi : 𝕜} (h0 : mats.openBoundaries ≠ [] → 0 ≤ hi)
    (hc : ∀ k, (∃ p ∈ mats.pecs, OnBoundary F p.tag k) → u k ≤ hi)
    (hu : ∀ k, (∀ p ∈ mats.pecs, ¬ OnBoundary F p.tag k) →
      weakForm A F (declaredEps mats b) (mats.openBoundaries.map OpenBoundary.tag) u k ≤ 0) (k : Fin F.n) : u k ≤ hi := by
  generalize hW : weakForm A F (declaredEps mats b) (mats.openBoundaries.map OpenBoundary.tag) = W at hu
  obtain ⟨w, hw⟩ : ∃ w : Fin F.n → 𝕜, w = fun k => max (u k - hi) 0 := ⟨_, rfl⟩
  obtain ⟨z, hz⟩ : ∃ z : Fin F.n → 𝕜, z = fun k => max (hi - u k) 0 := ⟨_, rfl⟩
  have hw0 : ∀ k, 0 ≤ w k := fun k => by rw [hw]; exact le_max_right _ _
  have hz0 : ∀ k, 0 ≤ z k := fun k => by rw [hz]; exact le_max_right _ _
  have hwz : ∀ k, w k * z k = 0 := fun k => by
    rw [hw, hz]
    rcases le_total (u k) hi with h | h
    · exact mul_eq_zero_of_left (max_eq_right (sub_nonpos.mpr h)) _
    · exact mul_eq_zero_of_right _ (max_eq_right (sub_nonpos.mpr h))
  have split : ∀ k, w k = 1 * u k + 1 * ((1 : 𝕜) * z k + (-hi) * 1) := fun k => by
    rw [hw, hz]
    show max (u k - hi) 0 = 1 * u k + 1 * (1 * max (hi - u k) 0 + -hi * 1)
    rcases le_total (u k) hi with h | h
    · rw [max_eq_right (sub_nonpos.mpr h), max_eq_left (sub_nonneg.mpr h)]; ring
    · rw [max_eq_left (sub_nonneg.mpr h), max_eq_right (sub_nonpos.mpr h)]; ring
  have wPec : ∀ k, (∃ p ∈ mats.pecs, OnBoundary F p.tag k) → w k = 0 := fun k hk => by
    rw [hw]
    exact max_eq_right (sub_nonpos.mpr (hc k hk))
  have hWw : ∀ k, W w k = W u k + W z k - hi * W (fun _ => 1) k := fun k => by
    have : w = fun k => 1 * u k + 1 * ((1 : 𝕜) * z k + (-hi) * 1) := funext split
    rw [this, ← hW, weakForm_linear _ _ _ _ u (fun k => (1 : 𝕜) * z k + (-hi) * 1), weakForm_linear _ _ _ _ z (fun _ => 1)]
    ring
  have s1 : ∀ k, w k * W u k ≤ 0 := fun k => by
    by_cases hk : ∃ p ∈ mats.pecs, OnBoundary F p.tag k
    · rw [wPec k hk, zero_mul]
    · exact mul_nonpos_of_nonneg_of_nonpos (hw0 k) (hu k fun p hp ho => hk ⟨p, hp, ho⟩)
  have s2 : ∀ k, w k * W z k ≤ 0 := fun k => by
    rw [← hW, weakForm_columns, Finset.mul_sum]
    refine Finset.sum_nonpos fun j _ => ?_
    by_cases e : k = j
    · subst e
      rw [← mul_assoc, hwz, zero_mul]
    · exact mul_nonpos_of_nonneg_of_nonpos (hw0 k) (mul_nonpos_of_nonneg_of_nonpos (hz0 j) (hK k j e))
  have s3 : ∀ k, 0 ≤ w k * (hi * W (fun _ => 1) k) := fun k => by
    obtain ⟨h1, h2⟩ := weakForm_one hC he hN b k
    rw [hW] at h1 h2
    by_cases ho : mats.openBoundaries = []
    · rw [h2 ho, mul_zero, mul_zero]
    · exact mul_nonneg (hw0 k) (mul_nonneg (h0 ho) h1)
  have en : ∑ k, w k * W w k = 0 := by
    refine le_antisymm (Finset.sum_nonpos fun k _ => ?_) ?_
    · rw [hWw k, mul_sub, mul_add]
      linarith [s1 k, s2 k, s3 k]
    · rw [← hW, weakForm_test]
      exact add_nonneg (sum_map_nonneg (he.weights_nonneg b _)) (sum_map_nonneg (he.opens_nonneg _))
  rw [← hW] at en
  have := he.potentials w wPec (he.gradient_zero b en) k
  rw [hw] at this
  exact sub_nonpos.mp (max_eq_right_iff.mp this)

/-- Bounds of the conductor potentials are bounds of the potential. -/
theorem coupling_bounds (hC : RepresentsConstants F) (he : Elliptic A F mats) (hs : Separate F mats) (hN : PositiveOnOpen F mats)
    (hK : NoPositiveCoupling A F mats b) {V : Int → 𝕜} {t : SolverSolution F}
    (ht : PrescribedField A F mats b V t) {lo hi : 𝕜} (h0 : mats.openBoundaries ≠ [] → lo ≤ 0 ∧ 0 ≤ hi)
    (hV : ∀ p ∈ mats.pecs, lo ≤ V p.tag ∧ V p.tag ≤ hi) (k : Fin F.n) : lo ≤ t.phi k ∧ t.phi k ≤ hi := by
  constructor
  · have neg : ∀ k, weakForm A F (declaredEps mats b) (mats.openBoundaries.map OpenBoundary.tag) (fun k => -t.phi k) k =
        -weakForm A F (declaredEps mats b) (mats.openBoundaries.map OpenBoundary.tag) t.phi k := fun k => by
      have e : (fun k => -t.phi k) = fun k => (-1 : 𝕜) * t.phi k + 0 * t.phi k := by funext k; ring
      rw [e, weakForm_linear]
      ring
    have := upper_bound hC he hN hK (u := fun k => -t.phi k) (hi := -lo) (fun h => neg_nonneg.mpr (h0 h).1)
      (fun k ⟨p, hp, hk⟩ => by
        show -t.phi k ≤ -lo
        rw [ht.at_conductor hs hp hk]
        exact neg_le_neg (hV p hp).1)
      (fun k hk => by rw [neg, ht.equations k hk, neg_zero]) k
    exact neg_le_neg_iff.mp this
  · exact upper_bound hC he hN hK (fun h => (h0 h).2)
      (fun k ⟨p, hp, hk⟩ => by rw [ht.at_conductor hs hp hk]; exact (hV p hp).2)
      (fun k hk => (ht.equations k hk).le) k

/-- One conductor at 1 V and the others grounded: no charge of the same sign on the others. -/
theorem reaction_other (hC : RepresentsConstants F) (he : Elliptic A F mats) (hs : Separate F mats) (hN : PositiveOnOpen F mats)
    (hK : NoPositiveCoupling A F mats b) {V : Int → 𝕜} {t : SolverSolution F}
    (ht : PrescribedField A F mats b V t) (h0 : ∀ p ∈ mats.pecs, 0 ≤ V p.tag) {p : PEC 𝕜} (hp : p ∈ mats.pecs)
    (hz : V p.tag = 0) : reaction A F mats b t p.tag ≤ 0 := by
  classical
  have lower : ∀ k, 0 ≤ t.phi k := by
    intro k
    obtain ⟨hi, hhi⟩ : ∃ hi : 𝕜, 0 ≤ hi ∧ ∀ p ∈ mats.pecs, V p.tag ≤ hi := by
      have : ∀ l : List (PEC 𝕜), ∃ hi : 𝕜, 0 ≤ hi ∧ ∀ p ∈ l, V p.tag ≤ hi := by
        intro l
        induction l with
        | nil => exact ⟨0, le_refl _, fun _ h => by cases h⟩
        | cons a l ih =>
          obtain ⟨x, hx, h⟩ := ih
          refine ⟨max x (V a.tag), hx.trans (le_max_left _ _), fun q hq => ?_⟩
          rcases List.mem_cons.mp hq with rfl | hq
          · exact le_max_right _ _
          · exact (h q hq).trans (le_max_left _ _)
      exact this _
    exact (coupling_bounds hC he hs hN hK ht (fun _ => ⟨le_refl _, hhi.1⟩) (fun p hp => ⟨h0 p hp, hhi.2 p hp⟩) k).1
  unfold reaction
  refine Finset.sum_nonpos fun k _ => ?_
  split
  · next ho =>
    rw [weakForm_columns]
    refine Finset.sum_nonpos fun j _ => ?_
    by_cases e : k = j
    · subst e
      rw [ht.at_conductor hs hp ho, hz, zero_mul]
    · exact mul_nonpos_of_nonneg_of_nonpos (lower j) (hK k j e)
  · exact le_refl _

/-- All conductors at 1 V: no negative charges. -/
theorem reaction_all (hC : RepresentsConstants F) (he : Elliptic A F mats) (hs : Separate F mats) (hN : PositiveOnOpen F mats)
    (hK : NoPositiveCoupling A F mats b) {t : SolverSolution F}
    (ht : PrescribedField A F mats b (fun _ => 1) t) {p : PEC 𝕜} (hp : p ∈ mats.pecs) : 0 ≤ reaction A F mats b t p.tag := by
  classical
  have upper : ∀ k, t.phi k ≤ 1 := fun k =>
    (coupling_bounds hC he hs hN hK ht (lo := 0) (hi := 1) (fun _ => ⟨le_refl _, zero_le_one⟩)
      (fun p hp => ⟨zero_le_one, le_refl _⟩) k).2
  unfold reaction
  refine Finset.sum_nonneg fun k _ => ?_
  split
  · next ho =>
    have h1 := (weakForm_one hC he hN b k).1
    refine h1.trans ?_
    rw [weakForm_columns, weakForm_columns _ _ t.phi]
    refine Finset.sum_le_sum fun j _ => ?_
    by_cases e : k = j
    · subst e
      rw [ht.at_conductor hs hp ho]
    · exact mul_le_mul_of_nonpos_right (upper j) (hK k j e)
  · exact le_refl _

end
end Tulip
