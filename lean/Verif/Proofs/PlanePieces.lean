import Verif.Proofs.PlaneIntegral
import Mathlib.Analysis.Convex.Measure
import Mathlib.Analysis.Calculus.MeanValue
import Mathlib.Analysis.Calculus.ContDiff.Basic

/-!
# Pieces of the plane and of functions on it
-/

namespace Tulip
open MeasureTheory Set

/-- A function on an interval that does not grow faster than `M` in each of finitely many closed sets that cover it. -/
theorem covered_growth {ι : Type*} [DecidableEq ι] {g : ℝ → ℝ} {M : ℝ} (hM : 0 ≤ M) (J : ι → Set ℝ) (hJ : ∀ i, IsClosed (J i)) (I : Finset ι)
    (hg : ∀ i ∈ I, ∀ s ∈ J i, ∀ u ∈ J i, |g s - g u| ≤ M * |s - u|) {α β : ℝ} (hαβ : α ≤ β)
    (hc : ∀ s ∈ Icc α β, ∃ i ∈ I, s ∈ J i) : |g β - g α| ≤ M * (β - α) := by
  induction I using Finset.strongInduction generalizing α with
  | H I ih =>
    obtain ⟨i, hi, hαi⟩ := hc α ⟨le_rfl, hαβ⟩
    have hcomp : IsCompact (J i ∩ Icc α β) := isCompact_Icc.inter_left (hJ i)
    obtain ⟨γ, hγ, hmax⟩ := hcomp.exists_isGreatest ⟨α, hαi, le_rfl, hαβ⟩
    have h1 : |g γ - g α| ≤ M * (γ - α) := by
      have := hg i hi γ hγ.1 α hαi
      rwa [abs_of_nonneg (sub_nonneg.mpr hγ.2.1)] at this
    rcases eq_or_lt_of_le hγ.2.2 with e | hlt
    · rwa [e] at h1
    · have hrest : ∀ s ∈ Ioc γ β, ∃ j ∈ I.erase i, s ∈ J j := fun s hs => by
        obtain ⟨j, hj, hsj⟩ := hc s ⟨hγ.2.1.trans hs.1.le, hs.2⟩
        refine ⟨j, Finset.mem_erase.mpr ⟨fun e => ?_, hj⟩, hsj⟩
        subst e
        exact absurd (hmax ⟨hsj, hγ.2.1.trans hs.1.le, hs.2⟩) (not_le.mpr hs.1)
      have hcl : IsClosed (⋃ j ∈ I.erase i, J j) := (I.erase i).finite_toSet.isClosed_biUnion fun j _ => hJ j
      have hsub : Icc γ β ⊆ ⋃ j ∈ I.erase i, J j := by
        rw [← closure_Ioc hlt.ne]
        refine closure_minimal (fun s hs => ?_) hcl
        obtain ⟨j, hj, h⟩ := hrest s hs
        exact mem_biUnion hj h
      have h2 := ih (I.erase i) (Finset.erase_ssubset hi) (fun j hj => hg j (Finset.mem_of_mem_erase hj)) hγ.2.2 fun s hs => by
        obtain ⟨j, hj, h⟩ := mem_iUnion₂.mp (hsub hs)
        exact ⟨j, hj, h⟩
      calc |g β - g α| ≤ |g β - g γ| + |g γ - g α| := abs_sub_le _ _ _
        _ ≤ M * (β - γ) + M * (γ - α) := add_le_add h2 h1
        _ = M * (β - α) := by ring

/-- The same along a segment of the plane. -/
theorem covered_lipschitz {ι : Type*} [DecidableEq ι] {v : ℝ × ℝ → ℝ} {L : ℝ} (hL : 0 ≤ L) (K : ι → Set (ℝ × ℝ)) (I : Finset ι)
    (hK : ∀ i, IsClosed (K i)) (hv : ∀ i ∈ I, ∀ x ∈ K i, ∀ y ∈ K i, |v x - v y| ≤ L * ‖x - y‖) {x y : ℝ × ℝ}
    (hc : segment ℝ x y ⊆ ⋃ i ∈ I, K i) : |v y - v x| ≤ L * ‖y - x‖ := by
  have hline : Continuous (fun s : ℝ => x + s • (y - x)) := by fun_prop
  have := covered_growth (g := fun s => v (x + s • (y - x))) (M := L * ‖y - x‖) (by positivity)
    (fun i => (fun s : ℝ => x + s • (y - x)) ⁻¹' K i) (fun i => (hK i).preimage hline) I (fun i hi s hs u hu => ?_) zero_le_one ?_
  · simpa using this
  · refine (hv i hi _ hs _ hu).trans_eq ?_
    have : x + s • (y - x) - (x + u • (y - x)) = (s - u) • (y - x) := by
      rw [sub_smul]
      abel
    rw [this, norm_smul, Real.norm_eq_abs]
    ring
  · intro s hs
    have hm : x + s • (y - x) ∈ segment ℝ x y := by
      rw [segment_eq_image']
      exact ⟨s, hs, rfl⟩
    obtain ⟨i, hi, h⟩ := mem_iUnion₂.mp (hc hm)
    exact ⟨i, hi, h⟩

/-- A convex closed set and its interior. -/
theorem integral_interior {K : Set (ℝ × ℝ)} (hK : Convex ℝ K) (hc : IsClosed K) (F : ℝ × ℝ → ℝ) :
    ∫ x in interior K, F x = ∫ x in K, F x := by
  refine setIntegral_congr_set ?_
  have h0 : volume (frontier K) = 0 := hK.addHaar_frontier volume
  rw [ae_eq_set]
  refine ⟨by rw [diff_eq_empty.mpr interior_subset, measure_empty], ?_⟩
  have : K \ interior K = frontier K := by rw [frontier, hc.closure_eq]
  rw [this, h0]

/-- The gradient of a linear function, from its values at the corners of a triangle, and that of a function that changes by
about as much along two sides. -/
theorem corner_gradient {d κ ω r x1 x2 y1 y2 e f : ℝ} (hd : 0 < d) (hω : 0 ≤ ω) (hr : r ^ 2 ≤ κ * d) (hx1 : |x1| ≤ r) (hx2 : |x2| ≤ r)
    (hy1 : |y1| ≤ r) (hy2 : |y2| ≤ r) (hde : x1 * y2 - y1 * x2 = d) {G1 G2 : ℝ} (he : |e - (G1 * x1 + G2 * x2)| ≤ ω * r)
    (hf : |f - (G1 * y1 + G2 * y2)| ≤ ω * r) :
    |(e * y2 - f * x2) / d - G1| ≤ 2 * κ * ω ∧ |(f * x1 - e * y1) / d - G2| ≤ 2 * κ * ω := by
  have hr0 : 0 ≤ r := (abs_nonneg _).trans hx1
  have bound : ∀ {s t u w : ℝ}, |s| ≤ ω * r → |t| ≤ ω * r → |u| ≤ r → |w| ≤ r → |s * u - t * w| ≤ 2 * κ * ω * d := by
    intro s t u w hs ht hu hw
    calc |s * u - t * w| ≤ |s * u| + |t * w| := abs_sub _ _
      _ = |s| * |u| + |t| * |w| := by rw [abs_mul, abs_mul]
      _ ≤ ω * r * r + ω * r * r := add_le_add (mul_le_mul hs hu (abs_nonneg _) (by positivity)) (mul_le_mul ht hw (abs_nonneg _) (by positivity))
      _ = 2 * ω * r ^ 2 := by ring
      _ ≤ 2 * ω * (κ * d) := mul_le_mul_of_nonneg_left hr (by positivity)
      _ = 2 * κ * ω * d := by ring
  constructor
  · have := bound he hf hy2 hx2
    have e1 : (e * y2 - f * x2) / d - G1 = ((e - (G1 * x1 + G2 * x2)) * y2 - (f - (G1 * y1 + G2 * y2)) * x2) / d := by
      rw [div_sub' hd.ne']
      congr 1
      rw [← hde]
      ring
    rw [e1, abs_div, abs_of_pos hd, div_le_iff₀ hd]
    exact this
  · have := bound hf he hx1 hy1
    have e1 : (f * x1 - e * y1) / d - G2 = ((f - (G1 * y1 + G2 * y2)) * x1 - (e - (G1 * x1 + G2 * x2)) * y1) / d := by
      rw [div_sub' hd.ne']
      congr 1
      rw [← hde]
      ring
    rw [e1, abs_div, abs_of_pos hd, div_le_iff₀ hd]
    exact this

end Tulip
