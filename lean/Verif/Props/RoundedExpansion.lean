import Verif.Props.RoundedAccuracy
import Verif.Proofs.RoundedExpansion

/-!
# C115: the expansion and the moments as computed
-/

noncomputable section

namespace Tulip.Props
open Tulip Tulip.Spec Tulip.Multipolar Tulip.Accuracy Tulip.InCellPotentials Tulip.RoundedGrid

theorem sub2_ne {p c : ℝ × ℝ} (h : p ≠ c) : toC (Multipolar.sub2 p c) ≠ 0 := by
  intro e
  apply h
  have h1 := congrArg Complex.re e
  have h2 := congrArg Complex.im e
  simp only [toC, Multipolar.sub2, Complex.zero_re, Complex.zero_im] at h1 h2
  ext <;> linarith

theorem toC_sub2 (p c : ℝ × ℝ) : toC (Multipolar.sub2 p c) = toC p - toC c := by
  apply Complex.ext <;> simp [toC, Multipolar.sub2]

/-- **C115, the expansion.** In any binary arithmetic with relative error at most `u`, and with mathematical functions of
relative error at most `u`, the computed value of an expansion of order `N` at any point other than its centre exists and
differs from the value of the series by at most `((1 - u)^-(11 N + 9) - 1) · size`, where `size` is the sum of the sizes of the
terms at the distance of the point; and by at most `(22 N + 18) u · size` as long as `(22 N + 18) u ≤ 1`. -/
theorem C115_expansion {rnd : ℝ → ℝ} {u : ℝ} (R : Rounding rnd u) {lib : RoundedExpansion.Library}
    (A : AccurateLibrary lib u) (p c : ℝ × ℝ) (hp : p ≠ c) (ab : List (ℝ × ℝ)) (N : ℕ) (hab : ab.length = N + 1) :
    ∃ y, RoundedExpansion.multipolarExpansion rnd lib p ab c = .ok y ∧
      |y - laurent (fun n => (ab.getD n (0, 0)).1) (fun n => (ab.getD n (0, 0)).2) N (toC p - toC c)| ≤
        (((1 - u)⁻¹) ^ (11 * N + 9) - 1) * expansionSize ab ‖toC p - toC c‖ ∧
      ((22 * N + 18) * u ≤ 1 →
        |y - laurent (fun n => (ab.getD n (0, 0)).1) (fun n => (ab.getD n (0, 0)).2) N (toC p - toC c)| ≤
          (22 * N + 18) * u * expansionSize ab ‖toC p - toC c‖) ∧
      |y| ≤ ((1 - u)⁻¹) ^ (11 * N + 9) * expansionSize ab ‖toC p - toC c‖ := by
  match ab, hab with
  | (a, b) :: ab, hab =>
    have hN : ab.length = N := by simpa using hab
    obtain ⟨x, y, hx, hy, h1, h2⟩ := RoundedExpansion.expansion_near R A (sub2_ne hp) a b ab
    have hx' := (C53_laurent p c ((a, b) :: ab)).1 hp (by simp)
    rw [hx'] at hx
    injection hx with hx
    have hlen : ((a, b) :: ab).length - 1 = N := by simp [hN]
    have hsize : (|a| * (|Real.log (Multipolar.norml2 (Multipolar.sub2 p c))| + 1) +
        RoundedExpansion.tailSize (Multipolar.norml2 (Multipolar.sub2 p c)) 1 ab) / (2 * Real.pi) =
          expansionSize ((a, b) :: ab) ‖toC p - toC c‖ := by
      unfold expansionSize
      rw [RoundedExpansion.tailSize_eq, Multipolar.norml2_eq, toC_sub2, hlen, hN]
      congr 2
      apply Finset.sum_congr rfl
      intro k _
      rw [List.getD_cons_succ, add_comm 1 k]
    rw [hlen] at hx
    rw [← hx, hsize] at h1 h2
    rw [hN] at h2
    unfold growth at h2
    refine ⟨y, hy, h2, ?_, ?_⟩
    · intro hu
      refine le_trans h2 (mul_le_mul_of_nonneg_right ?_ (le_trans (abs_nonneg _) h1))
      have := growth_le R (11 * N + 9) (by push_cast; linarith)
      push_cast at this
      linarith
    · generalize laurent (fun n => (((a, b) :: ab).getD n (0, 0)).1) (fun n => (((a, b) :: ab).getD n (0, 0)).2) N
        (toC p - toC c) = v at *
      have := abs_sub_abs_le_abs_sub y v
      linarith

theorem near_of_growth {rnd : ℝ → ℝ} {u : ℝ} (R : Rounding rnd u) {n : ℕ} {S s : ℝ} (hS : 0 ≤ S)
    (h : S ≤ growth u n * s ∧ s ≤ growth u n * S) : Near u n S S s := by
  have g := growth_ge R n
  have gp : 0 < growth u n := by linarith
  refine ⟨le_of_eq (abs_of_nonneg hS), abs_le.mpr ⟨?_, by linarith [h.2]⟩⟩
  have h1 : growth u n * (S - s) ≤ growth u n * ((growth u n - 1) * S) := by
    have : (growth u n - 1) * S ≤ growth u n * ((growth u n - 1) * S) :=
      le_mul_of_one_le_left (mul_nonneg (by linarith) hS) g
    nlinarith [h.1]
  have := le_of_mul_le_mul_left h1 gp
  linarith

/-- **C115, the moments.** The computed moment components differ from the real and imaginary parts of `zⁿ/n`, with `z` the
position relative to the centre, by at most `((1 - u)^-(11 n + 4) - 1) |z|ⁿ/n`; the moment of order 0 is exactly 1. -/
theorem C115_moment {rnd : ℝ → ℝ} {u : ℝ} (R : Rounding rnd u) {lib : RoundedExpansion.Library}
    (A : AccurateLibrary lib u) (p c : ℝ × ℝ) :
    RoundedExpansion.momentComponent rnd lib p 0 0 c = 1 ∧
    ∀ n : ℕ, 1 ≤ n →
      |RoundedExpansion.momentComponent rnd lib p n 0 c - ((toC p - toC c) ^ n / n).re| ≤
        (((1 - u)⁻¹) ^ (11 * n + 4) - 1) * (‖toC p - toC c‖ ^ n / n) ∧
      |RoundedExpansion.momentComponent rnd lib p n 1 c - ((toC p - toC c) ^ n / n).im| ≤
        (((1 - u)⁻¹) ^ (11 * n + 4) - 1) * (‖toC p - toC c‖ ^ n / n) := by
  refine ⟨rfl, fun n hn => ?_⟩
  have hn0 : (0 : ℝ) < n := by exact_mod_cast hn
  obtain ⟨c1, c2, -⟩ := C52_moments p c n hn
  rw [← c1, ← c2]
  unfold RoundedExpansion.momentComponent momentComponent
  simp only [if_neg (by omega : ¬ n = 0), if_neg (by omega : ¬ (1 : ℕ) = 0), if_true]
  have fin : ∀ {S s : ℝ}, Near u (9 * n + 1) S 1 s →
      Near u (2 * n + 1) (Multipolar.norml2 (Multipolar.sub2 p c) ^ n) (Multipolar.norml2 (Multipolar.sub2 p c) ^ n)
        (lib.pow (lib.norml2 (RoundedExpansion.sub2 rnd p c)) n) →
      |rnd (rnd (lib.pow (lib.norml2 (RoundedExpansion.sub2 rnd p c)) n * s) / n) -
        Multipolar.norml2 (Multipolar.sub2 p c) ^ n * S / n| ≤
        (((1 - u)⁻¹) ^ (11 * n + 4) - 1) * (‖toC p - toC c‖ ^ n / n) := by
    intro S s hs hp
    have h1 := (((hp.mul R hs).round R).mul R (Near.self R 0 ((n : ℝ)⁻¹))).round R
    rw [← div_eq_mul_inv, ← div_eq_mul_inv, mul_one, abs_of_pos (inv_pos.mpr hn0), ← div_eq_mul_inv] at h1
    have h2 := (h1.up R (by omega : 2 * n + 1 + (9 * n + 1) + 1 + 0 + 1 ≤ 11 * n + 4)).2
    rw [Multipolar.norml2_eq, toC_sub2] at h2 ⊢
    exact h2
  by_cases h : toC (Multipolar.sub2 p c) = 0
  · have hz : Multipolar.norml2 (Multipolar.sub2 p c) = 0 := by rw [Multipolar.norml2_eq, h, norm_zero]
    have hs0 : lib.norml2 (RoundedExpansion.sub2 rnd p c) = 0 := by
      have hg := RoundedExpansion.norm_growth R A p c
      rw [h, norm_zero, mul_zero] at hg
      have g := growth_ge R 2
      have h1 : 0 ≤ lib.norml2 (RoundedExpansion.sub2 rnd p c) := nonneg_of_mul_nonneg_right hg.1 (by linarith)
      linarith [hg.2]
    have hp0 : lib.pow 0 n = 0 := by
      have := A.pow 0 n (le_refl _)
      rw [zero_pow (by omega), sub_zero, mul_zero] at this
      exact abs_nonpos_iff.mp this
    have r0 : rnd 0 = 0 := by
      have := R.err 0
      rw [abs_zero, mul_zero, sub_zero] at this
      exact abs_nonpos_iff.mp this
    rw [hz, hs0, hp0, zero_pow (by omega)]
    have nn : 0 ≤ (((1 - u)⁻¹) ^ (11 * n + 4) - 1) * (‖toC p - toC c‖ ^ n / n) := by
      have := growth_ge R (11 * n + 4)
      unfold growth at this
      exact mul_nonneg (by linarith) (by positivity)
    simp only [zero_mul, zero_div, r0, sub_zero, abs_zero]
    exact ⟨nn, nn⟩
  · obtain ⟨hc, hs⟩ := RoundedExpansion.angle_near R A h n
    have hr : 0 < ‖toC (Multipolar.sub2 p c)‖ := norm_pos_iff.mpr h
    have hpw := near_of_growth R (pow_nonneg hr.le n)
      (RoundedExpansion.pow_growth R A hr (RoundedExpansion.norm_positive R A h).1 (RoundedExpansion.norm_growth R A p c) n)
    rw [← Multipolar.norml2_eq] at hpw
    exact ⟨fin hc hpw, fin hs hpw⟩

/-- **C115, the averages.** The averages over a box with every operation rounded, including those of the expansion: under
the hypotheses of C114, with `E` a bound of the size of the expansion outside the inner region, the computed average differs
from the mean of the exact potential of the line charges by at most the sum of the errors of the evaluation of the
expansion, of its truncation, of the midpoints, of the quadrature and of the sums. -/
theorem C115_average {rnd : ℝ → ℝ} {u M : ℝ} (Rd : Rounding rnd u) {lib : RoundedExpansion.Library}
    (A : AccurateLibrary lib u) (charges : List (ℝ × (ℝ × ℝ))) (N : ℕ) (f : FieldReconstruction ℝ)
    (hf : f.ab = lineCoefficients charges f.expansionCenter N) (box inner : Box ℝ)
    (hc : BoxContains box inner) (hv : BoxValid inner) (h1 : box.min.1 < box.max.1) (h2 : box.min.2 < box.max.2)
    (hrb : RepresentableBox rnd box) (hri : RepresentableBox rnd inner) (hM : BoundedBox M box)
    (hd : SidesApart (1000 * (u * M)) box inner) (R ρ : ℝ) (h0 : 0 ≤ R) (hRρ : R < ρ)
    (hR : ∀ q ∈ charges, ‖toC q.2 - toC f.expansionCenter‖ ≤ R)
    (hdist : ∀ p ∈ outsideRegion box inner, ρ ≤ ‖toC p - toC f.expansionCenter‖) (E K : ℝ) (hE0 : 0 ≤ E)
    (hE : ∀ p ∈ outsideRegion box inner, expansionSize f.ab ‖toC p - toC f.expansionCenter‖ ≤ E)
    (hK : |f.innerRegionAveragePotential| ≤ K) (hEK : ((1 - u)⁻¹) ^ (11 * N + 9) * E ≤ K) :
    ∃ r, RoundedGrid.getAveragePotential rnd (RoundedExpansion.multipolarExpansion rnd lib) f inner box = .ok r ∧
      |r - exactMean f.innerRegionAveragePotential inner box (linePotential charges)| ≤
        (((1 - u)⁻¹) ^ (11 * N + 9) - 1) * E + (charges.map (fun q => |q.1|)).sum / (2 * Real.pi) *
          ((R / ρ) ^ (N + 1) / ((N + 1) * (1 - R / ρ)) + 2 * (u * M) / (ρ - R) +
            ((box.max.1 - box.min.1 + 1600 * (u * M)) ^ 2 + (box.max.2 - box.min.2 + 1600 * (u * M)) ^ 2) /
              (240000 * (ρ - R) ^ 2)) +
          (((1 - u)⁻¹) ^ 100000 - 1) * K := by
  have hlen : f.ab.length = N + 1 := by rw [hf]; simp [lineCoefficients]
  have g := growth_ge Rd (11 * N + 9)
  unfold growth at g
  refine C114_charges Rd charges N (RoundedExpansion.multipolarExpansion rnd lib) f hf box inner hc hv h1 h2 hrb hri hM hd R ρ
    h0 hRρ hR hdist ((((1 - u)⁻¹) ^ (11 * N + 9) - 1) * E) K (mul_nonneg (by linarith) hE0) ?_ hK
  intro p hp
  have hne : p ≠ f.expansionCenter := by
    rintro rfl
    have := hdist _ hp
    rw [sub_self, norm_zero] at this
    linarith
  obtain ⟨y, hy, e1, -, e2⟩ := C115_expansion Rd A p f.expansionCenter hne f.ab N hlen
  have hx := (C53_laurent p f.expansionCenter f.ab).1 hne (by intro h; simp [h] at hlen)
  rw [hlen, Nat.add_sub_cancel] at hx
  refine ⟨_, y, hx, hy, le_trans e1 (mul_le_mul_of_nonneg_left (hE p hp) (by linarith)), ?_⟩
  exact le_trans e2 (le_trans (mul_le_mul_of_nonneg_left (hE p hp) (by linarith)) hEK)

/-- **C115, without rounding.** With exact arithmetic and exact functions these are the functions of the other properties. -/
theorem C115_exact (p c : ℝ × ℝ) :
    (∀ ab, RoundedExpansion.multipolarExpansion (fun x => x) RoundedExpansion.exactLibrary p ab c =
      Multipolar.multipolarExpansion p ab c) ∧
    ∀ n k, RoundedExpansion.momentComponent (fun x => x) RoundedExpansion.exactLibrary p n k c =
      Multipolar.momentComponent p n k c := by
  have loop : ∀ (r phi : ℝ) (ab : List (ℝ × ℝ)) (n : ℕ) (res : ℝ),
      RoundedExpansion.expansionLoop (fun x => x) RoundedExpansion.exactLibrary r phi n ab res =
        Multipolar.expansionLoop r phi n ab res := by
    intro r phi ab
    induction ab with
    | nil => intro n res; rfl
    | cons x ab ih =>
      intro n res
      rw [RoundedExpansion.expansionLoop, Multipolar.expansionLoop]
      simp only [ih]
      rfl
  refine ⟨fun ab => ?_, fun n k => rfl⟩
  unfold RoundedExpansion.multipolarExpansion Multipolar.multipolarExpansion
  simp only [loop]
  rfl

/-- The functions of the library, correctly rounded. -/
def roundedLibrary (rnd : ℝ → ℝ) : RoundedExpansion.Library where
  norml2 v := rnd (Multipolar.norml2 v)
  atan2 y x := rnd (Multipolar.atan2 y x)
  log x := rnd (Real.log x)
  cos x := rnd (Real.cos x)
  sin x := rnd (Real.sin x)
  pow x n := rnd (x ^ n)
  pi := rnd Real.pi

theorem roundedLibrary_accurate {rnd : ℝ → ℝ} {u : ℝ} (R : Rounding rnd u) : AccurateLibrary (roundedLibrary rnd) u where
  norml2 v := by
    have := R.err (Multipolar.norml2 v)
    have h0 : 0 ≤ Multipolar.norml2 v := Real.sqrt_nonneg _
    rw [abs_of_nonneg h0] at this
    exact this
  atan2 y x := R.err _
  log x _ := R.err _
  cos x := R.err _
  sin x := R.err _
  pow x n hx := by
    have := R.err (x ^ n)
    rwa [abs_of_nonneg (pow_nonneg hx n)] at this
  pi := by
    have := R.err Real.pi
    rwa [abs_of_pos Real.pi_pos] at this

/-- The expansion with coefficients `(1, 0)`, `(2, 3)` about the origin, at the point `(3, 4)`, in `double` with correctly
rounded functions: the computed value is the exact one, `(-log 5 + 18/25)/2π`, up to `10⁻¹⁴`. -/
example : ∃ y, RoundedExpansion.multipolarExpansion (Nearest.nearest 52) (roundedLibrary (Nearest.nearest 52)) (3, 4)
      [(1, 0), (2, 3)] (0, 0) = .ok y ∧
    |y - laurent (fun n => ([((1 : ℝ), (0 : ℝ)), (2, 3)].getD n (0, 0)).1)
      (fun n => ([((1 : ℝ), (0 : ℝ)), (2, 3)].getD n (0, 0)).2) 1 (toC (3, 4) - toC (0, 0))| ≤ 1 / 10 ^ 14 := by
  have Rd := Nearest.rounding (𝕜 := ℝ) (p := 52) (by norm_num)
  have hu : (2 : ℝ) ^ (-((52 : ℕ) + 1 : ℤ)) = 1 / 2 ^ 53 := by norm_num
  rw [hu] at Rd
  obtain ⟨y, hy, -, hb, -⟩ := C115_expansion Rd (roundedLibrary_accurate Rd) (3, 4) (0, 0) (by norm_num) [(1, 0), (2, 3)] 1 rfl
  refine ⟨y, hy, le_trans (hb (by norm_num)) ?_⟩
  have hn : ‖toC (3, 4) - toC (0, 0)‖ = 5 := by
    rw [← toC_sub2, ← Multipolar.norml2_eq]
    unfold Multipolar.norml2 Multipolar.sub2
    rw [show ((3 : ℝ) - 0) * (3 - 0) + (4 - 0) * (4 - 0) = 5 ^ 2 by norm_num]
    exact Real.sqrt_sq (by norm_num)
  rw [hn]
  have hl : |Real.log 5| ≤ 4 := by
    have := Real.log_le_sub_one_of_pos (by norm_num : (0 : ℝ) < 5)
    rw [abs_of_nonneg (Real.log_nonneg (by norm_num))]
    linarith
  have hs : expansionSize [(1, 0), (2, 3)] 5 ≤ 1 := by
    unfold expansionSize
    simp only [List.length_cons, List.length_nil, List.getD_cons_zero, List.getD_cons_succ,
      show 0 + 1 + 1 - 1 = 1 from rfl, Finset.sum_range_one]
    have hpi := Real.pi_gt_three
    rw [div_le_one (by positivity), abs_of_pos (by norm_num : (0 : ℝ) < 1), abs_of_pos (by norm_num : (0 : ℝ) < 2),
      abs_of_pos (by norm_num : (0 : ℝ) < 3)]
    norm_num
    linarith
  refine le_trans (mul_le_mul_of_nonneg_left hs (by norm_num)) ?_
  norm_num

end Tulip.Props
