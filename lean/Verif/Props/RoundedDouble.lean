import Verif.Props.RoundedGrid
import Verif.Proofs.Nearest
import Mathlib.Data.Rat.Floor
import Mathlib.Algebra.Order.Ring.Pow

/-!
# C111 for the numbers of the computer
-/

set_option linter.unusedSectionVars false

namespace Tulip.Props
open Tulip Tulip.Spec InCellPotentials RoundedGrid

section
variable {𝕜 : Type _} [Field 𝕜] [DecidableEq 𝕜] [LinearOrder 𝕜] [IsStrictOrderedRing 𝕜]

/-- The accumulated factor of `n` roundings is at most `1 + 2 n u`. -/
theorem growth_le {rnd : 𝕜 → 𝕜} {u : 𝕜} (R : Rounding rnd u) (n : Nat) (h : 2 * (n * u) ≤ 1) :
    ((1 - u)⁻¹) ^ n - 1 ≤ 2 * (n * u) := by
  have h0 := R.pos
  have h1 : u ≤ 1 / 1000 := by have := R.small; linarith
  have hb : 1 + (n : 𝕜) * (-u) ≤ (1 + -u) ^ n := one_add_mul_le_pow (by linarith) n
  have hn : 0 ≤ (n : 𝕜) * u := mul_nonneg (by positivity) h0
  have hpos : 0 < 1 - (n : 𝕜) * u := by linarith
  have hle : ((1 - u)⁻¹) ^ n ≤ (1 - (n : 𝕜) * u)⁻¹ := by
    rw [inv_pow]
    apply inv_anti₀ hpos
    calc 1 - (n : 𝕜) * u = 1 + n * (-u) := by ring
      _ ≤ (1 + -u) ^ n := hb
      _ = (1 - u) ^ n := by ring
  have : (1 - (n : 𝕜) * u)⁻¹ ≤ 1 + 2 * (n * u) := by
    rw [inv_eq_one_div, div_le_iff₀ hpos]
    nlinarith
  linarith

end

/-- **C111 for `double`.** With 53 binary digits, rounded to nearest, sides of size at most `M` and distinct sides at
least `10⁻¹² M` apart: the computed average of a potential `a + b x + c y` (up to `δ`) of size at most `K` is the exact
one up to `δ + 10⁻¹⁵ (|b| + |c|) M + 3·10⁻¹¹ K`. -/
theorem C111_double {M : ℚ} (e : Expansion ℚ) (f : FieldReconstruction ℚ)
    (box inner : Box ℚ) (hc : BoxContains box inner) (hv : BoxValid inner) (h1 : box.min.1 < box.max.1)
    (h2 : box.min.2 < box.max.2) (hrb : RepresentableBox (Nearest.nearest 52) box)
    (hri : RepresentableBox (Nearest.nearest 52) inner)
    (hM : BoundedBox M box) (hd : SidesApart (M / 10 ^ 12) box inner) (v : ℚ × ℚ → ℚ) (a b c δ K : ℚ)
    (hev : ∀ p, InBox box p → ¬ InBox inner p → e p f.ab f.expansionCenter = .ok (v p) ∧
      |v p - (a + b * p.1 + c * p.2)| ≤ δ ∧ |v p| ≤ K)
    (hK : |f.innerRegionAveragePotential| ≤ K) (hδ0 : 0 ≤ δ) :
    let integral := fun B : Box ℚ => (B.max.1 - B.min.1) * (B.max.2 - B.min.2) *
      (a + b * ((B.min.1 + B.max.1) / 2) + c * ((B.min.2 + B.max.2) / 2))
    ∃ r, RoundedGrid.getAveragePotential (Nearest.nearest 52) e f inner box = .ok r ∧
      |r - (f.innerRegionAveragePotential * ((inner.max.1 - inner.min.1) * (inner.max.2 - inner.min.2)) +
        (integral box - integral inner)) / ((box.max.1 - box.min.1) * (box.max.2 - box.min.2))| ≤
      δ + (|b| + |c|) * (M / 10 ^ 15) + 3 / 10 ^ 11 * K := by
  intro integral
  have R := Nearest.rounding (𝕜 := ℚ) (p := 52) (by norm_num)
  have hu : (2 : ℚ) ^ (-((52 : ℕ) + 1 : ℤ)) = 1 / 2 ^ 53 := by norm_num
  rw [hu] at R
  have hM0 : 0 ≤ M := le_trans (abs_nonneg _) hM.1
  have hK0 : 0 ≤ K := le_trans (abs_nonneg _) hK
  have hd' : SidesApart (1000 * (1 / 2 ^ 53 * M)) box inner := by
    have hle : 1000 * (1 / 2 ^ 53 * M) ≤ M / 10 ^ 12 := by
      rw [show (1000 : ℚ) * (1 / 2 ^ 53 * M) = (1000 / 2 ^ 53) * M by ring, show M / 10 ^ 12 = (1 / 10 ^ 12) * M by ring]
      exact mul_le_mul_of_nonneg_right (by norm_num) hM0
    exact ⟨fun x hx y hy hxy => le_trans hle (hd.1 x hx y hy hxy),
      fun x hx y hy hxy => le_trans hle (hd.2 x hx y hy hxy)⟩
  obtain ⟨r, er, hr⟩ := C111_average R e f box inner hc hv h1 h2 hrb hri hM hd' v a b c δ K hev hK hδ0
  refine ⟨r, er, le_trans hr ?_⟩
  have g := growth_le R 100000 (by norm_num)
  have g' : (2 : ℚ) * (((100000 : ℕ) : ℚ) * (1 / 2 ^ 53)) ≤ 3 / 10 ^ 11 := by norm_num
  have k1 := mul_le_mul_of_nonneg_right (le_trans g g') hK0
  have k2 : (|b| + |c|) * (1 / 2 ^ 53 * M) ≤ (|b| + |c|) * (M / 10 ^ 15) := by
    apply mul_le_mul_of_nonneg_left _ (by positivity)
    rw [show M / 10 ^ 15 = (1 / 10 ^ 15) * M by ring]
    exact mul_le_mul_of_nonneg_right (by norm_num) hM0
  exact add_le_add (add_le_add (le_refl _) k2) k1

/-- Small integers are representable. -/
theorem nearest_small {𝕜 : Type _} [Field 𝕜] [LinearOrder 𝕜] [IsStrictOrderedRing 𝕜] [FloorRing 𝕜] (n : ℕ) (hn : n ≤ 2 ^ 53) :
    Nearest.nearest 52 (n : 𝕜) = n := by
  have := Nearest.nearest_int (𝕜 := 𝕜) (p := 52) (n := n) (k := 0) hn
  simpa using this

/-- The box `[0, 4] × [0, 3]`, the inner region `[1, 2] × [1, 2]` with average 5, the potential `1 + 2 x` evaluated in
`double`: the hypotheses hold and the average is `61/12` up to `3·10⁻¹⁰`. -/
example : ∃ r, RoundedGrid.getAveragePotential (Nearest.nearest 52)
    (fun p _ _ => .ok (Nearest.nearest 52 (1 + 2 * p.1))) ⟨5, (0, 0), [(1, 0)], []⟩ ⟨(1, 1), (2, 2)⟩
      (⟨(0, 0), (4, 3)⟩ : Box ℚ) = .ok r ∧ |r - 61 / 12| ≤ 4 / 10 ^ 10 := by
  have R := Nearest.rounding (𝕜 := ℚ) (p := 52) (by norm_num)
  have hu : (2 : ℚ) ^ (-((52 : ℕ) + 1 : ℤ)) = 1 / 2 ^ 53 := by norm_num
  rw [hu] at R
  have r0 : Nearest.nearest 52 (0 : ℚ) = 0 := Nearest.nearest_zero 52
  have r1 : Nearest.nearest 52 (1 : ℚ) = 1 := by simpa using nearest_small (𝕜 := ℚ) 1 (by norm_num)
  have r2 : Nearest.nearest 52 (2 : ℚ) = 2 := by simpa using nearest_small (𝕜 := ℚ) 2 (by norm_num)
  have r3 : Nearest.nearest 52 (3 : ℚ) = 3 := by simpa using nearest_small (𝕜 := ℚ) 3 (by norm_num)
  have r4 : Nearest.nearest 52 (4 : ℚ) = 4 := by simpa using nearest_small (𝕜 := ℚ) 4 (by norm_num)
  have r9 : Nearest.nearest 52 (9 : ℚ) = 9 := by simpa using nearest_small (𝕜 := ℚ) 9 (by norm_num)
  obtain ⟨r, er, hr⟩ := C111_double (M := 4) (fun p _ _ => .ok (Nearest.nearest 52 (1 + 2 * p.1)))
    ⟨5, (0, 0), [(1, 0)], []⟩ ⟨(0, 0), (4, 3)⟩ ⟨(1, 1), (2, 2)⟩ (by unfold BoxContains; norm_num)
    (by unfold BoxValid; norm_num) (by norm_num) (by norm_num) ⟨r0, r4, r0, r3⟩ ⟨r1, r2, r1, r2⟩
    (by unfold BoundedBox; norm_num)
    (by
      refine ⟨?_, ?_⟩ <;> intro x hx y hy hxy <;> simp only [List.mem_cons, List.not_mem_nil, or_false] at hx hy <;>
      rcases hx with rfl | rfl | rfl | rfl <;> rcases hy with rfl | rfl | rfl | rfl <;> revert hxy <;> norm_num)
    (fun p => Nearest.nearest 52 (1 + 2 * p.1)) 1 2 0 (9 / 2 ^ 53) 9
    (fun p hp _ => by
      obtain ⟨p1, p2, -, -⟩ := hp
      simp only at p1 p2
      refine ⟨rfl, ?_, ?_⟩
      · have h := R.err (1 + 2 * p.1)
        rw [abs_of_nonneg (by linarith : 0 ≤ 1 + 2 * p.1)] at h
        have e : Nearest.nearest 52 (1 + 2 * p.1) - (1 + 2 * p.1 + 0 * p.2) =
          Nearest.nearest 52 (1 + 2 * p.1) - (1 + 2 * p.1) := by ring
        rw [e]
        refine le_trans h ?_
        linarith
      · have k1 := R.mono 0 (1 + 2 * p.1) (by linarith)
        have k2 := R.mono (1 + 2 * p.1) 9 (by linarith)
        rw [r0] at k1
        rw [r9] at k2
        rw [abs_of_nonneg k1]
        exact k2)
    (by norm_num) (by norm_num)
  refine ⟨r, er, ?_⟩
  have e : ((5 : ℚ) * ((2 - 1) * (2 - 1)) + ((4 - 0) * (3 - 0) * (1 + 2 * ((0 + 4) / 2) + 0 * ((0 + 3) / 2)) -
    (2 - 1) * (2 - 1) * (1 + 2 * ((1 + 2) / 2) + 0 * ((1 + 2) / 2)))) / ((4 - 0) * (3 - 0)) = 61 / 12 := by norm_num
  simp only [e] at hr
  refine le_trans hr ?_
  rw [abs_of_nonneg (by norm_num : (0 : ℚ) ≤ 2), abs_zero]
  norm_num

/-- Why the sides have to be apart: if a side of the box and the nearest side of the inner region are adjacent numbers
(here `1` and `1 + 2⁻ᵖ`, with `p + 1` digits), there is one cell between them, and its computed midpoint is the side of
the inner region. -/
theorem C111_adjacent (p : ℕ) : RoundedGrid.mid (Nearest.nearest p) ((1 : ℚ), 1 + 2 ^ (-(p : ℤ))) = 1 + 2 ^ (-(p : ℤ)) := by
  have hsplit : (2 : ℚ) ^ (-(p : ℤ)) = (2 ^ p)⁻¹ := by rw [zpow_neg, zpow_natCast]
  have hle : (2 : ℚ) ^ (-(p : ℤ)) ≤ 1 := by
    rw [hsplit]; exact inv_le_one_of_one_le₀ (one_le_pow₀ (by norm_num))
  have hpos : (0 : ℚ) < 2 ^ (-(p : ℤ)) := by positivity
  have key : ∀ y : ℚ, y = 2 + 2 ^ (-(p : ℤ)) → Nearest.nearest p y = 2 * (1 + 2 ^ (-(p : ℤ))) := by
    intro y hy
    have hy0 : 0 < y := by rw [hy]; linarith
    have hl : Int.log 2 y = 1 := Nearest.log_unique (by rw [hy]; norm_num) (by rw [hy]; norm_num; linarith)
    have hulp : Nearest.ulp p y = 2 * 2 ^ (-(p : ℤ)) := by
      unfold Nearest.ulp
      rw [hl, sub_eq_add_neg, zpow_add₀ (by norm_num), zpow_one]
    rw [Nearest.nearest_of_pos p hy0]
    unfold Nearest.pos
    rw [hulp]
    have hq : y / (2 * 2 ^ (-(p : ℤ))) = ((2 ^ p : ℤ) : ℚ) + 1 / 2 := by
      rw [hy, hsplit]
      push_cast
      field_simp
    rw [hq]
    have hf : ⌊((2 ^ p : ℤ) : ℚ) + 1 / 2 + 1 / 2⌋ = 2 ^ p + 1 := by
      rw [show ((2 ^ p : ℤ) : ℚ) + 1 / 2 + 1 / 2 = ((2 ^ p + 1 : ℤ) : ℚ) by push_cast; ring]
      exact Int.floor_intCast _
    rw [hf, hsplit]
    push_cast
    field_simp
  unfold RoundedGrid.mid
  simp only
  rw [key (1 + (1 + 2 ^ (-(p : ℤ)))) (by ring)]
  rw [show (1 : ℚ) / 2 * (2 * (1 + 2 ^ (-(p : ℤ)))) = 1 + 2 ^ (-(p : ℤ)) by ring]
  have : (1 : ℚ) + 2 ^ (-(p : ℤ)) = ((2 ^ p + 1 : ℕ) : ℚ) * 2 ^ (-(p : ℤ)) := by
    rw [hsplit]; push_cast; field_simp
  rw [this]
  exact Nearest.nearest_int (by have : 1 ≤ 2 ^ p := Nat.one_le_two_pow
                                rw [pow_succ]; omega)

end Tulip.Props
