import Mathlib.LinearAlgebra.Lagrange
import Mathlib.Algebra.Order.Ring.Rat
import Mathlib.Algebra.Order.Archimedean.Basic
import Mathlib.Data.Rat.Cast.Order
import Mathlib.Tactic

/-!
# Quadrature rules with positive weights and rational points exist for every degree

Midpoint rule with `K` points, corrected at a few of its points: the error is of order `1 / K^2`, the weights are `1 / K`.
-/

namespace Tulip.Quadrature
open Finset

/-- odd and even parts of a power -/
theorem powers (a h : ℚ) (ha : 0 ≤ a) (ha1 : a ≤ 1) (hh : 0 ≤ h) (hh1 : h ≤ 1) (m : ℕ) :
    ∃ u v : ℚ, (a + h) ^ m - (a - h) ^ m = 2 * h * u ∧ (a + h) ^ m + (a - h) ^ m = 2 * v ∧
      m * a ^ (m - 1) ≤ u ∧ u ≤ m * a ^ (m - 1) + 3 ^ m * h ^ 2 ∧ a ^ m ≤ v ∧ v ≤ a ^ m + 3 ^ m * h ^ 2 ∧ u ≤ 2 * 3 ^ m := by
  induction m with
  | zero => exact ⟨0, 1, by simp, by norm_num, by simp, by simp; positivity, by simp, by simp; positivity, by norm_num⟩
  | succ m ih =>
    obtain ⟨u, v, e1, e2, h1, h2, h3, h4, h5⟩ := ih
    have hp : (0 : ℚ) < 3 ^ m := by positivity
    have hh2 : (0 : ℚ) ≤ h ^ 2 := by positivity
    have hh3 : h ^ 2 ≤ 1 := pow_le_one₀ hh hh1
    have hu : 0 ≤ u := le_trans (by positivity) h1
    have hv : 0 ≤ v := le_trans (by positivity) h3
    have hm : a * (m * a ^ (m - 1)) = m * a ^ m := by
      rcases m with _ | m
      · simp
      · simp; ring
    have ham : a ^ m ≤ 1 := pow_le_one₀ ha ha1
    refine ⟨a * u + v, a * v + h ^ 2 * u, ?_, ?_, ?_, ?_, ?_, ?_, ?_⟩
    · have : (a + h) ^ (m + 1) - (a - h) ^ (m + 1) =
        a * ((a + h) ^ m - (a - h) ^ m) + h * ((a + h) ^ m + (a - h) ^ m) := by ring
      rw [this, e1, e2]; ring
    · have : (a + h) ^ (m + 1) + (a - h) ^ (m + 1) =
        a * ((a + h) ^ m + (a - h) ^ m) + h * ((a + h) ^ m - (a - h) ^ m) := by ring
      rw [this, e1, e2]; ring
    · simp only [Nat.add_sub_cancel]
      have := mul_le_mul_of_nonneg_left h1 ha
      push_cast
      nlinarith
    · simp only [Nat.add_sub_cancel]
      have k1 := mul_le_mul_of_nonneg_left h2 ha
      have k2 : a * (3 ^ m * h ^ 2) ≤ 3 ^ m * h ^ 2 := mul_le_of_le_one_left (by positivity) ha1
      have k3 : (0 : ℚ) ≤ 3 ^ m * h ^ 2 := by positivity
      push_cast
      rw [pow_succ 3 m]
      nlinarith
    · have := mul_le_mul_of_nonneg_left h3 ha
      have k : 0 ≤ h ^ 2 * u := by positivity
      rw [pow_succ']
      linarith
    · have k1 := mul_le_mul_of_nonneg_left h4 ha
      have k2 : a * (3 ^ m * h ^ 2) ≤ 3 ^ m * h ^ 2 := mul_le_of_le_one_left (by positivity) ha1
      have k3 := mul_le_mul_of_nonneg_left h5 hh2
      rw [pow_succ 3 m, pow_succ' a m]
      nlinarith
    · have k1 : a * u ≤ u := mul_le_of_le_one_left hu ha1
      have k2 : 3 ^ m * h ^ 2 ≤ 3 ^ m := mul_le_of_le_one_right hp.le hh3
      have k3 : (1 : ℚ) ≤ 3 ^ m := one_le_pow₀ (by norm_num)
      rw [pow_succ 3 m]
      nlinarith

/-- the `k`-th of `K` midpoints -/
def mid (K k : ℕ) : ℚ := (2 * k + 1) / (2 * K)

/-- error of the midpoint rule for `x ^ n` -/
def err (K n : ℕ) : ℚ := 1 / (n + 1) - ∑ k ∈ range K, 1 / K * mid K k ^ n

theorem err_bound {K : ℕ} (hK : 0 < K) (n : ℕ) : |err K n| ≤ 3 ^ (n + 1) / K ^ 2 := by
  have hK' : (0 : ℚ) < K := by exact_mod_cast hK
  have hK1 : (1 : ℚ) ≤ K := by exact_mod_cast hK
  have hn : (0 : ℚ) < n + 1 := by positivity
  -- one cell
  have cell : ∀ k ∈ range K, ∃ r : ℚ, 0 ≤ r ∧ r ≤ 3 ^ (n + 1) / K ^ 3 ∧
      (((k + 1 : ℕ) : ℚ) / K) ^ (n + 1) / (n + 1) - ((k : ℚ) / K) ^ (n + 1) / (n + 1) = 1 / K * mid K k ^ n + r := by
    intro k hk
    have hk' : (k : ℚ) + 1 ≤ K := by exact_mod_cast mem_range.mp hk
    have hmid0 : 0 ≤ mid K k := by unfold mid; positivity
    have hmid1 : mid K k ≤ 1 := by
      unfold mid
      rw [div_le_one (by positivity)]
      linarith
    have hh0 : (0 : ℚ) ≤ 1 / (2 * K) := by positivity
    have hh1 : (1 : ℚ) / (2 * K) ≤ 1 := by
      rw [div_le_one (by positivity)]
      linarith
    obtain ⟨u, _, e1, _, h1, h2, _⟩ := powers (mid K k) (1 / (2 * K)) hmid0 hmid1 hh0 hh1 (n + 1)
    have p1 : mid K k + 1 / (2 * K) = ((k + 1 : ℕ) : ℚ) / K := by
      unfold mid
      push_cast
      field_simp
      ring
    have p2 : mid K k - 1 / (2 * K) = (k : ℚ) / K := by
      unfold mid
      field_simp
      ring
    rw [p1, p2] at e1
    simp only [Nat.add_sub_cancel] at h1 h2
    push_cast at h1 h2
    refine ⟨1 / K * (u / (n + 1) - mid K k ^ n), ?_, ?_, ?_⟩
    · refine mul_nonneg (by positivity) ?_
      rw [sub_nonneg, le_div_iff₀ hn]
      linarith
    · have : u / (n + 1) - mid K k ^ n ≤ 3 ^ (n + 1) / K ^ 2 := by
        rw [sub_le_iff_le_add, div_le_iff₀ hn]
        have q1 : (3 : ℚ) ^ (n + 1) * (1 / (2 * K)) ^ 2 ≤ 3 ^ (n + 1) / K ^ 2 := by
          have q0 : (1 / (2 * K) : ℚ) ^ 2 ≤ (1 / K) ^ 2 :=
            pow_le_pow_left₀ (by positivity) (one_div_le_one_div_of_le hK' (by linarith)) 2
          calc (3 : ℚ) ^ (n + 1) * (1 / (2 * K)) ^ 2 ≤ 3 ^ (n + 1) * (1 / K) ^ 2 :=
                mul_le_mul_of_nonneg_left q0 (by positivity)
            _ = 3 ^ (n + 1) / K ^ 2 := by rw [one_div_pow]; ring
        have q2 : (0 : ℚ) ≤ 3 ^ (n + 1) / K ^ 2 := by positivity
        have q3 : (0 : ℚ) ≤ n := by positivity
        nlinarith
      calc 1 / (K : ℚ) * (u / (n + 1) - mid K k ^ n) ≤ 1 / K * (3 ^ (n + 1) / K ^ 2) :=
            mul_le_mul_of_nonneg_left this (by positivity)
        _ = 3 ^ (n + 1) / K ^ 3 := by field_simp
    · rw [← sub_div, e1]
      field_simp
      ring
  choose! r r0 r1 hr using cell
  have tel : ∑ k ∈ range K, ((((k + 1 : ℕ) : ℚ) / K) ^ (n + 1) / (n + 1) - ((k : ℚ) / K) ^ (n + 1) / (n + 1)) = 1 / (n + 1) := by
    rw [Finset.sum_range_sub (fun k => ((k : ℚ) / K) ^ (n + 1) / (n + 1))]
    rw [div_self hK'.ne']
    simp
  have he : err K n = ∑ k ∈ range K, r k := by
    unfold err
    rw [← tel, Finset.sum_congr rfl hr, Finset.sum_add_distrib]
    ring
  rw [he, abs_of_nonneg (Finset.sum_nonneg r0)]
  calc ∑ k ∈ range K, r k ≤ ∑ k ∈ range K, (3 : ℚ) ^ (n + 1) / K ^ 3 := Finset.sum_le_sum r1
    _ = 3 ^ (n + 1) / K ^ 2 := by
      rw [Finset.sum_const, card_range, nsmul_eq_mul]
      field_simp

theorem list_range_sum (f : ℕ → ℚ) (K : ℕ) : ((List.range K).map f).sum = ∑ k ∈ range K, f k := by
  induction K with
  | zero => simp
  | succ n ih => simp [List.range_succ, Finset.sum_range_succ, ih]

/-- a rule on the unit interval for polynomials of degree at most `N` -/
theorem segment_rule (N : ℕ) : ∃ l : List (ℚ × ℚ), (∀ r ∈ l, 0 < r.1 ∧ 0 < r.2 ∧ r.2 < 1) ∧ (l.map Prod.snd).Nodup ∧
    N < l.length ∧ ∀ j ≤ N, (l.map (fun r => r.1 * r.2 ^ j)).sum = 1 / (j + 1) := by
  have hinj : Set.InjOn (mid (N + 1)) (range (N + 1) : Set ℕ) := by
    intro i _ j _ h
    unfold mid at h
    rw [div_left_inj' (by positivity)] at h
    have : (i : ℚ) = j := by linarith
    exact_mod_cast this
  -- Lagrange polynomials at the midpoints of N + 1 intervals
  let P : ℕ → Polynomial ℚ := fun j => Lagrange.basis (range (N + 1)) (mid (N + 1)) j
  obtain ⟨A, hA⟩ : ∃ A : ℚ, A = ∑ j ∈ range (N + 1), ∑ i ∈ range (N + 1), |(P j).coeff i| * 3 ^ (i + 1) := ⟨_, rfl⟩
  have hA0 : 0 ≤ A := by rw [hA]; positivity
  obtain ⟨s, hs⟩ := exists_nat_gt A
  obtain ⟨K, hK⟩ : ∃ K, K = (N + 1) * (2 * s + 1) := ⟨_, rfl⟩
  have hK0 : 0 < K := by rw [hK]; positivity
  have hK' : (0 : ℚ) < K := by exact_mod_cast hK0
  have hsK : s ≤ K := by rw [hK]; nlinarith
  have hNK : N < K := by rw [hK]; nlinarith
  have hAK : A < K := lt_of_lt_of_le hs (by exact_mod_cast hsK)
  let c : ℕ → ℚ := fun j => ∑ i ∈ range (N + 1), (P j).coeff i * err K i
  let corr : ℕ → ℚ := fun k => ∑ j ∈ range (N + 1), if k = (2 * s + 1) * j + s then c j else 0
  have hc : ∑ j ∈ range (N + 1), |c j| ≤ A / K ^ 2 := by
    rw [hA, Finset.sum_div]
    refine Finset.sum_le_sum fun j _ => ?_
    rw [Finset.sum_div]
    refine (Finset.abs_sum_le_sum_abs _ _).trans (Finset.sum_le_sum fun i _ => ?_)
    rw [abs_mul, mul_div_assoc]
    exact mul_le_mul_of_nonneg_left (err_bound hK0 i) (abs_nonneg _)
  have hcorr : ∀ k, |corr k| < 1 / K := by
    intro k
    calc |corr k| ≤ ∑ j ∈ range (N + 1), |if k = (2 * s + 1) * j + s then c j else 0| := Finset.abs_sum_le_sum_abs _ _
      _ ≤ ∑ j ∈ range (N + 1), |c j| := by
        refine Finset.sum_le_sum fun j _ => ?_
        split
        · exact le_rfl
        · rw [abs_zero]; exact abs_nonneg _
      _ ≤ A / K ^ 2 := hc
      _ < 1 / K := by
        rw [div_lt_div_iff₀ (by positivity) hK']
        nlinarith
  have hmid : ∀ j, mid K ((2 * s + 1) * j + s) = mid (N + 1) j := by
    intro j
    unfold mid
    rw [hK]
    push_cast
    field_simp
    ring
  -- the correction is exact
  have hfix : ∀ n ≤ N, ∑ j ∈ range (N + 1), c j * mid (N + 1) j ^ n = err K n := by
    intro n hn
    have hX := Lagrange.eq_interpolate (s := range (N + 1)) (v := mid (N + 1)) hinj (f := (Polynomial.X : Polynomial ℚ) ^ n)
      (by rw [Polynomial.degree_X_pow, card_range]; exact_mod_cast Nat.lt_succ_of_le hn)
    rw [Lagrange.interpolate_apply] at hX
    have hco : ∀ i, ∑ j ∈ range (N + 1), mid (N + 1) j ^ n * (P j).coeff i = if i = n then 1 else 0 := by
      intro i
      have := congrArg (fun q => Polynomial.coeff q i) hX
      simp only [Polynomial.coeff_X_pow, Polynomial.finsetSum_coeff, Polynomial.coeff_C_mul, Polynomial.eval_pow,
        Polynomial.eval_X] at this
      exact this.symm
    calc ∑ j ∈ range (N + 1), c j * mid (N + 1) j ^ n
        = ∑ i ∈ range (N + 1), (∑ j ∈ range (N + 1), mid (N + 1) j ^ n * (P j).coeff i) * err K i := by
          simp only [c, Finset.sum_mul]
          rw [Finset.sum_comm]
          exact Finset.sum_congr rfl fun i _ => Finset.sum_congr rfl fun j _ => by ring
      _ = err K n := by
          simp only [hco, ite_mul, one_mul, zero_mul, Finset.sum_ite_eq', mem_range]
          rw [if_pos (by omega)]
  refine ⟨(List.range K).map (fun k => (1 / (K : ℚ) + corr k, mid K k)), ?_, ?_, by simpa using hNK, ?_⟩
  · intro r hr
    obtain ⟨k, hk, rfl⟩ := List.mem_map.mp hr
    have hk' : (k : ℚ) + 1 ≤ K := by exact_mod_cast List.mem_range.mp hk
    refine ⟨?_, ?_, ?_⟩
    · have := neg_lt_of_abs_lt (hcorr k)
      simp only
      linarith
    · simp only [mid]; positivity
    · simp only [mid]
      rw [div_lt_one (by positivity)]
      linarith
  · rw [List.map_map]
    refine List.Nodup.map_on ?_ List.nodup_range
    intro i _ j _ h
    simp only [Function.comp, mid] at h
    rw [div_left_inj' (by positivity)] at h
    have : (i : ℚ) = j := by linarith
    exact_mod_cast this
  · intro n hn
    rw [List.map_map]
    rw [list_range_sum]
    simp only [Function.comp, add_mul, Finset.sum_add_distrib]
    have h2 : ∑ k ∈ range K, corr k * mid K k ^ n = err K n := by
      rw [← hfix n hn]
      simp only [corr, Finset.sum_mul]
      rw [Finset.sum_comm]
      refine Finset.sum_congr rfl fun j hj => ?_
      have hj' : (2 * s + 1) * j + s ∈ range K := by
        rw [mem_range, hK]
        have := mem_range.mp hj
        nlinarith
      rw [Finset.sum_eq_single_of_mem _ hj' (fun k _ hk => by rw [if_neg hk, zero_mul]), if_pos rfl, hmid]
    rw [h2]
    unfold err
    ring

end Tulip.Quadrature
