import Verif.Spec.Rounding
import Mathlib.Data.Int.Log
import Mathlib.Algebra.Order.Floor.Ring
import Mathlib.Algebra.Order.Field.Power
import Mathlib.Tactic.Ring
import Mathlib.Tactic.FieldSimp
import Mathlib.Tactic.Positivity
import Mathlib.Tactic.NormNum

/-!
# Rounding to nearest

Binary numbers with `p + 1` digits and unlimited exponents: an instance of the specification of rounding.
-/

set_option linter.unusedSectionVars false

namespace Tulip.Nearest
open Tulip.Spec
variable {𝕜 : Type _} [Field 𝕜] [LinearOrder 𝕜] [IsStrictOrderedRing 𝕜] [FloorRing 𝕜]

/-- Weight of the last of `p + 1` digits. -/
def ulp (p : Nat) (y : 𝕜) : 𝕜 := 2 ^ (Int.log 2 y - p)

/-- Rounding to nearest, positive numbers. -/
def pos (p : Nat) (y : 𝕜) : 𝕜 := ⌊y / ulp p y + 1 / 2⌋ * ulp p y

/-- Rounding to the nearest number with `p + 1` binary digits, ties away from zero. -/
def nearest (p : Nat) (x : 𝕜) : 𝕜 := if 0 ≤ x then pos p x else -pos p (-x)

theorem ulp_pos (p : Nat) (y : 𝕜) : 0 < ulp p y := by unfold ulp; positivity

theorem log_le {y : 𝕜} (hy : 0 < y) : (2 : 𝕜) ^ Int.log 2 y ≤ y := by
  have := Int.zpow_log_le_self (b := 2) (by norm_num) hy
  exact_mod_cast this

theorem lt_log (y : 𝕜) : y < (2 : 𝕜) ^ (Int.log 2 y + 1) := by
  have := Int.lt_zpow_succ_log_self (b := 2) (by norm_num) y
  exact_mod_cast this

theorem log_unique {y : 𝕜} {e : ℤ} (h1 : (2 : 𝕜) ^ e ≤ y) (h2 : y < 2 ^ (e + 1)) : Int.log 2 y = e := by
  have hy : 0 < y := lt_of_lt_of_le (by positivity) h1
  have a : e ≤ Int.log 2 y := (Int.zpow_le_iff_le_log (b := 2) (by norm_num) hy).mp (by exact_mod_cast h1)
  have b : Int.log 2 y < e + 1 := (Int.lt_zpow_iff_log_lt (b := 2) (by norm_num) hy).mp (by exact_mod_cast h2)
  omega

theorem zpow_split (p : Nat) (e : ℤ) : (2 : 𝕜) ^ e = ((2 ^ p : Int) : 𝕜) * 2 ^ (e - p) := by
  push_cast
  rw [← zpow_natCast, ← zpow_add₀ (by norm_num)]
  congr 1
  omega

/-- A number that is a multiple of its last place is representable. -/
theorem pos_of_int {p : Nat} {y : 𝕜} {n : ℤ} (h : y = n * ulp p y) : pos p y = y := by
  have hu := ne_of_gt (ulp_pos p y)
  have e : y / ulp p y = n := by rw [div_eq_iff hu]; exact h
  unfold pos
  rw [e]
  have : ⌊(n : 𝕜) + 1 / 2⌋ = n := by
    rw [Int.floor_eq_iff]; constructor <;> norm_num
  rw [this]
  exact h.symm

theorem pos_two_pow (p : Nat) (e : ℤ) : pos p ((2 : 𝕜) ^ e) = 2 ^ e := by
  have hl : Int.log 2 ((2 : 𝕜) ^ e) = e :=
    log_unique (le_refl _) (by rw [zpow_add_one₀ (by norm_num)]; have : (0 : 𝕜) < 2 ^ e := by positivity
                               linarith)
  apply pos_of_int (n := 2 ^ p)
  unfold ulp
  rw [hl]
  exact zpow_split p e

theorem pos_err (p : Nat) {y : 𝕜} : |pos p y - y| ≤ ulp p y / 2 := by
  have hu := ulp_pos p y
  have f1 := Int.floor_le (y / ulp p y + 1 / 2)
  have f2 := Int.lt_floor_add_one (y / ulp p y + 1 / 2)
  unfold pos
  generalize (⌊y / ulp p y + 1 / 2⌋ : ℤ) = n at *
  have e : y = y / ulp p y * ulp p y := by field_simp
  generalize y / ulp p y = t at *
  rw [abs_le]
  have g1 := mul_le_mul_of_nonneg_right f1 (le_of_lt hu)
  have g2 := mul_le_mul_of_nonneg_right (le_of_lt f2) (le_of_lt hu)
  constructor <;> nlinarith

/-- Monotone within one binade and its ends. -/
theorem pos_binade (p : Nat) {y : 𝕜} (hy : 0 < y) :
    (2 : 𝕜) ^ Int.log 2 y ≤ pos p y ∧ pos p y ≤ 2 ^ (Int.log 2 y + 1) := by
  have hu := ulp_pos p y
  have h1 := log_le hy
  have h2 := lt_log y
  have e1 : (2 : 𝕜) ^ Int.log 2 y = ((2 ^ p : Int) : 𝕜) * ulp p y := zpow_split p _
  have e2 : (2 : 𝕜) ^ (Int.log 2 y + 1) = ((2 ^ (p + 1) : Int) : 𝕜) * ulp p y := by
    rw [zpow_add_one₀ (by norm_num), e1]; push_cast; ring
  have t1 : ((2 ^ p : Int) : 𝕜) ≤ y / ulp p y := by rw [le_div_iff₀ hu, ← e1]; exact h1
  have t2 : y / ulp p y < ((2 ^ (p + 1) : Int) : 𝕜) := by rw [div_lt_iff₀ hu, ← e2]; exact h2
  rw [e1, e2]
  unfold pos
  constructor
  · apply mul_le_mul_of_nonneg_right _ (le_of_lt hu)
    have : (2 ^ p : Int) ≤ ⌊y / ulp p y + 1 / 2⌋ := Int.le_floor.mpr (by linarith)
    exact_mod_cast this
  · apply mul_le_mul_of_nonneg_right _ (le_of_lt hu)
    have : ⌊y / ulp p y + 1 / 2⌋ < (2 ^ (p + 1) : Int) + 1 := Int.floor_lt.mpr (by
      push_cast
      push_cast at t2
      linarith)
    exact_mod_cast Int.lt_add_one_iff.mp this

theorem pos_mono (p : Nat) {y z : 𝕜} (hy : 0 < y) (hyz : y ≤ z) : pos p y ≤ pos p z := by
  have hz : 0 < z := lt_of_lt_of_le hy hyz
  have hl : Int.log 2 y ≤ Int.log 2 z := Int.log_mono_right hy hyz
  rcases eq_or_lt_of_le hl with h | h
  · have hu : ulp p y = ulp p z := by unfold ulp; rw [h]
    unfold pos
    rw [hu]
    have hu := ulp_pos p z
    apply mul_le_mul_of_nonneg_right _ (le_of_lt hu)
    have : ⌊y / ulp p z + 1 / 2⌋ ≤ ⌊z / ulp p z + 1 / 2⌋ := by
      apply Int.floor_le_floor
      have := div_le_div_of_nonneg_right hyz (le_of_lt hu)
      linarith
    exact_mod_cast this
  · refine le_trans (pos_binade p hy).2 (le_trans ?_ (pos_binade p hz).1)
    exact zpow_le_zpow_right₀ (by norm_num) (by omega)

theorem pos_idem (p : Nat) {y : 𝕜} (hy : 0 < y) : pos p (pos p y) = pos p y := by
  obtain ⟨h1, h2⟩ := pos_binade p hy
  rcases eq_or_lt_of_le h2 with h | h
  · rw [h]; exact pos_two_pow p _
  · have hl : Int.log 2 (pos p y) = Int.log 2 y := log_unique h1 h
    apply pos_of_int (n := ⌊y / ulp p y + 1 / 2⌋)
    have hu : ulp p (pos p y) = ulp p y := by unfold ulp; rw [hl]
    rw [hu]
    rfl

theorem pos_double (p : Nat) {y : 𝕜} (hy : 0 < y) : pos p (2 * y) = 2 * pos p y := by
  have hl : Int.log 2 (2 * y) = Int.log 2 y + 1 := by
    apply log_unique
    · rw [zpow_add_one₀ (by norm_num)]; have := log_le hy; linarith
    · rw [zpow_add_one₀ (by norm_num)]; have := lt_log y; linarith
  have hu : ulp p (2 * y) = 2 * ulp p y := by
    unfold ulp
    rw [hl, show Int.log 2 y + 1 - (p : ℤ) = (Int.log 2 y - p) + 1 by ring, zpow_add_one₀ (by norm_num)]
    ring
  unfold pos
  rw [hu, mul_div_mul_left _ _ (by norm_num : (2 : 𝕜) ≠ 0)]
  ring

theorem pos_zero (p : Nat) : pos p (0 : 𝕜) = 0 := by
  unfold pos
  have : ⌊(0 : 𝕜) / ulp p 0 + 1 / 2⌋ = 0 := by rw [Int.floor_eq_iff]; norm_num
  rw [this]; simp

theorem pos_nonneg (p : Nat) {y : 𝕜} (hy : 0 ≤ y) : 0 ≤ pos p y := by
  rcases eq_or_lt_of_le hy with h | h
  · rw [← h, pos_zero]
  · exact le_trans (by positivity) (pos_binade p h).1

theorem pos_pos (p : Nat) {y : 𝕜} (hy : 0 < y) : 0 < pos p y := lt_of_lt_of_le (by positivity) (pos_binade p hy).1

theorem nearest_neg (p : Nat) (x : 𝕜) : nearest p (-x) = -nearest p x := by
  unfold nearest
  rcases lt_trichotomy x 0 with h | h | h
  · rw [if_pos (by linarith), if_neg (by linarith), neg_neg]
  · subst h; simp [pos_zero]
  · rw [if_neg (by linarith), if_pos (by linarith), neg_neg]

theorem nearest_of_pos (p : Nat) {x : 𝕜} (h : 0 < x) : nearest p x = pos p x := if_pos (le_of_lt h)

theorem nearest_zero (p : Nat) : nearest p (0 : 𝕜) = 0 := by unfold nearest; rw [if_pos (le_refl _), pos_zero]

/-- To prove an equation for all numbers it is enough to prove it for positive ones. -/
theorem by_sign {P : 𝕜 → Prop} (h0 : P 0) (h1 : ∀ x, 0 < x → P x) (h2 : ∀ x, 0 < x → P x → P (-x)) (x : 𝕜) : P x := by
  rcases lt_trichotomy x 0 with h | h | h
  · have := h2 (-x) (by linarith) (h1 (-x) (by linarith))
    rwa [neg_neg] at this
  · rw [h]; exact h0
  · exact h1 x h

/-- Rounding to nearest with `p + 1 ≥ 10` digits meets the specification, with `u = 2⁻⁽ᵖ⁺¹⁾`. -/
theorem rounding {p : Nat} (hp : 9 ≤ p) : Rounding (nearest p) ((2 : 𝕜) ^ (-(p + 1 : ℤ))) where
  mono x y h := by
    rcases lt_trichotomy x 0 with hx | hx | hx
    · have e : nearest p x = -pos p (-x) := if_neg (by linarith)
      rcases le_or_gt 0 y with hy | hy
      · rw [e]
        have h1 := pos_nonneg p (y := -x) (by linarith)
        have h2 : nearest p y = pos p y := if_pos hy
        rw [h2]
        have := pos_nonneg p hy
        linarith
      · rw [e, show nearest p y = -pos p (-y) from if_neg (by linarith)]
        have := pos_mono p (y := -y) (z := -x) (by linarith) (by linarith)
        linarith
    · subst hx
      rw [nearest_zero, show nearest p y = pos p y from if_pos h]
      exact pos_nonneg p h
    · rw [nearest_of_pos p hx, nearest_of_pos p (lt_of_lt_of_le hx h)]
      exact pos_mono p hx h
  idem := by_sign (by rw [nearest_zero, nearest_zero])
    (fun x hx => by rw [nearest_of_pos p hx, nearest_of_pos p (pos_pos p hx), pos_idem p hx])
    (fun x _ h => by rw [nearest_neg, nearest_neg, h])
  two := by_sign (by rw [mul_zero, nearest_zero, mul_zero])
    (fun x hx => by rw [nearest_of_pos p hx, nearest_of_pos p (by linarith : 0 < 2 * x), pos_double p hx])
    (fun x _ h => by rw [mul_neg, nearest_neg, nearest_neg, h, mul_neg])
  err := by_sign (by rw [nearest_zero]; simp)
    (fun x hx => by
      rw [nearest_of_pos p hx, abs_of_pos hx]
      refine le_trans (pos_err p) ?_
      have h1 := log_le hx
      have e : ulp p x / 2 = 2 ^ (-(p + 1 : ℤ)) * 2 ^ Int.log 2 x := by
        unfold ulp
        rw [← zpow_add₀ (by norm_num), div_eq_mul_inv, ← zpow_neg_one, ← zpow_add₀ (by norm_num)]
        congr 1
        omega
      rw [e]
      exact mul_le_mul_of_nonneg_left h1 (by positivity))
    (fun x _ h => by
      rw [nearest_neg, abs_neg, show -nearest p x - -x = -(nearest p x - x) by ring, abs_neg]
      exact h)
  pos := by positivity
  small := by
    have : (2 : 𝕜) ^ (-(p + 1 : ℤ)) ≤ 2 ^ (-10 : ℤ) := zpow_le_zpow_right₀ (by norm_num) (by omega)
    have h : (2 : 𝕜) ^ (-10 : ℤ) = 1 / 1024 := by norm_num
    rw [h] at this
    linarith

/-- Powers of two, and integers of at most `p + 1` digits times them, are representable. -/
theorem nearest_int {p : Nat} {n : ℕ} {k : ℤ} (hn : n ≤ 2 ^ (p + 1)) : nearest p ((n : 𝕜) * 2 ^ k) = n * 2 ^ k := by
  rcases Nat.eq_zero_or_pos n with h | h
  · subst h; simp [nearest_zero]
  have hn0 : (0 : 𝕜) < n := by exact_mod_cast h
  have hpos : (0 : 𝕜) < n * 2 ^ k := by positivity
  rw [nearest_of_pos p hpos]
  rcases eq_or_lt_of_le hn with h' | h'
  · rw [h']
    push_cast
    rw [← zpow_natCast, ← zpow_add₀ (by norm_num)]
    exact pos_two_pow p _
  · -- the last place divides 2 ^ k
    have hl : Int.log 2 ((n : 𝕜) * 2 ^ k) ≤ k + p := by
      have hlt : (n : 𝕜) * 2 ^ k < 2 ^ (k + p + 1) := by
        have : (n : 𝕜) < 2 ^ (p + 1) := by exact_mod_cast h'
        have e : (2 : 𝕜) ^ (k + p + 1) = 2 ^ (p + 1) * 2 ^ k := by
          rw [← zpow_natCast, ← zpow_add₀ (by norm_num)]
          congr 1
          push_cast
          ring
        rw [e]
        exact mul_lt_mul_of_pos_right this (by positivity)
      have := (Int.lt_zpow_iff_log_lt (b := 2) (by norm_num) hpos).mp (by exact_mod_cast hlt)
      omega
    have : ∃ d : ℕ, k = (Int.log 2 ((n : 𝕜) * 2 ^ k) - p) + d := ⟨(k - (Int.log 2 ((n : 𝕜) * 2 ^ k) - p)).toNat, by omega⟩
    obtain ⟨d, hd⟩ := this
    apply pos_of_int (n := n * 2 ^ d)
    unfold ulp
    generalize Int.log 2 ((n : 𝕜) * 2 ^ k) - (p : ℤ) = m at *
    rw [hd, zpow_add₀ (by norm_num)]
    push_cast
    rw [zpow_natCast]
    ring

end Tulip.Nearest
