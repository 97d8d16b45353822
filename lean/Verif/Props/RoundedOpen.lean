import Verif.Props.Rounding
import Verif.Props.RoundedDouble
import Mathlib.Algebra.BigOperators.Fin

/-!
# C119: the capacitances of open problems in computer arithmetic
-/

namespace Tulip.Props
open Tulip DMat Tulip.Spec

section
variable {𝕜 : Type _} [Field 𝕜] [LinearOrder 𝕜] [IsStrictOrderedRing 𝕜]

/-- Arithmetic with every result rounded. -/
def roundedArithmetic (rnd : 𝕜 → 𝕜) : Arithmetic 𝕜 where
  zero := 0
  one := 1
  half := 1 / 2
  neg x := -x
  add x y := rnd (x + y)
  sub x y := rnd (x - y)
  mul x y := rnd (x * y)
  div x y := rnd (x / y)

/-- `a` is a number of size at most `A`, computed as `x` with error at most that of `m` roundings of numbers of this size. -/
def Near (u : 𝕜) (m : ℕ) (x a A : 𝕜) : Prop := |x - a| ≤ ((1 + u) ^ m - 1) * A ∧ |a| ≤ A

variable {rnd : 𝕜 → 𝕜} {u : 𝕜}

theorem one_le_power (hu : 0 ≤ u) (m : ℕ) : 1 ≤ (1 + u) ^ m := one_le_pow₀ (by linarith)

theorem Near.nonneg {m : ℕ} {x a A : 𝕜} (h : Near u m x a A) : 0 ≤ A := (abs_nonneg a).trans h.2

theorem Near.mono (hu : 0 ≤ u) {m k : ℕ} (hmk : m ≤ k) {x a A : 𝕜} (h : Near u m x a A) : Near u k x a A := by
  refine ⟨h.1.trans (mul_le_mul_of_nonneg_right ?_ h.nonneg), h.2⟩
  have := pow_le_pow_right₀ (show 1 ≤ 1 + u by linarith) hmk
  linarith

theorem Near.self (hu : 0 ≤ u) (m : ℕ) (a : 𝕜) : Near u m a a |a| := by
  refine ⟨?_, le_rfl⟩
  rw [sub_self, abs_zero]
  exact mul_nonneg (by linarith [one_le_power hu m]) (abs_nonneg a)

theorem Near.size (hu : 0 ≤ u) {m : ℕ} {x a A : 𝕜} (h : Near u m x a A) : |x| ≤ (1 + u) ^ m * A := by
  have h1 : |x| ≤ |x - a| + |a| := by
    have := abs_add_le (x - a) a
    rwa [sub_add_cancel] at this
  have := h.1
  have := h.2
  nlinarith

theorem Near.round (hu : 0 ≤ u) (herr : ∀ x, |rnd x - x| ≤ u * |x|) {m : ℕ} {x a A : 𝕜} (h : Near u m x a A) :
    Near u (m + 1) (rnd x) a A := by
  refine ⟨?_, h.2⟩
  have h1 : |rnd x - a| ≤ |rnd x - x| + |x - a| := by
    have := abs_add_le (rnd x - x) (x - a)
    rwa [show rnd x - x + (x - a) = rnd x - a by ring] at this
  have h2 := mul_le_mul_of_nonneg_left (h.size hu) hu
  have h3 := h.1
  rw [pow_succ]
  have := herr x
  nlinarith

theorem Near.plus (hu : 0 ≤ u) (herr : ∀ x, |rnd x - x| ≤ u * |x|) {m : ℕ} {x a A y b B : 𝕜} (h : Near u m x a A)
    (k : Near u m y b B) : Near u (m + 1) (rnd (x + y)) (a + b) (A + B) := by
  refine Near.round hu herr ⟨?_, (abs_add_le a b).trans (add_le_add h.2 k.2)⟩
  have h1 := abs_add_le (x - a) (y - b)
  rw [show x - a + (y - b) = x + y - (a + b) by ring] at h1
  have := h.1
  have := k.1
  linarith

theorem Near.times (hu : 0 ≤ u) {m k : ℕ} {x a A y b B : 𝕜} (h : Near u m x a A)
    (h' : Near u k y b B) : Near u (m + k) (x * y) (a * b) (A * B) := by
  refine ⟨?_, by rw [abs_mul]; exact mul_le_mul h.2 h'.2 (abs_nonneg _) h.nonneg⟩
  have e : x * y - a * b = (x - a) * y + a * (y - b) := by ring
  have h1 : |x * y - a * b| ≤ |x - a| * |y| + |a| * |y - b| := by
    rw [e, ← abs_mul, ← abs_mul]; exact abs_add_le _ _
  have h2 : |x - a| * |y| ≤ ((1 + u) ^ m - 1) * A * ((1 + u) ^ k * B) :=
    mul_le_mul h.1 (h'.size hu) (abs_nonneg _) (mul_nonneg (by linarith [one_le_power hu m]) h.nonneg)
  have h3 : |a| * |y - b| ≤ A * (((1 + u) ^ k - 1) * B) := mul_le_mul h.2 h'.1 (abs_nonneg _) h.nonneg
  rw [pow_add]
  linarith

theorem near_sum (hu : 0 ≤ u) (herr : ∀ x, |rnd x - x| ≤ u * |x|) : ∀ {n : ℕ} {w v V : Fin n → 𝕜} {m : ℕ} {x a A : 𝕜},
    (∀ k, Near u m (w k) (v k) (V k)) → Near u m x a A →
    Near u (m + n) (roundedSum (roundedArithmetic rnd) w x) (a + ∑ k, v k) (A + ∑ k, V k) := by
  intro n
  induction n with
  | zero => intro w v V m x a A _ h; simpa [roundedSum] using h
  | succ n ih =>
    intro w v V m x a A hw h
    have h0 : Near u (m + 1) (rnd (x + w 0)) (a + v 0) (A + V 0) := h.plus hu herr (hw 0)
    have := ih (fun k => (hw k.succ).mono hu (Nat.le_succ m)) h0
    rw [Fin.sum_univ_succ, Fin.sum_univ_succ, ← add_assoc a, ← add_assoc A, show m + (n + 1) = m + 1 + n by omega]
    unfold roundedSum at this ⊢
    rw [List.ofFn_succ]
    exact this

theorem near_total (hu : 0 ≤ u) (herr : ∀ x, |rnd x - x| ≤ u * |x|) {p : ℕ} :
    ∀ {n : ℕ} {w v V : Fin n → Fin p → 𝕜} {m : ℕ} {x a A : 𝕜},
    (∀ i k, Near u m (w i k) (v i k) (V i k)) → Near u m x a A →
    Near u (m + n * p) (roundedTotal (roundedArithmetic rnd) w x) (a + ∑ i, ∑ k, v i k) (A + ∑ i, ∑ k, V i k) := by
  intro n
  induction n with
  | zero => intro w v V m x a A _ h; simpa [roundedTotal] using h
  | succ n ih =>
    intro w v V m x a A hw h
    have h0 := near_sum hu herr (hw 0) h
    have := ih (fun i k => (hw i.succ k).mono hu (Nat.le_add_right m p)) h0
    rw [Fin.sum_univ_succ, Fin.sum_univ_succ, ← add_assoc a, ← add_assoc A,
      show m + (n + 1) * p = m + p + n * p by rw [Nat.succ_mul]; omega]
    unfold roundedTotal at this ⊢
    rw [List.ofFn_succ]
    exact this

theorem near_symmetric (hu : 0 ≤ u) (herr : ∀ x, |rnd x - x| ≤ u * |x|) {n : ℕ} (Q : Fin n → Fin n → 𝕜) (a b : Fin n) :
    Near u 2 (symmetricPart (roundedArithmetic rnd) Q a b) ((Q a b + Q b a) / 2) |(Q a b + Q b a) / 2| := by
  have key : ∀ x y : 𝕜, Near u 2 (rnd (1 / 2 * rnd (x + y))) ((x + y) / 2) |(x + y) / 2| := by
    intro x y
    refine Near.round hu herr (m := 1) ?_
    have h := Near.round hu herr (m := 0) (Near.self hu 0 (x + y))
    refine ⟨?_, le_rfl⟩
    rw [show 1 / 2 * rnd (x + y) - (x + y) / 2 = (rnd (x + y) - (x + y)) / 2 by ring, abs_div, abs_div]
    have := h.1
    have h2 : (0 : 𝕜) < |2| := by norm_num
    rw [← mul_div_assoc]
    exact div_le_div_of_nonneg_right this h2.le
  unfold symmetricPart
  split
  · exact key _ _
  · split
    · rw [add_comm (Q a b)]; exact key _ _
    · have : a = b := le_antisymm (by simpa using ‹¬ b < a›) (by simpa using ‹¬ a < b›)
      subst this
      rw [show (Q a a + Q a a) / 2 = Q a a by ring]
      exact Near.self hu 2 _

/-- A quotient, with the error of numerator and denominator. -/
theorem near_quotient {p x P π d D δ : 𝕜} (hp : |x - p| ≤ π) (hP : |p| ≤ P) (hd : |d - D| ≤ δ) (hδ : δ < |D|) :
    |x / d - p / D| ≤ (π + P * (δ / |D|)) / (|D| - δ) := by
  have hD : 0 < |D| := lt_of_le_of_lt ((abs_nonneg _).trans hd) hδ
  have hD0 : D ≠ 0 := abs_pos.mp hD
  have hdl : |D| - δ ≤ |d| := by
    have := abs_sub_abs_le_abs_sub D d
    rw [abs_sub_comm] at this
    linarith
  have hdp : 0 < |D| - δ := by linarith
  have hd0 : d ≠ 0 := abs_pos.mp (lt_of_lt_of_le hdp hdl)
  have e : x / d - p / D = ((x - p) + p * ((D - d) / D)) / d := by field_simp; ring
  rw [e, abs_div]
  have h1 : |x - p + p * ((D - d) / D)| ≤ π + P * (δ / |D|) := by
    refine (abs_add_le _ _).trans (add_le_add hp ?_)
    rw [abs_mul, abs_div, abs_sub_comm D d]
    exact mul_le_mul hP (div_le_div_of_nonneg_right hd hD.le) (div_nonneg (abs_nonneg _) hD.le) ((abs_nonneg _).trans hP)
  have h0 : 0 ≤ π + P * (δ / |D|) := (abs_nonneg _).trans h1
  exact (div_le_div_of_nonneg_right h1 (abs_nonneg d)).trans (div_le_div_of_nonneg_left h0 hdp hdl)

theorem capacitances_ok {𝔽 : Type _} {R : Arithmetic 𝔽} {eps0 : 𝔽} {charges gC C : DMat 𝔽} {o : Openness}
    (h1 : R.symmetrize charges = .ok gC) (h2 : R.getCFromGeneralizedC gC o = .ok C) :
    R.capacitances eps0 charges o = .ok (R.smul C eps0) := by
  unfold Arithmetic.capacitances
  rw [h1, Outcome.ok_bind, h2, Outcome.ok_bind]

/-- **C119.** Every operation is rounded with relative error at most `u`. With `q` the symmetric part of the computed charges, the
capacitance of conductors `i` and `j` of an open problem is `q_ij - (Σ_k q_ik) (Σ_k q_kj) / Σ_kl q_kl` in exact numbers, and
the computed one differs from it by no more than stated, where the sizes of the sums are those without cancellation; the condition is
that the total charge is not lost in the rounding of its terms. -/
theorem C119_accuracy (hu : 0 ≤ u) (herr : ∀ x, |rnd x - x| ≤ u * |x|) (eps0 : 𝕜) {n : Nat}
    (Q : Fin (n + 1) → Fin (n + 1) → 𝕜) {o : Openness} (ho : o ≠ .closed) :
    let q := fun a b => (Q a b + Q b a) / 2
    let D := ∑ a, ∑ b, q a b
    let δ := ((1 + u) ^ ((n + 1) * (n + 1) + 2) - 1) * ∑ a, ∑ b, |q a b|
    δ < |D| →
    ∃ C : Fin n → Fin n → 𝕜, (roundedArithmetic rnd).capacitances eps0 ⟨n + 1, n + 1, Q⟩ o = .ok ⟨n, n, C⟩ ∧
      ∀ i j,
        let exact := q i.succ j.succ - (∑ k, q i.succ k) * (∑ k, q k j.succ) / D
        let error := ((1 + u) ^ 2 - 1) * |q i.succ j.succ| +
          (∑ k, |q i.succ k|) * (∑ k, |q k j.succ|) * (((1 + u) ^ (2 * n + 8) - 1) + δ / |D|) / (|D| - δ)
        |C i j - exact * eps0| ≤ ((1 + u) ^ 2 * error + ((1 + u) ^ 2 - 1) * |exact|) * |eps0| := by
  intro q D δ hδ
  set R := roundedArithmetic rnd with hR
  have hs : R.symmetrize ⟨n + 1, n + 1, Q⟩ = .ok (ofMatrix (Matrix.of (symmetricPart R Q))) := rounded_symmetrize R Q
  obtain ⟨den, hden, hopen⟩ := rounded_open R (Matrix.of (symmetricPart R Q)) ho
  have hn : ∀ a b, Near u 2 (symmetricPart R Q a b) (q a b) |q a b| := near_symmetric hu herr Q
  have h00 : Near u 2 (0 : 𝕜) 0 0 := by simpa using Near.self hu 2 (0 : 𝕜)
  have hD : Near u (2 + (n + 1) * (n + 1)) den D (∑ a, ∑ b, |q a b|) := by
    have := near_total hu herr (fun a b => hn a b) h00
    rw [zero_add, zero_add] at this
    rw [hden]
    exact this
  have hD' : |den - D| ≤ δ := by
    have := hD.1
    rwa [Nat.add_comm] at this
  refine ⟨_, capacitances_ok hs hopen, fun i j => ?_⟩
  intro ex err
  have hrow := near_sum hu herr (fun k => hn i.succ k) h00
  have hcol := near_sum hu herr (fun k => hn k j.succ) h00
  rw [zero_add, zero_add] at hrow hcol
  show |rnd (rnd (symmetricPart R Q i.succ j.succ - rnd (rnd (roundedSum R (fun k => symmetricPart R Q i.succ k) 0 *
    roundedSum R (fun k => symmetricPart R Q k j.succ) 0) / den)) * eps0) - ex * eps0| ≤ _
  have hs2 := (hn i.succ j.succ).1
  rw [← hR] at hrow hcol
  generalize symmetricPart R Q i.succ j.succ = s at *
  generalize roundedSum R (fun k => symmetricPart R Q i.succ k) 0 = r at *
  generalize roundedSum R (fun k => symmetricPart R Q k j.succ) 0 = c at *
  have hp := (hrow.times hu hcol).round hu herr
  generalize rnd (r * c) = p at *
  -- the rounding of the quotient is put into its numerator
  have hdl : |D| - δ ≤ |den| := by
    have := abs_sub_abs_le_abs_sub D den
    rw [abs_sub_comm] at this
    linarith
  have hd0 : den ≠ 0 := abs_pos.mp (lt_of_lt_of_le (by linarith) hdl)
  have hnum : Near u (2 * n + 8) (rnd (p / den) * den) ((∑ k, q i.succ k) * (∑ k, q k j.succ))
      ((∑ k, |q i.succ k|) * (∑ k, |q k j.succ|)) := by
    have h := Near.round (rnd := fun x => rnd (x / den) * den) hu (fun x => by
      have h1 := herr (x / den)
      rw [show rnd (x / den) * den - x = (rnd (x / den) - x / den) * den by field_simp, abs_mul]
      calc |rnd (x / den) - x / den| * |den| ≤ u * |x / den| * |den| := mul_le_mul_of_nonneg_right h1 (abs_nonneg _)
        _ = u * |x| := by rw [mul_assoc, ← abs_mul, div_mul_cancel₀ _ hd0]) hp
    exact h.mono hu (by omega)
  have hq := near_quotient hnum.1 hnum.2 hD' hδ
  rw [mul_div_assoc, div_self hd0, mul_one] at hq
  generalize rnd (p / den) = w at *
  have hsub : |s - w - ex| ≤ err := by
    have h1 := abs_sub (s - q i.succ j.succ) (w - (∑ k, q i.succ k) * (∑ k, q k j.succ) / D)
    rw [show s - q i.succ j.succ - (w - (∑ k, q i.succ k) * (∑ k, q k j.succ) / D) = s - w - ex by
      simp only [ex]; ring] at h1
    refine h1.trans (add_le_add hs2 (hq.trans (le_of_eq ?_)))
    ring
  have step : ∀ {x a e : 𝕜}, |x - a| ≤ e → |rnd x - a| ≤ (1 + u) * e + u * |a| := by
    intro x a e h
    have h1 : |rnd x - a| ≤ |rnd x - x| + |x - a| := by
      have := abs_add_le (rnd x - x) (x - a)
      rwa [show rnd x - x + (x - a) = rnd x - a by ring] at this
    have h2 : |x| ≤ |x - a| + |a| := by
      have := abs_add_le (x - a) a
      rwa [sub_add_cancel] at this
    have h3 := herr x
    have h4 : u * |x| ≤ u * (e + |a|) := mul_le_mul_of_nonneg_left (by linarith) hu
    linarith
  have h1 := step hsub
  have h2 : |rnd (s - w) * eps0 - ex * eps0| ≤ ((1 + u) * err + u * |ex|) * |eps0| := by
    rw [← sub_mul, abs_mul]
    exact mul_le_mul_of_nonneg_right h1 (abs_nonneg _)
  refine (step h2).trans (le_of_eq ?_)
  rw [abs_mul]
  ring

theorem power_bound (hu : 0 ≤ u) {K : ℕ} (h : (K : 𝕜) * u < 1) : (1 + u) ^ K - 1 ≤ K * u / (1 - K * u) := by
  by_cases hK : K = 0
  · subst hK; simp
  have h1u : u < 1 := by
    have : (1 : 𝕜) ≤ K := by exact_mod_cast Nat.one_le_iff_ne_zero.mpr hK
    nlinarith
  have hb := one_add_mul_le_pow (show (-2 : 𝕜) ≤ -u by linarith) K
  have hp : (1 + u) ^ K * (1 + -u) ^ K ≤ 1 := by
    rw [← mul_pow]
    exact pow_le_one₀ (by nlinarith) (by nlinarith [mul_self_nonneg u])
  have h0 := one_le_power hu K
  rw [le_div_iff₀ (by linarith)]
  nlinarith

end

/-- **C119, for doubles.** Rounding to nearest with 53 digits, at most 1000 conductors, and a total charge of at least a millionth of what
it is without cancellation. -/
theorem C119_double (eps0 : ℚ) {n : Nat} (hn : n < 1000)
    (Q : Fin (n + 1) → Fin (n + 1) → ℚ) {o : Openness} (ho : o ≠ .closed) :
    let q := fun a b => (Q a b + Q b a) / 2
    let D := ∑ a, ∑ b, q a b
    let T := ∑ a, ∑ b, |q a b|
    D ≠ 0 → T ≤ 10 ^ 6 * |D| →
    ∃ C : Fin n → Fin n → ℚ,
      (roundedArithmetic (Nearest.nearest 52)).capacitances eps0 ⟨n + 1, n + 1, Q⟩ o = .ok ⟨n, n, C⟩ ∧
      ∀ i j,
        let exact := q i.succ j.succ - (∑ k, q i.succ k) * (∑ k, q k j.succ) / D
        |C i j - exact * eps0| ≤ ((|q i.succ j.succ| + |exact|) / 10 ^ 15 +
          (∑ k, |q i.succ k|) * (∑ k, |q k j.succ|) * T / D ^ 2 / 10 ^ 9) * |eps0| := by
  intro q D T hD hT
  have R := Nearest.rounding (𝕜 := ℚ) (p := 52) (by norm_num)
  have hu := R.pos
  have hDp : 0 < |D| := abs_pos.mpr hD
  have hTD : |D| ≤ T := (Finset.abs_sum_le_sum_abs _ _).trans (Finset.sum_le_sum fun a _ => Finset.abs_sum_le_sum_abs _ _)
  generalize hU : ((2 : ℚ) ^ (-(52 + 1 : ℤ))) = u at *
  have key := C119_accuracy (𝕜 := ℚ) hu R.err eps0 Q ho
  have hu1 : u ≤ 12 / 10 ^ 17 := by rw [← hU]; norm_num
  have pw : ∀ K : ℕ, K ≤ 1000 * 1000 + 2 → (1 + u) ^ K - 1 ≤ 2 / 10 ^ 10 := by
    intro K hK
    have hK' : (K : ℚ) ≤ 1000002 := by exact_mod_cast hK
    have hKu : (K : ℚ) * u ≤ 1000002 * (12 / 10 ^ 17) := mul_le_mul hK' hu1 hu (by norm_num)
    have h1 : (K : ℚ) * u < 1 := lt_of_le_of_lt hKu (by norm_num)
    refine (power_bound hu h1).trans ?_
    rw [div_le_iff₀ (by linarith)]
    nlinarith
  have p2 : (1 + u) ^ 2 ≤ 1 + 5 / 10 ^ 16 := by nlinarith
  have hK1 : (n + 1) * (n + 1) + 2 ≤ 1000 * 1000 + 2 :=
    Nat.add_le_add_right (Nat.mul_le_mul (by omega) (by omega)) 2
  have g1 := pw _ hK1
  have g2 := pw (2 * n + 8) (by omega)
  have e1 := one_le_power hu ((n + 1) * (n + 1) + 2)
  have e2 := one_le_power hu (2 * n + 8)
  have e3 := one_le_power hu 2
  simp only at key
  set δ := ((1 + u) ^ ((n + 1) * (n + 1) + 2) - 1) * ∑ a, ∑ b, |(Q a b + Q b a) / 2| with hδ
  have hδT : δ ≤ 2 / 10 ^ 10 * T := mul_le_mul_of_nonneg_right g1 (hDp.le.trans hTD)
  have hδD : δ ≤ |D| / 1000 := by linarith
  have hδ0 : 0 ≤ δ := mul_nonneg (by linarith) (hDp.le.trans hTD)
  obtain ⟨C, hC, hb⟩ := key (by show δ < |D|; linarith)
  refine ⟨C, hC, fun i j => (hb i j).trans ?_⟩
  show _ ≤ ((|q i.succ j.succ| + |q i.succ j.succ - (∑ k, q i.succ k) * (∑ k, q k j.succ) / D|) / 10 ^ 15 +
    (∑ k, |q i.succ k|) * (∑ k, |q k j.succ|) * T / D ^ 2 / 10 ^ 9) * |eps0|
  refine mul_le_mul_of_nonneg_right ?_ (abs_nonneg eps0)
  show (1 + u) ^ 2 * (((1 + u) ^ 2 - 1) * |q i.succ j.succ| + (∑ k, |q i.succ k|) * (∑ k, |q k j.succ|) *
    (((1 + u) ^ (2 * n + 8) - 1) + δ / |D|) / (|D| - δ)) +
    ((1 + u) ^ 2 - 1) * |q i.succ j.succ - (∑ k, q i.succ k) * (∑ k, q k j.succ) / D| ≤ _
  have hS : 0 ≤ (∑ k, |q i.succ k|) * (∑ k, |q k j.succ|) :=
    mul_nonneg (Finset.sum_nonneg fun _ _ => abs_nonneg _) (Finset.sum_nonneg fun _ _ => abs_nonneg _)
  generalize (∑ k, |q i.succ k|) * (∑ k, |q k j.succ|) = S at *
  have hw : (((1 + u) ^ (2 * n + 8) - 1) + δ / |D|) / (|D| - δ) ≤ T / D ^ 2 * (5 / 10 ^ 10) := by
    rw [← sq_abs D, div_le_iff₀ (by linarith)]
    have h1 : (1 + u) ^ (2 * n + 8) - 1 ≤ 2 / 10 ^ 10 * (T / |D|) :=
      g2.trans (le_mul_of_one_le_right (by norm_num) ((one_le_div hDp).mpr hTD))
    have h2 : δ / |D| ≤ 2 / 10 ^ 10 * (T / |D|) := by
      rw [← mul_div_assoc]; exact div_le_div_of_nonneg_right hδT hDp.le
    have h3 : T / |D| ^ 2 * (5 / 10 ^ 10) * (|D| - |D| / 1000) ≤ T / |D| ^ 2 * (5 / 10 ^ 10) * (|D| - δ) :=
      mul_le_mul_of_nonneg_left (by linarith) (mul_nonneg (div_nonneg (hDp.le.trans hTD) (sq_nonneg _)) (by norm_num))
    have h4 : T / |D| ^ 2 * (5 / 10 ^ 10) * (|D| - |D| / 1000) = 4995 / 10 ^ 13 * (T / |D|) := by
      have : T / |D| ^ 2 * |D| = T / |D| := by field_simp
      rw [← this]; ring
    have h5 : 0 ≤ T / |D| := div_nonneg (hDp.le.trans hTD) hDp.le
    linarith
  have hw0 : 0 ≤ T / D ^ 2 := div_nonneg (hDp.le.trans hTD) (sq_nonneg _)
  have hw1 : S * (((1 + u) ^ (2 * n + 8) - 1) + δ / |D|) / (|D| - δ) ≤ S * T / D ^ 2 * (5 / 10 ^ 10) := by
    rw [mul_div_assoc, show S * T / D ^ 2 * (5 / 10 ^ 10) = S * (T / D ^ 2 * (5 / 10 ^ 10)) by ring]
    exact mul_le_mul_of_nonneg_left hw hS
  have hx0 : 0 ≤ S * T / D ^ 2 := by rw [mul_div_assoc]; exact mul_nonneg hS hw0
  generalize S * T / D ^ 2 = X at *
  generalize S * (((1 + u) ^ (2 * n + 8) - 1) + δ / |D|) / (|D| - δ) = Y at *
  have hq0 := abs_nonneg (q i.succ j.succ)
  have hex0 := abs_nonneg (q i.succ j.succ - (∑ k, q i.succ k) * (∑ k, q k j.succ) / D)
  generalize |q i.succ j.succ| = a at *
  generalize |q i.succ j.succ - (∑ k, q i.succ k) * (∑ k, q k j.succ) / D| = b at *
  have h1 : (1 + u) ^ 2 * (((1 + u) ^ 2 - 1) * a + Y) ≤ (1 + 5 / 10 ^ 16) * (5 / 10 ^ 16 * a + X * (5 / 10 ^ 10)) := by
    have h2 : ((1 + u) ^ 2 - 1) * a + Y ≤ 5 / 10 ^ 16 * a + X * (5 / 10 ^ 10) :=
      add_le_add (mul_le_mul_of_nonneg_right (by linarith) hq0) hw1
    have h3 : 0 ≤ 5 / 10 ^ 16 * a + X * (5 / 10 ^ 10) := by positivity
    exact (mul_le_mul_of_nonneg_left h2 (by linarith)).trans (mul_le_mul_of_nonneg_right p2 h3)
  have h2 : ((1 + u) ^ 2 - 1) * b ≤ 5 / 10 ^ 16 * b := mul_le_mul_of_nonneg_right (by linarith) hex0
  linarith

/-- **C119, without rounding.** The exact numbers of `C119_accuracy` are what exact arithmetic gives. -/
theorem C119_exact {𝕜 : Type _} [Field 𝕜] [LinearOrder 𝕜] [IsStrictOrderedRing 𝕜] (eps0 : 𝕜) {n : Nat}
    (Q : Fin (n + 1) → Fin (n + 1) → 𝕜) {o : Openness} (ho : o ≠ .closed) :
    let q := fun a b => (Q a b + Q b a) / 2
    let D := ∑ a, ∑ b, q a b
    D ≠ 0 → (exactArithmetic 𝕜).capacitances eps0 ⟨n + 1, n + 1, Q⟩ o =
      .ok ⟨n, n, fun i j => (q i.succ j.succ - (∑ k, q i.succ k) * (∑ k, q k j.succ) / D) * eps0⟩ := by
  intro q D hD
  have key := C119_accuracy (rnd := fun x : 𝕜 => x) (u := 0) le_rfl (fun x => by simp) eps0 Q ho
  simp only [add_zero, one_pow, sub_self, zero_mul, zero_div, mul_zero] at key
  obtain ⟨C, h1, h2⟩ := key (abs_pos.mpr hD)
  have e : C = fun i j => (q i.succ j.succ - (∑ k, q i.succ k) * (∑ k, q k j.succ) / D) * eps0 := by
    funext i j
    exact sub_eq_zero.mp (abs_eq_zero.mp (le_antisymm (h2 i j) (abs_nonneg _)))
  rw [← e]
  exact h1

/-- The hypotheses are met by the charges of an open problem with two conductors and a reference. -/
example : ∃ C : Fin 2 → Fin 2 → ℚ,
    (roundedArithmetic (Nearest.nearest 52)).capacitances 1 ⟨3, 3, ![![4, -1, -2], ![-1, 2, 0], ![-2, 0, 3]]⟩ .open_ =
      .ok ⟨2, 2, C⟩ ∧ |C 0 0 - 5 / 3| ≤ 3 / 10 ^ 8 ∧ |C 0 1 + 1 / 3| ≤ 3 / 10 ^ 8 := by
  obtain ⟨C, h1, h2⟩ := C119_double 1 (n := 2) (by norm_num) ![![4, -1, -2], ![-1, 2, 0], ![-2, 0, 3]] (o := .open_) (by decide)
    (by norm_num [Fin.sum_univ_succ]) (by norm_num [Fin.sum_univ_succ])
  refine ⟨C, h1, ?_, ?_⟩
  · refine le_trans (le_of_eq (congrArg (fun y => |C 0 0 - y|) ?_)) ((h2 0 0).trans ?_)
    · decide +kernel
    · decide +kernel
  · refine le_trans (le_of_eq (?_ : _ = |C 0 1 - (-1 / 3)|)) (le_trans (le_of_eq (congrArg (fun y => |C 0 1 - y|) ?_)) ((h2 0 1).trans ?_))
    · congr 1; ring
    · decide +kernel
    · decide +kernel

end Tulip.Props
