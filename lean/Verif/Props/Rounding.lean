import Verif.Proofs.Rounding
import Mathlib.Algebra.Order.Floor.Ring
import Mathlib.Data.Rat.Floor

/-!
# C104: rounding
-/

namespace Tulip.Props
open Tulip DMat

section
variable {𝔽 : Type _} (R : Arithmetic 𝔽)

/-- **C104.** Whatever charges have been computed, and however numbers are rounded (multiplication has to be commutative, as that of
IEEE 754 is), the capacitance matrix is exactly symmetric: both entries of a pair are the same `double`. -/
theorem C104_symmetric (hmul : ∀ x y, R.mul x y = R.mul y x) (eps0 : 𝔽) {n : Nat} (Q : Fin (n + 1) → Fin (n + 1) → 𝔽) (o : Openness) :
    ∃ C : Fin n → Fin n → 𝔽, R.capacitances eps0 ⟨n + 1, n + 1, Q⟩ o = .ok ⟨n, n, C⟩ ∧ ∀ i j, C i j = C j i := by
  have hs : R.symmetrize ⟨n + 1, n + 1, Q⟩ = .ok (ofMatrix (Matrix.of (symmetricPart R Q))) := rounded_symmetrize R Q
  unfold Arithmetic.capacitances
  rw [hs]
  simp only [Outcome.ok_bind]
  by_cases ho : o = .closed
  · rw [ho, rounded_closed]
    exact ⟨_, rfl, fun i j => by
      show R.mul (symmetricPart R Q i.succ j.succ) eps0 = R.mul (symmetricPart R Q j.succ i.succ) eps0
      rw [symmetricPart_comm]⟩
  · obtain ⟨den, -, hden⟩ := rounded_open R (Matrix.of (symmetricPart R Q)) ho
    rw [hden]
    refine ⟨_, rfl, fun i j => ?_⟩
    show R.mul (R.sub (symmetricPart R Q i.succ j.succ) (R.div (R.mul (roundedSum R (fun k => symmetricPart R Q i.succ k) R.zero)
        (roundedSum R (fun k => symmetricPart R Q k j.succ) R.zero)) den)) eps0 =
      R.mul (R.sub (symmetricPart R Q j.succ i.succ) (R.div (R.mul (roundedSum R (fun k => symmetricPart R Q j.succ k) R.zero)
        (roundedSum R (fun k => symmetricPart R Q k i.succ) R.zero)) den)) eps0
    have e1 : (fun k => symmetricPart R Q k j.succ) = fun k => symmetricPart R Q j.succ k := funext fun k => symmetricPart_comm R Q _ _
    have e2 : (fun k => symmetricPart R Q k i.succ) = fun k => symmetricPart R Q i.succ k := funext fun k => symmetricPart_comm R Q _ _
    rw [e1, e2, symmetricPart_comm R Q i.succ j.succ, hmul (roundedSum R (fun k => symmetricPart R Q i.succ k) R.zero)]

/-- **C104, closed problems.** Capacitances of closed problems are the means of two charges, without any other operation: two
roundings, and one for the unit. -/
theorem C104_closed (eps0 : 𝔽) {n : Nat} (Q : Fin (n + 1) → Fin (n + 1) → 𝔽) :
    ∃ C : Fin n → Fin n → 𝔽, R.capacitances eps0 ⟨n + 1, n + 1, Q⟩ .closed = .ok ⟨n, n, C⟩ ∧ (∀ i, C i i = R.mul (Q i.succ i.succ) eps0) ∧
      ∀ i j, j < i → C i j = R.mul (R.mul R.half (R.add (Q i.succ j.succ) (Q j.succ i.succ))) eps0 := by
  have hs : R.symmetrize ⟨n + 1, n + 1, Q⟩ = .ok (ofMatrix (Matrix.of (symmetricPart R Q))) := rounded_symmetrize R Q
  unfold Arithmetic.capacitances
  rw [hs]
  simp only [Outcome.ok_bind]
  rw [rounded_closed]
  refine ⟨_, rfl, fun i => ?_, fun i j hij => ?_⟩
  · show R.mul (symmetricPart R Q i.succ i.succ) eps0 = _
    unfold symmetricPart
    rw [if_neg (lt_irrefl _), if_neg (lt_irrefl _)]
  · show R.mul (symmetricPart R Q i.succ j.succ) eps0 = _
    unfold symmetricPart
    rw [if_pos (Fin.succ_lt_succ_iff.mpr hij)]

theorem forRange_post {S : Type _} {body : Nat → S → Outcome S} (I : Nat → S → Prop) : ∀ (n a : Nat) (s s' : S),
    (∀ i s s', a ≤ i → i < a + n → I i s → body i s = .ok s' → I (i + 1) s') → I a s → forRange body a n s = .ok s' → I (a + n) s' := by
  intro n
  induction n with
  | zero =>
    intro a s s' _ h e
    obtain rfl := Outcome.ok.inj e
    exact h
  | succ n ih =>
    intro a s s' hb h e
    simp only [forRange] at e
    obtain ⟨s1, h1, h2⟩ := Outcome.bind_eq_ok.mp e
    rw [show a + (n + 1) = a + 1 + n by omega]
    exact ih (a + 1) s1 s' (fun i s s' hi hi' => hb i s s' (by omega) (by omega)) (hb a s s1 le_rfl (by omega) h h1) h2

/-- **C104, floating potentials.** Whatever the solution of the linear systems gives, the potential of the prescribed conductor is
exactly one. -/
theorem C104_prescribed (solve : DMat 𝔽 → (Nat → 𝔽) → Outcome (Nat → 𝔽)) {n : Nat} (C : Fin n → Fin n → 𝔽) {F : DMat 𝔽}
    (h : R.floatingFromC solve ⟨n, n, C⟩ = .ok F) : ∃ V : Fin n → Fin n → 𝔽, F = ⟨n, n, V⟩ ∧ ∀ i, V i i = R.one := by
  unfold Arithmetic.floatingFromC at h
  have key := forRange_post (fun k M => ∃ V : Fin n → Fin n → 𝔽, M = ⟨n, n, V⟩ ∧ ∀ i : Fin n, i.1 < k → V i i = R.one) n 0 _ F ?_ ⟨_, rfl, fun i hi => absurd hi (by omega)⟩ h
  · obtain ⟨V, h1, h2⟩ := key
    exact ⟨V, h1, fun i => h2 i (by omega)⟩
  · rintro i s s' - hi ⟨V, rfl, hV⟩ e
    obtain ⟨A, -, e⟩ := Outcome.bind_eq_ok.mp e
    obtain ⟨b, -, e⟩ := Outcome.bind_eq_ok.mp e
    obtain ⟨x, -, e⟩ := Outcome.bind_eq_ok.mp e
    have inner := forRange_post (fun k M => ∃ W : Fin n → Fin n → 𝔽, M = ⟨n, n, W⟩ ∧ (∀ j : Fin n, j.1 < i → W j j = R.one) ∧ ∀ j : Fin n, j.1 = i → i < k → W j j = R.one)
      n 0 _ s' ?_ ⟨V, rfl, hV, fun j _ hk => absurd hk (by omega)⟩ e
    · obtain ⟨W, h1, h2, h3⟩ := inner
      exact ⟨W, h1, fun j hj => (Nat.lt_succ_iff_lt_or_eq.mp hj).elim (h2 j) fun hj => h3 j hj (by omega)⟩
    · rintro j s s' - hj ⟨W, rfl, hW, hW'⟩ e
      by_cases hij : i = j
      · subst hij
        rw [if_pos rfl] at e
        have hin : i < n := by omega
        simp only [DMat.set, hin, if_true] at e
        refine ⟨_, (Outcome.ok.inj e).symm, fun j hj => ?_, fun j hj _ => ?_⟩
        · rw [if_neg (by omega)]
          exact hW j hj
        · rw [if_pos ⟨hj, hj⟩]
      · rw [if_neg hij] at e
        have hin : i < n := by omega
        have hjn : j < n := by omega
        simp only [DMat.set, hin, hjn, if_true] at e
        refine ⟨_, (Outcome.ok.inj e).symm, fun k hk => ?_, fun k hk hlt => ?_⟩
        · rw [if_neg (by omega)]
          exact hW k hk
        · rw [if_neg (by omega)]
          exact hW' k hk (by omega)


end

/-- Exact numbers. -/
def exactArithmetic (𝕜 : Type _) [Field 𝕜] : Arithmetic 𝕜 :=
  { zero := 0, one := 1, half := 1 / 2, neg := (- ·), add := (· + ·), sub := (· - ·), mul := (· * ·), div := (· / ·) }

theorem forRange_mono {S : Type _} {f g : Nat → S → Outcome S} (h : ∀ i s s', f i s = .ok s' → g i s = .ok s') : ∀ (n a : Nat) (s s' : S),
    forRange f a n s = .ok s' → forRange g a n s = .ok s' := by
  intro n
  induction n with
  | zero => intro a s s' e; exact e
  | succ n ih =>
    intro a s s' e
    simp only [forRange] at e ⊢
    obtain ⟨s1, h1, h2⟩ := Outcome.bind_eq_ok.mp e
    rw [h a s s1 h1]
    exact ih (a + 1) s1 s' h2

/-- **C104, without rounding.** With exact numbers these functions are the ones the other properties are about: where those give a
matrix, these give the same. -/
theorem C104_exact {𝕜 : Type _} [Field 𝕜] [DecidableEq 𝕜] (h2 : (2 : 𝕜) ≠ 0) :
    (∀ (M S : DMat 𝕜), M.symmetrize = .ok S → (exactArithmetic 𝕜).symmetrize M = .ok S) ∧
    (∀ (M C : DMat 𝕜) (o : Openness), Tulip.getCFromGeneralizedC M o = .ok C → (exactArithmetic 𝕜).getCFromGeneralizedC M o = .ok C) ∧
    ∀ M F : DMat 𝕜, Tulip.floatingFromC M = .ok F → (exactArithmetic 𝕜).floatingFromC DMat.solve M = .ok F := by
  refine ⟨fun M S h => ?_, fun M C o h => ?_, fun M F h => ?_⟩
  · obtain ⟨n, m, f⟩ := M
    by_cases hs : m = n
    · subst hs
      have e1 : (DMat.mk m m f).symmetrize = _ := symmetrize_ofMatrix (𝕜 := 𝕜) f
      have e2 : (exactArithmetic 𝕜).symmetrize (DMat.mk m m f) = _ := rounded_symmetrize (exactArithmetic 𝕜) f
      rw [e1] at h
      rw [e2, ← h]
      congr 2
      funext i j
      show symmetricPart _ f i j = (f i j + f j i) / 2
      unfold symmetricPart exactArithmetic
      rcases lt_trichotomy i j with hij | hij | hij
      · rw [if_neg (not_lt.mpr hij.le), if_pos hij]
        ring
      · rw [hij, if_neg (lt_irrefl _), if_neg (lt_irrefl _)]
        field_simp
        ring
      · rw [if_pos hij]
        ring
    · rw [DMat.symmetrize, dif_neg hs] at h
      cases h
  · unfold Tulip.getCFromGeneralizedC at h
    unfold Arithmetic.getCFromGeneralizedC
    split at h
    · cases h
    · rename_i hz
      rw [if_neg hz]
      simp only at h ⊢
      split at h
      · rename_i hc
        rw [if_pos hc]
        exact h
      · rename_i hc
        rw [if_neg hc]
        obtain ⟨den, hd, h⟩ := Outcome.bind_eq_ok.mp h
        refine Outcome.bind_eq_ok.mpr ⟨den, hd, ?_⟩
        refine forRange_mono (fun i s s' e => ?_) _ _ _ _ h
        refine forRange_mono (fun j s s' e => ?_) _ _ _ _ e
        obtain ⟨rs, h1, e⟩ := Outcome.bind_eq_ok.mp e
        obtain ⟨cs, h2, e⟩ := Outcome.bind_eq_ok.mp e
        obtain ⟨v, h3, e⟩ := Outcome.bind_eq_ok.mp e
        obtain ⟨q, h4, e⟩ := Outcome.bind_eq_ok.mp e
        refine Outcome.bind_eq_ok.mpr ⟨rs, h1, Outcome.bind_eq_ok.mpr ⟨cs, h2, Outcome.bind_eq_ok.mpr ⟨v, h3, ?_⟩⟩⟩
        unfold divide at h4
        split at h4
        · cases h4
        · obtain rfl := Outcome.ok.inj h4
          exact e
  · unfold Tulip.floatingFromC at h
    unfold Arithmetic.floatingFromC
    refine forRange_mono (fun i s s' e => ?_) _ _ _ _ h
    obtain ⟨x, h1, e⟩ := Outcome.bind_eq_ok.mp e
    unfold floatingSolve at h1
    obtain ⟨A, h2, h1⟩ := Outcome.bind_eq_ok.mp h1
    obtain ⟨b, h3, h1⟩ := Outcome.bind_eq_ok.mp h1
    exact Outcome.bind_eq_ok.mpr ⟨A, h2, Outcome.bind_eq_ok.mpr ⟨b, h3, Outcome.bind_eq_ok.mpr ⟨x, h1, e⟩⟩⟩

theorem relative_step {𝕜 : Type _} [Field 𝕜] [LinearOrder 𝕜] [IsStrictOrderedRing 𝕜] {u p x y z k : 𝕜} (hu : 0 ≤ u) (hp : 0 ≤ p) (h1 : |y - x| ≤ p * |x|)
    (h2 : |z - k * y| ≤ u * |k * y|) : |z - k * x| ≤ ((1 + u) * (1 + p) - 1) * |k * x| := by
  have hy : |y| ≤ (1 + p) * |x| := by
    have : |y| ≤ |y - x| + |x| := by
      have := abs_add_le (y - x) x
      rwa [sub_add_cancel] at this
    linarith
  have hz : |z - k * x| ≤ |z - k * y| + |k * (y - x)| := by
    have := abs_add_le (z - k * y) (k * (y - x))
    rwa [show z - k * y + k * (y - x) = z - k * x by ring] at this
  rw [abs_mul] at h2 hz ⊢
  have hk := abs_nonneg k
  have a1 : |k| * |y - x| ≤ |k| * (p * |x|) := mul_le_mul_of_nonneg_left h1 hk
  have a2 : u * (|k| * |y|) ≤ u * (|k| * ((1 + p) * |x|)) := mul_le_mul_of_nonneg_left (mul_le_mul_of_nonneg_left hy hk) hu
  linarith

/-- **C104, accuracy of closed problems.** `val` is the number a value stands for. If the three operations that make a capacitance are
accurate to the relative error `u` (no overflow or underflow occurs in them: `u` is 2⁻⁵³ then), the capacitance is accurate to three times
that (and terms of higher order), as compared with the mean of the computed charges. -/
theorem C104_accuracy {𝔽 𝕜 : Type _} [Field 𝕜] [LinearOrder 𝕜] [IsStrictOrderedRing 𝕜] (R : Arithmetic 𝔽) (val : 𝔽 → 𝕜) (u : 𝕜)
    (eps0 : 𝔽) (hhalf : val R.half = 1 / 2) {n : Nat} (Q : Fin (n + 1) → Fin (n + 1) → 𝔽) {C : Fin n → Fin n → 𝔽}
    (h : R.capacitances eps0 ⟨n + 1, n + 1, Q⟩ .closed = .ok ⟨n, n, C⟩) {i j : Fin n} (hij : j < i)
    (h1 : let s := R.add (Q i.succ j.succ) (Q j.succ i.succ)
      |val s - (val (Q i.succ j.succ) + val (Q j.succ i.succ))| ≤ u * |val (Q i.succ j.succ) + val (Q j.succ i.succ)|)
    (h2 : let s := R.add (Q i.succ j.succ) (Q j.succ i.succ)
      |val (R.mul R.half s) - val R.half * val s| ≤ u * |val R.half * val s|)
    (h3 : let m := R.mul R.half (R.add (Q i.succ j.succ) (Q j.succ i.succ))
      |val (R.mul m eps0) - val m * val eps0| ≤ u * |val m * val eps0|) (hu : 0 ≤ u) :
    let exact := (val (Q i.succ j.succ) + val (Q j.succ i.succ)) / 2 * val eps0
    |val (C i j) - exact| ≤ ((1 + u) ^ 3 - 1) * |exact| := by
  obtain ⟨C', hC, -, hoff⟩ := C104_closed R eps0 Q
  rw [hC] at h
  obtain rfl : C' = C := by
    have := Outcome.ok.inj h
    simpa using this
  rw [hoff i j hij]
  simp only at h1 h2 h3
  generalize val (Q i.succ j.succ) + val (Q j.succ i.succ) = S at h1 ⊢
  generalize R.add (Q i.succ j.succ) (Q j.succ i.succ) = s at *
  generalize R.mul R.half s = m at *
  rw [hhalf] at h2
  have a := relative_step hu hu h1 h2
  have b := relative_step (k := val eps0) hu (by nlinarith) (x := 1 / 2 * S) (y := val m) a (by rw [mul_comm (val eps0)]; exact h3)
  rw [show val eps0 * (1 / 2 * S) = S / 2 * val eps0 by ring] at b
  exact b.trans (le_of_eq (by ring))

/-! ### An arithmetic with rounding -/

/-- Rational numbers, each result cut off after two binary digits. -/
def quarters (x : ℚ) : ℚ := ⌊x * 4⌋ / 4

def cutOff : Arithmetic ℚ :=
  { zero := 0, one := 1, half := 1 / 2, neg := (- ·), add := fun x y => quarters (x + y), sub := fun x y => quarters (x - y),
    mul := fun x y => quarters (x * y), div := fun x y => quarters (x / y) }

/-- Charges that are not symmetric: the matrix of an open problem with a conductor less. Rounding changes the result (the exact mean of 1 and 3/4 is
7/8) and it is symmetric nevertheless. -/
def roughCharges : Fin 3 → Fin 3 → ℚ := fun i j => [[3, -1, -3 / 4], [-1, 5, -1], [-1 / 2, -3 / 4, 4]][i.1]!.getD j.1 0

example : ∃ C : Fin 2 → Fin 2 → ℚ, cutOff.capacitances 1 ⟨3, 3, roughCharges⟩ .open_ = .ok ⟨2, 2, C⟩ ∧ ∀ i j, C i j = C j i :=
  C104_symmetric cutOff (fun x y => by simp only [cutOff, mul_comm]) 1 roughCharges .open_

/-- The operations for the entry (1, 0) have relative error at most 1/7, which the second attains. -/
example {C : Fin 2 → Fin 2 → ℚ} (h : cutOff.capacitances 1 ⟨3, 3, roughCharges⟩ .closed = .ok ⟨2, 2, C⟩) : |C 1 0 - -7 / 8| ≤ ((1 + 1 / 7) ^ 3 - 1) * (7 / 8) := by
  have := C104_accuracy cutOff id (1 / 7) 1 rfl roughCharges h (i := 1) (j := 0) (by decide) (by decide +kernel) (by decide +kernel) (by decide +kernel) (by norm_num)
  have e : (id (roughCharges (Fin.succ 1) (Fin.succ 0)) + id (roughCharges (Fin.succ 0) (Fin.succ 1))) / 2 * id (1 : ℚ) = -7 / 8 := by decide +kernel
  simp only [e] at this
  simpa [abs_div] using this

/-- Solving with a function that is wrong altogether. -/
example : ∃ F : DMat ℚ, cutOff.floatingFromC (fun _ b => .ok b) ⟨2, 2, fun i j => roughCharges i.castSucc j.castSucc⟩ = .ok F :=
  ⟨_, rfl⟩

example : cutOff.symmetrize ⟨2, 2, fun i j => [[3, 1], [3 / 4, 5]][i.1]!.getD j.1 0⟩ ≠
    (DMat.symmetrize ⟨2, 2, fun i j => [[3, 1], [3 / 4, 5]][i.1]!.getD j.1 0⟩ : Outcome (DMat ℚ)) := by
  intro h
  have h1 := rounded_symmetrize cutOff (n := 2) (fun i j => [[3, 1], [3 / 4, 5]][i.1]!.getD j.1 0)
  have h2 := symmetrize_ofMatrix (𝕜 := ℚ) (n := 2) (fun i j => [[3, 1], [3 / 4, 5]][i.1]!.getD j.1 0)
  have h3 := h1.symm.trans (h.trans h2)
  have h4 := congrArg (fun M : DMat ℚ => M.get 1 0) (Outcome.ok.inj h3)
  simp only [get_ofMatrix (n := 2) (m := 2) _ 1 0 (by omega) (by omega), Outcome.ok.injEq, Matrix.of_apply, symmetricPart, cutOff, quarters] at h4
  revert h4
  decide +kernel

end Tulip.Props
