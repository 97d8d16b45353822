import Verif.Proofs.RoundedGrid

/-!
# Accumulation of rounding errors
-/

set_option linter.unusedSectionVars false

namespace Tulip.RoundedGrid
open Tulip Tulip.Spec InCellPotentials
variable {𝕜 : Type _} [Field 𝕜] [DecidableEq 𝕜] [LinearOrder 𝕜] [IsStrictOrderedRing 𝕜]
variable {rnd : 𝕜 → 𝕜} {u : 𝕜}

/-- Bound on the factor that `n` roundings may introduce. -/
def growth (u : 𝕜) (n : Nat) : 𝕜 := ((1 - u)⁻¹) ^ n

theorem growth_add (u : 𝕜) (n m : Nat) : growth u (n + m) = growth u n * growth u m := pow_add _ _ _

theorem one_le_inv (R : Rounding rnd u) : 1 ≤ (1 - u)⁻¹ := by
  have h0 := R.pos
  have h1 := R.small
  exact (one_le_inv₀ (by linarith)).mpr (by linarith)

theorem growth_ge (R : Rounding rnd u) (n : Nat) : 1 ≤ growth u n := one_le_pow₀ (one_le_inv R)

theorem growth_mono (R : Rounding rnd u) {n m : Nat} (h : n ≤ m) : growth u n ≤ growth u m :=
  pow_le_pow_right₀ (one_le_inv R) h

theorem one_add_le (R : Rounding rnd u) : 1 + u ≤ growth u 1 := by
  have h0 := R.pos
  have h1 := R.small
  unfold growth
  rw [pow_one, le_inv_comm₀ (by linarith) (by linarith)]
  rw [inv_eq_one_div, le_div_iff₀ (by linarith)]
  nlinarith [sq_nonneg u]

/-- `s` is `S` up to `n` roundings, relative to the size `T`. -/
def Near (u : 𝕜) (n : Nat) (S T s : 𝕜) : Prop := |S| ≤ T ∧ |s - S| ≤ (growth u n - 1) * T

theorem Near.self (R : Rounding rnd u) (n : Nat) (S : 𝕜) : Near u n S |S| S :=
  ⟨le_refl _, by
    rw [sub_self, abs_zero]
    have := growth_ge R n
    exact mul_nonneg (by linarith) (abs_nonneg _)⟩

theorem Near.up (R : Rounding rnd u) {n m : Nat} {S T s : 𝕜} (h : Near u n S T s) (hnm : n ≤ m) : Near u m S T s := by
  refine ⟨h.1, le_trans h.2 ?_⟩
  have hT : 0 ≤ T := le_trans (abs_nonneg _) h.1
  have := growth_mono R hnm
  exact mul_le_mul_of_nonneg_right (by linarith) hT

theorem Near.round (R : Rounding rnd u) {n : Nat} {S T s : 𝕜} (h : Near u n S T s) : Near u (n + 1) S T (rnd s) := by
  refine ⟨h.1, ?_⟩
  have hT : 0 ≤ T := le_trans (abs_nonneg _) h.1
  have h0 := R.pos
  have hs : |s| ≤ T + (growth u n - 1) * T := by
    have := abs_sub_abs_le_abs_sub s S
    linarith [h.1, h.2]
  have h1 : |rnd s - S| ≤ |rnd s - s| + |s - S| := abs_sub_le _ _ _
  have h2 := R.err s
  have h3 : u * |s| ≤ u * (T + (growth u n - 1) * T) := mul_le_mul_of_nonneg_left hs h0
  have h4 : (1 + u) * growth u n * T ≤ growth u (n + 1) * T := by
    rw [Nat.add_comm, growth_add]
    have := growth_ge R n
    exact mul_le_mul_of_nonneg_right (mul_le_mul_of_nonneg_right (one_add_le R) (by linarith)) hT
  have h5 := h.2
  calc |rnd s - S| ≤ u * (T + (growth u n - 1) * T) + (growth u n - 1) * T := by linarith
    _ = (1 + u) * growth u n * T - T := by ring
    _ ≤ growth u (n + 1) * T - T := by linarith
    _ = _ := by ring

theorem Near.add {n : Nat} {S T s S' T' s' : 𝕜} (h : Near u n S T s) (h' : Near u n S' T' s') :
    Near u n (S + S') (T + T') (s + s') := by
  refine ⟨le_trans (abs_add_le _ _) (add_le_add h.1 h'.1), ?_⟩
  rw [show s + s' - (S + S') = (s - S) + (s' - S') by ring, mul_add]
  exact le_trans (abs_add_le _ _) (add_le_add h.2 h'.2)

theorem Near.mul (R : Rounding rnd u) {n m : Nat} {S T s S' T' s' : 𝕜} (h : Near u n S T s) (h' : Near u m S' T' s') :
    Near u (n + m) (S * S') (T * T') (s * s') := by
  have hT : 0 ≤ T := le_trans (abs_nonneg _) h.1
  have hT' : 0 ≤ T' := le_trans (abs_nonneg _) h'.1
  refine ⟨by rw [abs_mul]; exact mul_le_mul h.1 h'.1 (abs_nonneg _) hT, ?_⟩
  have hs' : |s'| ≤ growth u m * T' := by
    have := abs_sub_abs_le_abs_sub s' S'
    linarith [h'.1, h'.2]
  rw [show s * s' - S * S' = (s - S) * s' + S * (s' - S') by ring]
  have g1 := growth_ge R n
  refine le_trans (abs_add_le _ _) ?_
  rw [abs_mul, abs_mul]
  have k1 : |s - S| * |s'| ≤ ((growth u n - 1) * T) * (growth u m * T') :=
    mul_le_mul h.2 hs' (abs_nonneg _) (mul_nonneg (by linarith) hT)
  have k2 : |S| * |s' - S'| ≤ T * ((growth u m - 1) * T') := mul_le_mul h.1 h'.2 (abs_nonneg _) hT
  rw [growth_add]
  nlinarith [k1, k2]

theorem Near.inv (R : Rounding rnd u) {n : Nat} {S s : 𝕜} (hS : 0 < S) (h1 : S ≤ growth u n * s) (h2 : s ≤ growth u n * S) :
    Near u n S⁻¹ S⁻¹ s⁻¹ := by
  have g := growth_ge R n
  have hs : 0 < s := by
    by_contra hn
    have : growth u n * s ≤ 0 := mul_nonpos_of_nonneg_of_nonpos (by linarith) (not_lt.mp hn)
    linarith
  have hS' : 0 < S⁻¹ := inv_pos.mpr hS
  refine ⟨by rw [abs_of_pos hS'], ?_⟩
  have e1 : s⁻¹ ≤ growth u n * S⁻¹ := by
    rw [← div_eq_mul_inv, inv_eq_one_div, div_le_div_iff₀ hs hS]
    linarith
  have e2 : S⁻¹ ≤ growth u n * s⁻¹ := by
    rw [← div_eq_mul_inv, inv_eq_one_div, div_le_div_iff₀ hS hs]
    linarith
  rw [abs_le]
  constructor
  · have hs' : 0 < s⁻¹ := inv_pos.mpr hs
    have : s⁻¹ * 1 ≤ s⁻¹ * growth u n := mul_le_mul_of_nonneg_left g (le_of_lt hs')
    by_cases h : S⁻¹ ≤ s⁻¹
    · have := mul_nonneg (by linarith : 0 ≤ growth u n - 1) (le_of_lt hS')
      linarith
    · have h := not_le.mp h
      have k := mul_le_mul_of_nonneg_left (le_of_lt h) (by linarith : 0 ≤ growth u n - 1)
      linarith
  · linarith

/-- The product of two rounded positive lengths. -/
theorem area_near (R : Rounding rnd u) (a b : 𝕜) :
    Near u 3 (a * b) (|a| * |b|) (rnd (rnd a * rnd b)) := by
  have h1 : Near u 1 a |a| (rnd a) := (Near.self R 0 a).round R
  have h2 : Near u 1 b |b| (rnd b) := (Near.self R 0 b).round R
  exact (h1.mul R h2).round R

theorem rnd_growth (R : Rounding rnd u) {x : 𝕜} (hx : 0 ≤ x) : x ≤ growth u 1 * rnd x ∧ rnd x ≤ growth u 1 * x := by
  have h0 := R.pos
  have h1 := R.small
  constructor
  · have := le_rnd R hx
    unfold growth
    rw [pow_one, inv_mul_eq_div, le_div_iff₀ (by linarith)]
    linarith
  · exact le_trans (rnd_le R hx) (mul_le_mul_of_nonneg_right (one_add_le R) hx)

theorem area_growth (R : Rounding rnd u) {a b : 𝕜} (ha : 0 ≤ a) (hb : 0 ≤ b) :
    a * b ≤ growth u 3 * rnd (rnd a * rnd b) ∧ rnd (rnd a * rnd b) ≤ growth u 3 * (a * b) := by
  obtain ⟨a1, a2⟩ := rnd_growth R ha
  obtain ⟨b1, b2⟩ := rnd_growth R hb
  have ra := rnd_nonneg R ha
  have rb := rnd_nonneg R hb
  obtain ⟨c1, c2⟩ := rnd_growth R (mul_nonneg ra rb)
  have g := growth_ge R 1
  have e : growth u 3 = growth u 1 * (growth u 1 * growth u 1) := by
    rw [← growth_add, ← growth_add]
  rw [e]
  constructor
  · calc a * b ≤ (growth u 1 * rnd a) * (growth u 1 * rnd b) := mul_le_mul a1 b1 hb (mul_nonneg (by linarith) ra)
      _ = (growth u 1 * growth u 1) * (rnd a * rnd b) := by ring
      _ ≤ (growth u 1 * growth u 1) * (growth u 1 * rnd (rnd a * rnd b)) :=
          mul_le_mul_of_nonneg_left c1 (mul_nonneg (by linarith) (by linarith))
      _ = _ := by ring
  · calc rnd (rnd a * rnd b) ≤ growth u 1 * (rnd a * rnd b) := c2
      _ ≤ growth u 1 * ((growth u 1 * a) * (growth u 1 * b)) :=
          mul_le_mul_of_nonneg_left (mul_le_mul a2 b2 rb (mul_nonneg (by linarith) ha)) (by linarith)
      _ = _ := by ring

/-- Errors over a loop. -/
theorem forEach_near {α : Type _} (body : α → 𝕜 → Outcome 𝕜) (val wt : α → 𝕜) (c n0 : Nat) : ∀ (l : List α)
    (_ : ∀ x ∈ l, ∀ n S T s, n0 ≤ n → Near u n S T s →
      ∃ s', body x s = .ok s' ∧ Near u (n + c) (S + val x) (T + wt x) s') (n : Nat) (S T s : 𝕜), n0 ≤ n →
    Near u n S T s → ∃ s', forEach body l s = .ok s' ∧
      Near u (n + c * l.length) (S + (l.map val).sum) (T + (l.map wt).sum) s'
  | [], _, n, S, T, s, _, hs => ⟨s, rfl, by simpa using hs⟩
  | x :: l, h, n, S, T, s, hn, hs => by
    obtain ⟨s1, e1, n1⟩ := h x (by simp) n S T s hn hs
    obtain ⟨s2, e2, n2⟩ := forEach_near body val wt c n0 l (fun y hy => h y (by simp [hy])) (n + c) _ _ s1 (by omega) n1
    refine ⟨s2, by rw [forEach, e1, Outcome.ok_bind, e2], ?_⟩
    rw [List.length_cons, List.map_cons, List.map_cons, List.sum_cons, List.sum_cons, ← add_assoc, ← add_assoc,
      Nat.mul_add, Nat.mul_one, Nat.add_comm (c * l.length) c, ← Nat.add_assoc]
    exact n2

/-! ## Number of planes -/

theorem insert_length (s : SSet 𝕜) (k : 𝕜) : (s.insert k).length ≤ s.length + 1 := by
  induction s with
  | nil => simp [SSet.insert]
  | cons a t ih =>
    unfold SSet.insert
    split
    · simp
    · split
      · simp
      · simp only [List.length_cons]; omega

theorem fillGap_length (planes : SSet 𝕜) (a b : 𝕜) : (fillGap rnd planes a b).length ≤ planes.length + 101 := by
  unfold fillGap
  simp only
  refine le_trans (insert_length _ _) ?_
  have : ∀ (l : List Nat) (P : SSet 𝕜),
      (l.foldl (fun s k => s.insert (newPoint rnd a b k)) P).length ≤ P.length + l.length := by
    intro l
    induction l with
    | nil => intro P; simp
    | cons k l ih =>
      intro P
      rw [List.foldl_cons, List.length_cons]
      have := ih (P.insert (newPoint rnd a b k))
      have := insert_length P (newPoint rnd a b k)
      omega
  have h := this (List.range samplingPoints) planes
  rw [List.length_range] at h
  unfold samplingPoints at *
  omega

theorem fillGaps_length : ∀ (l : List 𝕜) (planes : SSet 𝕜),
    (fillGaps rnd l planes).length ≤ planes.length + 101 * (l.length - 1)
  | [], planes => by simp [fillGaps]
  | [_], planes => by simp [fillGaps]
  | a :: b :: t, planes => by
    rw [fillGaps]
    have h1 := fillGaps_length (b :: t) (fillGap rnd planes a b)
    have h2 := fillGap_length (rnd := rnd) planes a b
    simp only [List.length_cons] at *
    omega

theorem planes_length (p q i j : 𝕜) : (planesInDirection rnd p q i j).length ≤ 303 := by
  unfold planesInDirection
  have h := fillGaps_length (rnd := rnd) (SSet.ofList [p, q, i, j]) []
  have h4 : (SSet.ofList [p, q, i, j]).length ≤ 4 := by
    have : ∀ (xs : List 𝕜) (s : SSet 𝕜), (s.insertAll xs).length ≤ s.length + xs.length := by
      intro xs
      induction xs with
      | nil => intro s; simp [SSet.insertAll]
      | cons a t ih =>
        intro s
        have h1 := ih (s.insert a)
        have h2 := insert_length s a
        show (SSet.insertAll (s.insert a) t).length ≤ _
        rw [List.length_cons]
        omega
    exact this _ []
  simp only [List.length_nil] at h
  omega

theorem gaps_length (l : List 𝕜) : (gaps l).length = l.length - 1 := by
  unfold gaps
  rw [List.length_zip, List.length_tail]
  omega

end Tulip.RoundedGrid
