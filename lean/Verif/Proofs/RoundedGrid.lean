import Verif.Model.RoundedGrid
import Verif.Spec.Rounding
import Verif.Proofs.Grid

/-!
# Integration planes with rounding
-/

set_option linter.unusedSectionVars false

namespace Tulip.RoundedGrid
open Tulip Tulip.Spec InCellPotentials
variable {𝕜 : Type _} [Field 𝕜] [DecidableEq 𝕜] [LinearOrder 𝕜] [IsStrictOrderedRing 𝕜]
variable {rnd : 𝕜 → 𝕜} {u : 𝕜}

theorem rnd_zero (R : Rounding rnd u) : rnd 0 = 0 := by
  have := R.err 0
  simpa using this

theorem rnd_nonneg (R : Rounding rnd u) {x : 𝕜} (h : 0 ≤ x) : 0 ≤ rnd x := by
  have := R.mono 0 x h
  rwa [rnd_zero R] at this

theorem rnd_le (R : Rounding rnd u) {x : 𝕜} (h : 0 ≤ x) : rnd x ≤ (1 + u) * x := by
  have := (abs_le.mp (R.err x)).2
  rw [abs_of_nonneg h] at this
  linarith

theorem le_rnd (R : Rounding rnd u) {x : 𝕜} (h : 0 ≤ x) : (1 - u) * x ≤ rnd x := by
  have := (abs_le.mp (R.err x)).1
  rw [abs_of_nonneg h] at this
  linarith

theorem rnd_half (R : Rounding rnd u) (x : 𝕜) : rnd (1 / 2 * x) = 1 / 2 * rnd x := by
  have := R.two (1 / 2 * x)
  rw [show (2 : 𝕜) * (1 / 2 * x) = x by ring] at this
  rw [this]; ring

theorem cube_le (R : Rounding rnd u) : (1 + u) ^ 3 ≤ 1004 / 1000 := by
  have h0 := R.pos
  have h1 : u ≤ 1 / 1000 := by have := R.small; linarith
  have : (1 + u) ^ 3 ≤ (1 + 1 / 1000) ^ 3 := pow_le_pow_left₀ (by linarith) (by linarith) 3
  refine le_trans this (by norm_num)

theorem le_cube (R : Rounding rnd u) : 997 / 1000 ≤ (1 - u) ^ 3 := by
  have h0 := R.pos
  have h1 : u ≤ 1 / 1000 := by have := R.small; linarith
  have : (1 - 1 / 1000) ^ 3 ≤ (1 - u) ^ 3 := pow_le_pow_left₀ (by norm_num) (by linarith) 3
  refine le_trans (by norm_num) this

/-- Bounds on the rounded offset of a point from the lower end of the gap. -/
theorem offset (R : Rounding rnd u) {a b : 𝕜} (hab : a ≤ b) (k : Nat) :
    997 / 1000 * (k * ((b - a) / 100)) ≤ rnd (k * rnd (rnd (b - a) / samplingPoints)) ∧
      rnd (k * rnd (rnd (b - a) / samplingPoints)) ≤ 1004 / 1000 * (k * ((b - a) / 100)) := by
  have hu := R.pos
  have hu1 : u ≤ 1 := by have := R.small; linarith
  have hd : 0 ≤ b - a := by linarith
  have hN : ((samplingPoints : Nat) : 𝕜) = 100 := by unfold samplingPoints; norm_num
  rw [hN]
  have hk : (0 : 𝕜) ≤ k := by positivity
  have n1 := rnd_nonneg R hd
  have n2 : 0 ≤ rnd (b - a) / 100 := by positivity
  have n3 := rnd_nonneg R n2
  have n4 : 0 ≤ (k : 𝕜) * rnd (rnd (b - a) / 100) := by positivity
  constructor
  · calc 997 / 1000 * (k * ((b - a) / 100)) ≤ (1 - u) ^ 3 * (k * ((b - a) / 100)) :=
          mul_le_mul_of_nonneg_right (le_cube R) (by positivity)
      _ = (1 - u) * (k * ((1 - u) * (((1 - u) * (b - a)) / 100))) := by ring
      _ ≤ (1 - u) * (k * ((1 - u) * (rnd (b - a) / 100))) := by
          have h1 : 0 ≤ 1 - u := by linarith
          have := le_rnd R hd
          gcongr
      _ ≤ (1 - u) * (k * rnd (rnd (b - a) / 100)) := by
          have h1 : 0 ≤ 1 - u := by linarith
          have := le_rnd R n2
          gcongr
      _ ≤ _ := le_rnd R n4
  · calc rnd (k * rnd (rnd (b - a) / 100)) ≤ (1 + u) * (k * rnd (rnd (b - a) / 100)) := rnd_le R n4
      _ ≤ (1 + u) * (k * ((1 + u) * (rnd (b - a) / 100))) := by
          have := rnd_le R n2
          gcongr
      _ ≤ (1 + u) * (k * ((1 + u) * (((1 + u) * (b - a)) / 100))) := by
          have := rnd_le R hd
          gcongr
      _ = (1 + u) ^ 3 * (k * ((b - a) / 100)) := by ring
      _ ≤ _ := mul_le_mul_of_nonneg_right (cube_le R) (by positivity)

theorem newPoint_zero (R : Rounding rnd u) {a : 𝕜} (ha : rnd a = a) (b : 𝕜) : newPoint rnd a b 0 = a := by
  unfold newPoint
  simp only [Nat.cast_zero, zero_mul, rnd_zero R, add_zero, ha]

theorem newPoint_rep (R : Rounding rnd u) (a b : 𝕜) (k : Nat) : rnd (newPoint rnd a b k) = newPoint rnd a b k :=
  R.idem _

/-- The unrounded point lies in the gap. -/
theorem offset_between (R : Rounding rnd u) {a b : 𝕜} (hab : a ≤ b) {k : Nat} (hk : k < samplingPoints) :
    0 ≤ rnd (k * rnd (rnd (b - a) / samplingPoints)) ∧
      rnd (k * rnd (rnd (b - a) / samplingPoints)) ≤ 994 / 1000 * (b - a) := by
  obtain ⟨h1, h2⟩ := offset R hab k
  have hk' : (k : 𝕜) ≤ 99 := by
    have : k ≤ 99 := by unfold samplingPoints at hk; omega
    exact_mod_cast this
  have hk0 : (0 : 𝕜) ≤ k := by positivity
  have hd : 0 ≤ b - a := by linarith
  constructor
  · refine le_trans ?_ h1
    positivity
  · refine le_trans h2 ?_
    have : (k : 𝕜) * ((b - a) / 100) ≤ 99 * ((b - a) / 100) := by gcongr
    linarith

/-- Error of a rounded offset. -/
theorem offset_err (R : Rounding rnd u) {a b : 𝕜} (hab : a ≤ b) {k : Nat} (hk : k < samplingPoints) :
    |rnd (k * rnd (rnd (b - a) / samplingPoints)) - k * ((b - a) / 100)| ≤ 3 * u * (b - a) + u * (b - a) / 2 := by
  have hu := R.pos
  have hu1 : u ≤ 1 / 1000 := by have := R.small; linarith
  have hd : 0 ≤ b - a := by linarith
  have hN : ((samplingPoints : Nat) : 𝕜) = 100 := by unfold samplingPoints; norm_num
  rw [hN]
  have hk0 : (0 : 𝕜) ≤ k := by positivity
  have hk' : (k : 𝕜) ≤ 100 := by exact_mod_cast le_of_lt hk
  have n1 := rnd_nonneg R hd
  have n2 : 0 ≤ rnd (b - a) / 100 := by positivity
  have n3 := rnd_nonneg R n2
  have n4 : 0 ≤ (k : 𝕜) * rnd (rnd (b - a) / 100) := by positivity
  have hx0 : 0 ≤ (k : 𝕜) * ((b - a) / 100) := by positivity
  have hx1 : (k : 𝕜) * ((b - a) / 100) ≤ b - a := by
    have := mul_le_mul_of_nonneg_right hk' (by positivity : 0 ≤ (b - a) / 100)
    linarith
  have up : rnd (k * rnd (rnd (b - a) / 100)) ≤ (1 + u) ^ 3 * (k * ((b - a) / 100)) := by
    calc rnd (k * rnd (rnd (b - a) / 100)) ≤ (1 + u) * (k * rnd (rnd (b - a) / 100)) := rnd_le R n4
      _ ≤ (1 + u) * (k * ((1 + u) * (rnd (b - a) / 100))) := by
          have := rnd_le R n2
          gcongr
      _ ≤ (1 + u) * (k * ((1 + u) * (((1 + u) * (b - a)) / 100))) := by
          have := rnd_le R hd
          gcongr
      _ = (1 + u) ^ 3 * (k * ((b - a) / 100)) := by ring
  have dn : (1 - u) ^ 3 * (k * ((b - a) / 100)) ≤ rnd (k * rnd (rnd (b - a) / 100)) := by
    have h1 : 0 ≤ 1 - u := by linarith
    calc (1 - u) ^ 3 * (k * ((b - a) / 100)) = (1 - u) * (k * ((1 - u) * (((1 - u) * (b - a)) / 100))) := by ring
      _ ≤ (1 - u) * (k * ((1 - u) * (rnd (b - a) / 100))) := by
          have := le_rnd R hd
          gcongr
      _ ≤ (1 - u) * (k * rnd (rnd (b - a) / 100)) := by
          have := le_rnd R n2
          gcongr
      _ ≤ _ := le_rnd R n4
  generalize rnd (k * rnd (rnd (b - a) / 100)) = r at *
  generalize (k : 𝕜) * ((b - a) / 100) = x at *
  have c1 : (1 + u) ^ 3 - 1 ≤ 3 * u + u / 2 := by nlinarith [mul_nonneg hu hu, mul_nonneg (mul_nonneg hu hu) hu]
  have c2 : -(3 * u + u / 2) ≤ (1 - u) ^ 3 - 1 := by nlinarith [mul_nonneg hu hu, mul_nonneg (mul_nonneg hu hu) hu]
  have d1 := mul_le_mul_of_nonneg_right c1 hx0
  have d2 := mul_le_mul_of_nonneg_right c2 hx0
  have d3 : (3 * u + u / 2) * x ≤ (3 * u + u / 2) * (b - a) := mul_le_mul_of_nonneg_left hx1 (by positivity)
  rw [abs_le]
  constructor <;> linarith

/-- Error of a point. -/
theorem newPoint_err (R : Rounding rnd u) {a b M : 𝕜} (hab : a ≤ b) (ha : |a| ≤ M) (hb : |b| ≤ M) {k : Nat}
    (hk : k < samplingPoints) : |newPoint rnd a b k - (a + k * ((b - a) / 100))| ≤ 8 * (u * M) := by
  obtain ⟨h1, h2⟩ := offset_between R hab hk
  have h3 := offset_err R hab hk
  unfold newPoint
  simp only
  generalize rnd (k * rnd (rnd (b - a) / samplingPoints)) = r at *
  have habs : |a + r| ≤ M := by
    rw [abs_le] at *
    constructor <;> linarith
  have herr := abs_le.mp (R.err (a + r))
  have e1 : u * |a + r| ≤ u * M := mul_le_mul_of_nonneg_left habs R.pos
  have e2 : u * (b - a) ≤ u * (2 * M) := by
    apply mul_le_mul_of_nonneg_left _ R.pos
    rw [abs_le] at ha hb
    linarith
  rw [abs_le] at *
  constructor <;> linarith

/-- The points of a gap lie in the gap. -/
theorem newPoint_between (R : Rounding rnd u) {a b : 𝕜} (ha : rnd a = a) (hb : rnd b = b) (hab : a ≤ b) {k : Nat}
    (hk : k < samplingPoints) : a ≤ newPoint rnd a b k ∧ newPoint rnd a b k ≤ b := by
  obtain ⟨h1, h2⟩ := offset_between R hab hk
  unfold newPoint
  simp only
  constructor
  · have := R.mono a (a + rnd (k * rnd (rnd (b - a) / samplingPoints))) (by linarith)
    rwa [ha] at this
  · have := R.mono (a + rnd (k * rnd (rnd (b - a) / samplingPoints))) b (by linarith)
    rwa [hb] at this

/-- If the gap is not tiny, the points other than the ends keep away from the ends. -/
theorem newPoint_away (R : Rounding rnd u) {a b M : 𝕜} (hab : a ≤ b) (hMa : |a| ≤ M) (hMb : |b| ≤ M)
    (hgap : 1000 * (u * M) ≤ b - a) {k : Nat} (hk : k < samplingPoints) (hk0 : k ≠ 0) :
    a + (b - a) / 200 ≤ newPoint rnd a b k ∧ newPoint rnd a b k ≤ b - (b - a) / 200 := by
  obtain ⟨h1, h2⟩ := offset_between R hab hk
  obtain ⟨h3, -⟩ := offset R hab k
  have hk1 : (1 : 𝕜) ≤ k := by
    have : 1 ≤ k := by omega
    exact_mod_cast this
  have hd : 0 ≤ b - a := by linarith
  have h4 : (b - a) / 100 ≤ (k : 𝕜) * ((b - a) / 100) := by
    have := mul_le_mul_of_nonneg_right hk1 (by positivity : 0 ≤ (b - a) / 100)
    linarith
  unfold newPoint
  simp only
  generalize rnd (k * rnd (rnd (b - a) / samplingPoints)) = r at *
  have habs : |a + r| ≤ M := by
    rw [abs_le] at *
    constructor <;> linarith
  have herr := abs_le.mp (R.err (a + r))
  have : u * |a + r| ≤ u * M := mul_le_mul_of_nonneg_left habs R.pos
  constructor <;> linarith

/-! ## The planes -/

theorem mem_fillGap (R : Rounding rnd u) (planes : SSet 𝕜) {a : 𝕜} (ha : rnd a = a) (b x : 𝕜) :
    x ∈ fillGap rnd planes a b ↔
    x ∈ planes ∨ x = a ∨ x = b ∨ ∃ k : Nat, k < samplingPoints ∧ k ≠ 0 ∧ x = newPoint rnd a b k := by
  have h : ∀ (l : List Nat) (P : SSet 𝕜),
      x ∈ l.foldl (fun s k => s.insert (newPoint rnd a b k)) P ↔ x ∈ P ∨ ∃ k ∈ l, x = newPoint rnd a b k := by
    intro l
    induction l with
    | nil => intro P; simp
    | cons k l ih =>
      intro P
      rw [List.foldl_cons, ih]
      simp only [SSet.mem_insert, List.mem_cons, exists_eq_or_imp]
      tauto
  unfold fillGap
  simp only
  rw [SSet.mem_insert, h]
  constructor
  · rintro (h | h | ⟨k, hk, h⟩)
    · exact Or.inr (Or.inr (Or.inl h))
    · exact Or.inl h
    · by_cases hk0 : k = 0
      · subst hk0; rw [newPoint_zero R ha] at h; exact Or.inr (Or.inl h)
      · exact Or.inr (Or.inr (Or.inr ⟨k, List.mem_range.mp hk, hk0, h⟩))
  · rintro (h | h | h | ⟨k, hk, hk0, h⟩)
    · exact Or.inr (Or.inl h)
    · exact Or.inr (Or.inr ⟨0, List.mem_range.mpr (by unfold samplingPoints; norm_num), by rw [newPoint_zero R ha, h]⟩)
    · exact Or.inl h
    · exact Or.inr (Or.inr ⟨k, List.mem_range.mpr hk, h⟩)

theorem fillGap_sorted {planes : SSet 𝕜} (h : SSet.Sorted planes) (a b : 𝕜) :
    SSet.Sorted (fillGap rnd planes a b) := by
  unfold fillGap
  apply SSet.Sorted.insert
  generalize List.range samplingPoints = l
  induction l generalizing planes with
  | nil => exact h
  | cons k l ih => rw [List.foldl_cons]; exact ih (h.insert _)

theorem mem_fillGaps (R : Rounding rnd u) : ∀ (l : List 𝕜) (_ : ∀ a ∈ l, rnd a = a) (planes : SSet 𝕜) (x : 𝕜),
    x ∈ fillGaps rnd l planes ↔
    x ∈ planes ∨ ∃ a b, (a, b) ∈ gaps l ∧
      (x = a ∨ x = b ∨ ∃ k : Nat, k < samplingPoints ∧ k ≠ 0 ∧ x = newPoint rnd a b k)
  | [], _, planes, x => by simp [fillGaps, gaps]
  | [a], _, planes, x => by simp [fillGaps, gaps]
  | a :: b :: t, hr, planes, x => by
    rw [fillGaps, mem_fillGaps R (b :: t) (fun c hc => hr c (by simp [hc])), mem_fillGap R _ (hr a (by simp)), gaps_cons]
    simp only [List.mem_cons, Prod.mk.injEq]
    constructor
    · rintro ((h | h) | ⟨c, d, h1, h2⟩)
      · exact Or.inl h
      · exact Or.inr ⟨a, b, Or.inl ⟨rfl, rfl⟩, h⟩
      · exact Or.inr ⟨c, d, Or.inr h1, h2⟩
    · rintro (h | ⟨c, d, ⟨rfl, rfl⟩ | h1, h2⟩)
      · exact Or.inl (Or.inl h)
      · exact Or.inl (Or.inr h2)
      · exact Or.inr ⟨c, d, h1, h2⟩

theorem fillGaps_sorted : ∀ (l : List 𝕜) (planes : SSet 𝕜), SSet.Sorted planes →
    SSet.Sorted (fillGaps rnd l planes)
  | [], _, h => h
  | [_], _, h => h
  | a :: b :: t, planes, h => by
    rw [fillGaps]; exact fillGaps_sorted (b :: t) _ (fillGap_sorted h a b)

theorem planes_sorted (a b c d : 𝕜) : (planesInDirection rnd a b c d).Pairwise (· < ·) :=
  fillGaps_sorted _ _ SSet.sorted_nil

/-- The sides are representable. -/
abbrev Rep (rnd : 𝕜 → 𝕜) (l : List 𝕜) : Prop := ∀ c ∈ l, rnd c = c

theorem mem_planes (R : Rounding rnd u) {p q i j x : 𝕜} (hr : Rep rnd [p, q, i, j]) :
    x ∈ planesInDirection rnd p q i j ↔
    ∃ a b, (a, b) ∈ gaps (SSet.ofList [p, q, i, j]) ∧
      (x = a ∨ x = b ∨ ∃ k : Nat, k < samplingPoints ∧ k ≠ 0 ∧ x = newPoint rnd a b k) := by
  unfold planesInDirection
  rw [mem_fillGaps R _ (fun a ha => hr a (SSet.mem_ofList.mp ha))]
  simp

/-- Planes are representable. -/
theorem planes_rep (R : Rounding rnd u) {p q i j x : 𝕜} (hr : Rep rnd [p, q, i, j])
    (hx : x ∈ planesInDirection rnd p q i j) : rnd x = x := by
  obtain ⟨a, b, hab, h⟩ := (mem_planes R hr).mp hx
  obtain ⟨h1, h2, -, -⟩ := gap_spec (SSet.sorted_ofList _) hab
  rw [SSet.mem_ofList] at h1 h2
  rcases h with rfl | rfl | ⟨k, -, -, rfl⟩
  · exact hr _ h1
  · exact hr _ h2
  · exact newPoint_rep R _ _ _

/-- Every element of a sorted list with another element is the end of some gap. -/
theorem end_of_gap {c d : 𝕜} (hdc : d ≠ c) : ∀ (l : List 𝕜), c ∈ l → d ∈ l →
    ∃ a b, (a, b) ∈ gaps l ∧ (a = c ∨ b = c)
  | [], h, _ => by simp at h
  | [a], h1, h2 => by
    have e1 : c = a := by simpa using h1
    have e2 : d = a := by simpa using h2
    exact absurd (e2.trans e1.symm) hdc
  | a :: b :: t, h1, h2 => by
    rw [gaps_cons]
    by_cases ha : a = c
    · exact ⟨a, b, by simp, Or.inl ha⟩
    by_cases hb : b = c
    · exact ⟨a, b, by simp, Or.inr hb⟩
    have h1' : c ∈ b :: t := (List.mem_cons.mp h1).resolve_left (fun e => ha e.symm)
    obtain ⟨a', b', k1, k2⟩ := end_of_gap (d := b) hb (b :: t) h1' (by simp)
    exact ⟨a', b', List.mem_cons_of_mem _ k1, k2⟩

theorem control_mem (R : Rounding rnd u) {p q i j c : 𝕜} (hr : Rep rnd [p, q, i, j]) (hc : c ∈ [p, q, i, j])
    (hne : ∃ d ∈ [p, q, i, j], d ≠ c) : c ∈ planesInDirection rnd p q i j := by
  obtain ⟨d, hd, hdc⟩ := hne
  obtain ⟨a, b, hab, h⟩ := end_of_gap hdc (SSet.ofList [p, q, i, j]) (SSet.mem_ofList.mpr hc) (SSet.mem_ofList.mpr hd)
  rw [mem_planes R hr]
  exact ⟨a, b, hab, h.elim (fun h => Or.inl h.symm) (fun h => Or.inr (Or.inl h.symm))⟩

/-- All planes lie between the least and the greatest side. -/
theorem planes_between (R : Rounding rnd u) {p q i j x : 𝕜} {lo hi : 𝕜} (hr : Rep rnd [p, q, i, j])
    (h : ∀ c ∈ [p, q, i, j], lo ≤ c ∧ c ≤ hi) (hx : x ∈ planesInDirection rnd p q i j) : lo ≤ x ∧ x ≤ hi := by
  obtain ⟨a, b, hab, hk⟩ := (mem_planes R hr).mp hx
  obtain ⟨h1, h2, h3, -⟩ := gap_spec (SSet.sorted_ofList _) hab
  rw [SSet.mem_ofList] at h1 h2
  rcases hk with rfl | rfl | ⟨k, hk, -, rfl⟩
  · exact h _ h1
  · exact h _ h2
  · obtain ⟨g1, g2⟩ := newPoint_between R (hr a h1) (hr b h2) (le_of_lt h3) hk
    exact ⟨le_trans (h a h1).1 g1, le_trans g2 (h b h2).2⟩

/-- A plane keeps away from the sides that it is not, by a two-hundredth of the gap it lies in. -/
theorem away (R : Rounding rnd u) {p q i j M : 𝕜} (hr : Rep rnd [p, q, i, j]) (hM : ∀ c ∈ [p, q, i, j], |c| ≤ M)
    (hgap : ∀ a ∈ [p, q, i, j], ∀ b ∈ [p, q, i, j], a < b → 1000 * (u * M) ≤ b - a) {x c : 𝕜}
    (hx : x ∈ planesInDirection rnd p q i j) (hc : c ∈ [p, q, i, j]) (hxc : x ≠ c) :
    ∃ g, 0 < g ∧ 1000 * (u * M) ≤ g ∧ (x + g / 200 ≤ c ∨ c + g / 200 ≤ x) := by
  obtain ⟨a, b, hab, hk⟩ := (mem_planes R hr).mp hx
  obtain ⟨h1, h2, h3, h4⟩ := gap_spec (SSet.sorted_ofList _) hab
  rw [SSet.mem_ofList] at h1 h2
  have hs : x ∈ [p, q, i, j] → ∃ g, 0 < g ∧ 1000 * (u * M) ≤ g ∧ (x + g / 200 ≤ c ∨ c + g / 200 ≤ x) := by
    intro hx'
    rcases lt_or_gt_of_ne hxc with h | h
    · exact ⟨c - x, by linarith, hgap x hx' c hc h, Or.inl (by linarith)⟩
    · exact ⟨x - c, by linarith, hgap c hc x hx' h, Or.inr (by linarith)⟩
  rcases hk with rfl | rfl | ⟨k, hk, hk0, rfl⟩
  · exact hs h1
  · exact hs h2
  · have hg := hgap a h1 b h2 h3
    obtain ⟨g1, g2⟩ := newPoint_away R (le_of_lt h3) (hM a h1) (hM b h2) hg hk hk0
    refine ⟨b - a, by linarith, hg, ?_⟩
    rcases h4 c (SSet.mem_ofList.mpr hc) with h | h
    · right; linarith
    · left; linarith

/-! ## Midpoints -/

theorem mid_eq (R : Rounding rnd u) (g : 𝕜 × 𝕜) : mid rnd g = rnd (1 / 2 * (g.1 + g.2)) := by
  unfold mid
  rw [rnd_half R, R.idem, ← rnd_half R]

/-- A midpoint lies in its cell. -/
theorem mid_between (R : Rounding rnd u) {a b : 𝕜} (ha : rnd a = a) (hb : rnd b = b) (hab : a ≤ b) :
    a ≤ mid rnd (a, b) ∧ mid rnd (a, b) ≤ b := by
  rw [mid_eq R]
  constructor
  · have := R.mono a (1 / 2 * (a + b)) (by linarith)
    rwa [ha] at this
  · have := R.mono (1 / 2 * (a + b)) b (by linarith)
    rwa [hb] at this

/-- A midpoint differs from the average of the ends by at most `u` times the size of the ends. -/
theorem mid_err (R : Rounding rnd u) {a b M : 𝕜} (ha : |a| ≤ M) (hb : |b| ≤ M) :
    |mid rnd (a, b) - 1 / 2 * (a + b)| ≤ u * M := by
  rw [mid_eq R]
  refine le_trans (R.err _) (mul_le_mul_of_nonneg_left ?_ R.pos)
  rw [abs_le] at *
  constructor <;> simp only <;> linarith

end Tulip.RoundedGrid
