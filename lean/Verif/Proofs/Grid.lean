import Verif.Model.Results
import Mathlib.Tactic.Linarith
import Mathlib.Tactic.Ring
import Mathlib.Tactic.FieldSimp
import Mathlib.Tactic.Positivity
import Mathlib.Algebra.BigOperators.Ring.List
import Mathlib.Algebra.Order.Field.Basic

/-!
# Integration planes
-/

set_option linter.unusedSectionVars false

namespace Tulip.InCellPotentials
variable {𝕜 : Type _} [Field 𝕜] [DecidableEq 𝕜] [LinearOrder 𝕜] [IsStrictOrderedRing 𝕜]

/-! ## Consecutive elements of a sorted list -/

theorem gaps_cons (a b : 𝕜) (t : List 𝕜) : gaps (a :: b :: t) = (a, b) :: gaps (b :: t) := rfl

/-- The elements of a gap are consecutive. -/
theorem gap_spec {l : List 𝕜} (hl : l.Pairwise (· < ·)) {p q : 𝕜} (h : (p, q) ∈ gaps l) :
    p ∈ l ∧ q ∈ l ∧ p < q ∧ ∀ c ∈ l, c ≤ p ∨ q ≤ c := by
  induction l with
  | nil => simp [gaps] at h
  | cons a t ih =>
    cases t with
    | nil => simp [gaps] at h
    | cons b t =>
      rw [gaps_cons] at h
      have hab : a < b := (List.pairwise_cons.mp hl).1 b (by simp)
      have ht := (List.pairwise_cons.mp hl).2
      rcases List.mem_cons.mp h with h | h
      · cases h
        refine ⟨by simp, by simp, hab, ?_⟩
        intro c hc
        rcases List.mem_cons.mp hc with rfl | hc
        · exact Or.inl (le_refl _)
        · right
          rcases List.mem_cons.mp hc with rfl | hc
          · exact le_refl _
          · exact le_of_lt ((List.pairwise_cons.mp ht).1 c hc)
      · obtain ⟨h1, h2, h3, h4⟩ := ih ht h
        refine ⟨by simp [h1], by simp [h2], h3, ?_⟩
        intro c hc
        rcases List.mem_cons.mp hc with rfl | hc
        · left
          rcases List.mem_cons.mp h1 with rfl | h1
          · exact le_of_lt hab
          · exact le_of_lt (lt_trans hab ((List.pairwise_cons.mp ht).1 p h1))
        · exact h4 c hc

/-- Consecutive elements form a gap. -/
theorem gap_of {l : List 𝕜} (hl : l.Pairwise (· < ·)) {p q : 𝕜} (hp : p ∈ l) (hq : q ∈ l) (hpq : p < q)
    (h : ∀ c ∈ l, c ≤ p ∨ q ≤ c) : (p, q) ∈ gaps l := by
  induction l with
  | nil => simp at hp
  | cons a t ih =>
    have ha := (List.pairwise_cons.mp hl).1
    have ht := (List.pairwise_cons.mp hl).2
    rcases List.mem_cons.mp hp with rfl | hp'
    · cases t with
      | nil => have : q = p := by simpa using hq
               exact absurd hpq (by rw [this]; exact lt_irrefl _)
      | cons b t =>
        rw [gaps_cons]
        have hab := ha b (by simp)
        have : b = q := by
          rcases h b (by simp) with h' | h'
          · exact absurd h' (not_le.mpr hab)
          · rcases List.mem_cons.mp hq with rfl | hq
            · exact absurd hpq (lt_irrefl _)
            · rcases List.mem_cons.mp hq with rfl | hq
              · rfl
              · exact absurd ((List.pairwise_cons.mp ht).1 q hq) (not_lt.mpr h')
        rw [this]; simp
    · cases t with
      | nil => simp at hp'
      | cons b t =>
        rw [gaps_cons]
        apply List.mem_cons_of_mem
        rcases List.mem_cons.mp hq with rfl | hq
        · exact absurd (lt_trans hpq (ha p hp')) (lt_irrefl _)
        · exact ih ht hp' hq (fun c hc => h c (List.mem_cons_of_mem _ hc))

/-- Telescoping over the gaps. -/
theorem telescope (g : 𝕜 → 𝕜) : ∀ (l : List 𝕜) (hne : l ≠ []),
    ((gaps l).map (fun pq => g pq.2 - g pq.1)).sum = g (l.getLast hne) - g (l.head hne)
  | [], h => absurd rfl h
  | [a], _ => by simp [gaps]
  | a :: b :: t, _ => by
    rw [gaps_cons, List.map_cons, List.sum_cons, telescope g (b :: t) (by simp)]
    rw [List.getLast_cons (by simp : b :: t ≠ [])]
    simp

/-! ## The planes -/

theorem mem_fillGap (planes : SSet 𝕜) (a b x : 𝕜) : x ∈ fillGap planes a b ↔
    x ∈ planes ∨ ∃ k : Nat, k ≤ samplingPoints ∧ x = a + k * ((b - a) / samplingPoints) := by
  have h : ∀ (l : List Nat) (P : SSet 𝕜),
      x ∈ l.foldl (fun s k => s.insert (a + k * ((b - a) / samplingPoints))) P ↔
      x ∈ P ∨ ∃ k ∈ l, x = a + k * ((b - a) / samplingPoints) := by
    intro l
    induction l with
    | nil => intro P; simp
    | cons k l ih =>
      intro P
      rw [List.foldl_cons, ih]
      simp only [SSet.mem_insert, List.mem_cons, exists_eq_or_imp]
      tauto
  unfold fillGap
  rw [SSet.mem_insert, h]
  have hb : a + (samplingPoints : Nat) * ((b - a) / samplingPoints) = b := by
    have : (samplingPoints : 𝕜) ≠ 0 := by unfold samplingPoints; norm_num
    rw [mul_div_cancel₀ _ this]; ring
  constructor
  · rintro (h | h | ⟨k, hk, h⟩)
    · right; exact ⟨samplingPoints, le_refl _, by rw [hb]; exact h⟩
    · left; exact h
    · right; exact ⟨k, le_of_lt (List.mem_range.mp hk), h⟩
  · rintro (h | ⟨k, hk, h⟩)
    · exact Or.inr (Or.inl h)
    · rcases lt_or_eq_of_le hk with hk | rfl
      · exact Or.inr (Or.inr ⟨k, List.mem_range.mpr hk, h⟩)
      · left; rw [h, hb]

theorem fillGap_sorted {planes : SSet 𝕜} (h : SSet.Sorted planes) (a b : 𝕜) : SSet.Sorted (fillGap planes a b) := by
  unfold fillGap
  apply SSet.Sorted.insert
  generalize List.range samplingPoints = l
  induction l generalizing planes with
  | nil => exact h
  | cons k l ih => rw [List.foldl_cons]; exact ih (h.insert _)

theorem mem_fillGaps : ∀ (l : List 𝕜) (planes : SSet 𝕜) (x : 𝕜), x ∈ fillGaps l planes ↔
    x ∈ planes ∨ ∃ a b, (a, b) ∈ gaps l ∧ ∃ k : Nat, k ≤ samplingPoints ∧ x = a + k * ((b - a) / samplingPoints)
  | [], planes, x => by simp [fillGaps, gaps]
  | [a], planes, x => by simp [fillGaps, gaps]
  | a :: b :: t, planes, x => by
    rw [fillGaps, mem_fillGaps (b :: t), mem_fillGap, gaps_cons]
    simp only [List.mem_cons, Prod.mk.injEq]
    constructor
    · rintro ((h | h) | ⟨c, d, h1, h2⟩)
      · exact Or.inl h
      · exact Or.inr ⟨a, b, Or.inl ⟨rfl, rfl⟩, h⟩
      · exact Or.inr ⟨c, d, Or.inr h1, h2⟩
    · rintro (h | ⟨c, d, ⟨rfl, rfl⟩ | h1, h2⟩)
      · exact Or.inl (Or.inl h)
      · exact Or.inl (Or.inr h2)
      · exact Or.inr ⟨c, d, h1, h2⟩

theorem fillGaps_sorted : ∀ (l : List 𝕜) (planes : SSet 𝕜), SSet.Sorted planes → SSet.Sorted (fillGaps l planes)
  | [], _, h => h
  | [_], _, h => h
  | a :: b :: t, planes, h => by
    rw [fillGaps]; exact fillGaps_sorted (b :: t) _ (fillGap_sorted h a b)

theorem planes_sorted (a b c d : 𝕜) : (planesInDirection a b c d).Pairwise (· < ·) :=
  fillGaps_sorted _ _ SSet.sorted_nil

/-- A point of a gap lies between its ends. -/
theorem gap_point {a b : 𝕜} (h : a < b) {k : Nat} (hk : k ≤ samplingPoints) :
    a ≤ a + k * ((b - a) / samplingPoints) ∧ a + k * ((b - a) / samplingPoints) ≤ b := by
  have hN : (0 : 𝕜) < samplingPoints := by unfold samplingPoints; norm_num
  have hk' : (k : 𝕜) ≤ samplingPoints := by exact_mod_cast hk
  have hs : 0 ≤ (b - a) / samplingPoints := div_nonneg (by linarith) (le_of_lt hN)
  have h1 : 0 ≤ (k : 𝕜) * ((b - a) / samplingPoints) := mul_nonneg (by positivity) hs
  have h2 := mul_le_mul_of_nonneg_right hk' hs
  rw [mul_div_cancel₀ _ (ne_of_gt hN)] at h2
  constructor <;> linarith

theorem mem_planes {p q i j x : 𝕜} : x ∈ planesInDirection p q i j ↔
    ∃ a b, (a, b) ∈ gaps (SSet.ofList [p, q, i, j]) ∧ ∃ k : Nat, k ≤ samplingPoints ∧
      x = a + k * ((b - a) / samplingPoints) := by
  unfold planesInDirection
  rw [mem_fillGaps]
  simp

/-- Control points are planes, unless there is only one. -/
theorem control_mem {p q i j c : 𝕜} (hc : c ∈ [p, q, i, j]) (hne : ∃ d ∈ [p, q, i, j], d ≠ c) :
    c ∈ planesInDirection p q i j := by
  have hsort : (SSet.ofList [p, q, i, j]).Pairwise (· < ·) := SSet.sorted_ofList _
  have hmem : ∀ x, x ∈ SSet.ofList [p, q, i, j] ↔ x ∈ [p, q, i, j] := fun x => SSet.mem_ofList
  obtain ⟨d, hd, hdc⟩ := hne
  generalize hl : SSet.ofList [p, q, i, j] = l at hsort hmem
  -- some gap has c at one of its ends
  have key : ∀ (l : List 𝕜), l.Pairwise (· < ·) → c ∈ l → d ∈ l → ∃ a b, (a, b) ∈ gaps l ∧ (a = c ∨ b = c) := by
    intro l
    induction l with
    | nil => intro _ h; simp at h
    | cons a t ih =>
      intro hs h1 h2
      cases t with
      | nil =>
        have e1 : c = a := by simpa using h1
        have e2 : d = a := by simpa using h2
        exact absurd (e2.trans e1.symm) hdc
      | cons b t =>
        rw [gaps_cons]
        rcases List.mem_cons.mp h1 with rfl | h1
        · exact ⟨c, b, by simp, Or.inl rfl⟩
        · by_cases hcb : b = c
          · exact ⟨a, b, by simp, Or.inr hcb⟩
          · have hbt : b ∈ b :: t := by simp
            -- c lies further on
            have hs' := (List.pairwise_cons.mp hs).2
            have : ∃ a' b', (a', b') ∈ gaps (b :: t) ∧ (a' = c ∨ b' = c) := by
              clear ih h2 hs hdc
              have : ∀ (t : List 𝕜) (b : 𝕜), b ≠ c → c ∈ b :: t →
                  ∃ a' b', (a', b') ∈ gaps (b :: t) ∧ (a' = c ∨ b' = c) := by
                intro t
                induction t with
                | nil => intro b h1 h2; exact absurd (by simpa using h2 : c = b).symm h1
                | cons e t ih =>
                  intro b h1 h2
                  rw [gaps_cons]
                  by_cases hec : e = c
                  · exact ⟨b, e, by simp, Or.inr hec⟩
                  · rcases List.mem_cons.mp h2 with h2 | h2
                    · exact absurd h2.symm h1
                    · obtain ⟨a', b', k1, k2⟩ := ih e hec h2
                      exact ⟨a', b', List.mem_cons_of_mem _ k1, k2⟩
              exact this t b hcb h1
            obtain ⟨a', b', k1, k2⟩ := this
            exact ⟨a', b', List.mem_cons_of_mem _ k1, k2⟩
  obtain ⟨a, b, hab, h⟩ := key l hsort ((hmem c).mpr hc) ((hmem d).mpr hd)
  rw [mem_planes, hl]
  have hN : (samplingPoints : 𝕜) ≠ 0 := by unfold samplingPoints; norm_num
  rcases h with rfl | rfl
  · exact ⟨_, _, hab, 0, by simp, by simp⟩
  · exact ⟨_, _, hab, samplingPoints, le_refl _, by rw [mul_div_cancel₀ _ hN]; ring⟩

/-- All planes lie between the least and the greatest control point. -/
theorem planes_between {p q i j x : 𝕜} {lo hi : 𝕜} (h : ∀ c ∈ [p, q, i, j], lo ≤ c ∧ c ≤ hi)
    (hx : x ∈ planesInDirection p q i j) : lo ≤ x ∧ x ≤ hi := by
  obtain ⟨a, b, hab, k, hk, rfl⟩ := mem_planes.mp hx
  obtain ⟨h1, h2, h3, -⟩ := gap_spec (SSet.sorted_ofList _) hab
  rw [SSet.mem_ofList] at h1 h2
  obtain ⟨g1, g2⟩ := gap_point h3 hk
  exact ⟨le_trans (h a h1).1 g1, le_trans g2 (h b h2).2⟩

/-- Between consecutive control points the planes are exactly the points of the equal subdivision. -/
theorem planes_in_gap {p q i j a b x : 𝕜} (ha : a ∈ [p, q, i, j]) (hb : b ∈ [p, q, i, j]) (hab : a < b)
    (hcons : ∀ c ∈ [p, q, i, j], c ≤ a ∨ b ≤ c) :
    (x ∈ planesInDirection p q i j ∧ a ≤ x ∧ x ≤ b) ↔
      ∃ k : Nat, k ≤ samplingPoints ∧ x = a + k * ((b - a) / samplingPoints) := by
  have hsort : (SSet.ofList [p, q, i, j]).Pairwise (· < ·) := SSet.sorted_ofList _
  have hgap : (a, b) ∈ gaps (SSet.ofList [p, q, i, j]) :=
    gap_of hsort (SSet.mem_ofList.mpr ha) (SSet.mem_ofList.mpr hb) hab
      (fun c hc => hcons c (SSet.mem_ofList.mp hc))
  have hN : (samplingPoints : 𝕜) ≠ 0 := by unfold samplingPoints; norm_num
  constructor
  · rintro ⟨hx, h1, h2⟩
    obtain ⟨c, d, hcd, k, hk, e⟩ := mem_planes.mp hx
    obtain ⟨g1, g2, g3, g4⟩ := gap_spec hsort hcd
    obtain ⟨p1, p2⟩ := gap_point g3 hk
    rw [← e] at p1 p2
    -- (c, d) is (a, b), or before, or after
    rcases hcons c (SSet.mem_ofList.mp g1) with hc | hc
    · rcases hcons d (SSet.mem_ofList.mp g2) with hd | hd
      · -- d ≤ a: x = a
        have : x = a := le_antisymm (le_trans p2 hd) h1
        exact ⟨0, by simp, by simp [this]⟩
      · -- c ≤ a, b ≤ d: the same gap
        have hca : c = a := by
          rcases g4 a (SSet.mem_ofList.mpr ha) with h | h
          · exact le_antisymm hc h
          · exact absurd (lt_of_lt_of_le hab hd) (not_lt.mpr h)
        have hdb : d = b := by
          rcases g4 b (SSet.mem_ofList.mpr hb) with h | h
          · exact absurd hab (not_lt.mpr (le_trans h hc))
          · exact le_antisymm h hd
        subst hca hdb
        exact ⟨k, hk, e⟩
    · have : x = b := le_antisymm h2 (le_trans hc p1)
      exact ⟨samplingPoints, le_refl _, by rw [mul_div_cancel₀ _ hN, this]; ring⟩
  · rintro ⟨k, hk, rfl⟩
    obtain ⟨g1, g2⟩ := gap_point hab hk
    exact ⟨mem_planes.mpr ⟨a, b, hgap, k, hk, rfl⟩, g1, g2⟩

/-! ## Lengths -/

/-- The cells with midpoint in `[a, b]` cover `[a, b]`, if `a` and `b` are planes: telescoping sum over them. -/
theorem inside_sum (g : 𝕜 → 𝕜) {l : List 𝕜} (hl : l.Pairwise (· < ·)) (hne : l ≠ []) {a b : 𝕜} (ha : a ∈ l)
    (hb : b ∈ l) (hab : a ≤ b) :
    ((gaps l).map (fun pq => if a ≤ (1 / 2) * (pq.1 + pq.2) ∧ (1 / 2) * (pq.1 + pq.2) ≤ b then g pq.2 - g pq.1
      else 0)).sum = g b - g a := by
  have e : (gaps l).map (fun pq => if a ≤ (1 / 2) * (pq.1 + pq.2) ∧ (1 / 2) * (pq.1 + pq.2) ≤ b then
      g pq.2 - g pq.1 else 0) = (gaps l).map (fun pq => g (max a (min pq.2 b)) - g (max a (min pq.1 b))) := by
    apply List.map_congr_left
    rintro ⟨p, q⟩ hpq
    obtain ⟨_, _, h3, h4⟩ := gap_spec hl hpq
    simp only
    rcases h4 a ha with ka | ka
    · rcases h4 b hb with kb | kb
      · rw [if_neg (by rintro ⟨-, h⟩; linarith), min_eq_right (by linarith), min_eq_right kb, sub_self]
      · rw [if_pos ⟨by linarith, by linarith⟩, min_eq_left kb, min_eq_left (by linarith),
          max_eq_right (by linarith), max_eq_right ka]
    · rw [if_neg (by rintro ⟨h, -⟩; linarith), min_eq_left (by linarith), min_eq_left (by linarith),
        max_eq_left ka, max_eq_left (by linarith), sub_self]
  rw [e, telescope (fun x => g (max a (min x b))) l hne]
  have h1 : b ≤ l.getLast hne := by
    rcases List.mem_iff_getElem.mp hb with ⟨i, hi, rfl⟩
    rw [List.getLast_eq_getElem]
    rcases Nat.lt_or_ge i (l.length - 1) with h | h
    · exact le_of_lt (List.pairwise_iff_getElem.mp hl i (l.length - 1) hi (by omega) h)
    · have : i = l.length - 1 := by omega
      subst this; exact le_refl _
  have h2 : l.head hne ≤ a := by
    rcases List.mem_iff_getElem.mp ha with ⟨i, hi, rfl⟩
    rw [List.head_eq_getElem]
    rcases Nat.eq_zero_or_pos i with h | h
    · subst h; exact le_refl _
    · exact le_of_lt (List.pairwise_iff_getElem.mp hl 0 i (by omega) hi h)
  show g (max a (min (l.getLast hne) b)) - g (max a (min (l.head hne) b)) = g b - g a
  rw [min_eq_right h1, max_eq_right hab, min_eq_left (by linarith), max_eq_left h2]

/-- Their total length. -/
theorem inside_length {l : List 𝕜} (hl : l.Pairwise (· < ·)) (hne : l ≠ []) {a b : 𝕜} (ha : a ∈ l) (hb : b ∈ l)
    (hab : a ≤ b) :
    ((gaps l).map (fun pq => if a ≤ (1 / 2) * (pq.1 + pq.2) ∧ (1 / 2) * (pq.1 + pq.2) ≤ b then pq.2 - pq.1
      else 0)).sum = b - a := inside_sum (fun x => x) hl hne ha hb hab

end Tulip.InCellPotentials
