import Verif.Proofs.RoundedSum
import Verif.Props.Grid

/-!
# C111: the integration grid and the averages in computer arithmetic
-/

set_option linter.unusedSectionVars false

namespace Tulip.Spec
variable {𝕜 : Type _} [Field 𝕜] [LinearOrder 𝕜]

/-- The sides of the box are representable numbers. -/
def RepresentableBox (rnd : 𝕜 → 𝕜) (b : Box 𝕜) : Prop :=
  rnd b.min.1 = b.min.1 ∧ rnd b.max.1 = b.max.1 ∧ rnd b.min.2 = b.min.2 ∧ rnd b.max.2 = b.max.2

/-- The sides of the box have size at most `M`. -/
def BoundedBox (M : 𝕜) (b : Box 𝕜) : Prop := |b.min.1| ≤ M ∧ |b.max.1| ≤ M ∧ |b.min.2| ≤ M ∧ |b.max.2| ≤ M

/-- Sides of the two boxes in the same direction that differ, differ by at least `d`. -/
def SidesApart (d : 𝕜) (box inner : Box 𝕜) : Prop :=
  (∀ a ∈ [box.min.1, box.max.1, inner.min.1, inner.max.1], ∀ b ∈ [box.min.1, box.max.1, inner.min.1, inner.max.1],
    a < b → d ≤ b - a) ∧
  (∀ a ∈ [box.min.2, box.max.2, inner.min.2, inner.max.2], ∀ b ∈ [box.min.2, box.max.2, inner.min.2, inner.max.2],
    a < b → d ≤ b - a)

end Tulip.Spec

namespace Tulip.RoundedGrid
open Tulip Tulip.Spec InCellPotentials
variable {𝕜 : Type _} [Field 𝕜] [DecidableEq 𝕜] [LinearOrder 𝕜] [IsStrictOrderedRing 𝕜]
variable {rnd : 𝕜 → 𝕜} {u : 𝕜}

theorem sides_between {p q i j : 𝕜} (hpq : p < q) (hi : p ≤ i) (hij : i ≤ j) (hj : j ≤ q) :
    ∀ c ∈ [p, q, i, j], p ≤ c ∧ c ≤ q := by
  intro c hc
  simp only [List.mem_cons, List.not_mem_nil, or_false] at hc
  rcases hc with rfl | rfl | rfl | rfl
  · exact ⟨le_refl _, le_of_lt hpq⟩
  · exact ⟨le_of_lt hpq, le_refl _⟩
  · exact ⟨hi, le_trans hij hj⟩
  · exact ⟨le_trans hi hij, hj⟩

theorem side_mem (R : Rounding rnd u) {p q i j c : 𝕜} (hr : Rep rnd [p, q, i, j]) (hpq : p < q)
    (hc : c ∈ [p, q, i, j]) : c ∈ planesInDirection rnd p q i j := by
  apply control_mem R hr hc
  by_cases h : p = c
  · exact ⟨q, by simp, by rw [← h]; exact ne_of_gt hpq⟩
  · exact ⟨p, by simp, h⟩

theorem planes_ends (R : Rounding rnd u) {p q i j : 𝕜} (hr : Rep rnd [p, q, i, j]) (hpq : p < q) (hi : p ≤ i)
    (hij : i ≤ j) (hj : j ≤ q) :
    ∃ hne : planesInDirection rnd p q i j ≠ [], (planesInDirection rnd p q i j).head hne = p ∧
      (planesInDirection rnd p q i j).getLast hne = q := by
  have hb := sides_between hpq hi hij hj
  have hp : p ∈ planesInDirection rnd p q i j := side_mem R hr hpq (by simp)
  have hq : q ∈ planesInDirection rnd p q i j := side_mem R hr hpq (by simp)
  have hne : planesInDirection rnd p q i j ≠ [] := List.ne_nil_of_mem hp
  have hs := planes_sorted (rnd := rnd) p q i j
  refine ⟨hne, ?_, ?_⟩
  · apply le_antisymm _ (planes_between R hr hb (List.head_mem hne)).1
    rcases List.mem_iff_getElem.mp hp with ⟨n, hn, e⟩
    rw [List.head_eq_getElem]
    refine le_of_le_of_eq ?_ e
    rcases Nat.eq_zero_or_pos n with h | h
    · subst h; exact le_refl _
    · exact le_of_lt (List.pairwise_iff_getElem.mp hs 0 n (by omega) hn h)
  · apply le_antisymm (planes_between R hr hb (List.getLast_mem hne)).2
    rcases List.mem_iff_getElem.mp hq with ⟨n, hn, e⟩
    rw [List.getLast_eq_getElem]
    refine le_of_eq_of_le e.symm ?_
    rcases Nat.lt_or_ge n ((planesInDirection rnd p q i j).length - 1) with h | h
    · exact le_of_lt (List.pairwise_iff_getElem.mp hs n _ hn (by omega) h)
    · have : n = (planesInDirection rnd p q i j).length - 1 := by omega
      subst this; exact le_refl _

theorem good_planes (R : Rounding rnd u) {p q i j M : 𝕜} (hr : Rep rnd [p, q, i, j]) (hM : ∀ c ∈ [p, q, i, j], |c| ≤ M)
    (hpq : p < q) (hi : p ≤ i) (hij : i ≤ j) (hj : j ≤ q) :
    RoundedPlanes rnd u M 100 p q i j (planesInDirection rnd p q i j) := by
  obtain ⟨hne, e1, e2⟩ := planes_ends R hr hpq hi hij hj
  have hM0 : 0 ≤ u * M := mul_nonneg R.pos (le_trans (abs_nonneg _) (hM p (by simp)))
  refine ⟨planes_sorted _ _ _ _, ?_, ?_, side_mem R hr hpq (by simp), side_mem R hr hpq (by simp),
    fun x hx => planes_rep R hr hx, ?_⟩
  · rw [List.head?_eq_some_head hne, e1]
  · rw [List.getLast?_eq_some_getLast hne, e2]
  · intro a ha b hb hab hcons
    have hsort : (SSet.ofList [p, q, i, j]).Pairwise (· < ·) := SSet.sorted_ofList _
    have hgap : (a, b) ∈ gaps (SSet.ofList [p, q, i, j]) :=
      gap_of hsort (SSet.mem_ofList.mpr ha) (SSet.mem_ofList.mpr hb) hab
        (fun c hc => hcons c (SSet.mem_ofList.mp hc))
    have near0 : |a - (a + ((0 : Nat) : 𝕜) * ((b - a) / ((100 : Nat) : 𝕜)))| ≤ 8 * (u * M) := by
      rw [Nat.cast_zero, zero_mul, add_zero, sub_self, abs_zero]
      linarith
    have near1 : |b - (a + ((100 : Nat) : 𝕜) * ((b - a) / ((100 : Nat) : 𝕜)))| ≤ 8 * (u * M) := by
      have h100 : ((100 : Nat) : 𝕜) ≠ 0 := by norm_num
      rw [mul_div_cancel₀ _ h100, add_sub_cancel, sub_self, abs_zero]
      linarith
    have nearK : ∀ k : Nat, k < samplingPoints →
        |newPoint rnd a b k - (a + (k : 𝕜) * ((b - a) / ((100 : Nat) : 𝕜)))| ≤ 8 * (u * M) := by
      intro k hk
      have := newPoint_err R (le_of_lt hab) (hM a ha) (hM b hb) hk
      simpa using this
    constructor
    · intro x hx h1 h2
      obtain ⟨c, d, hcd, hk⟩ := (mem_planes R hr).mp hx
      obtain ⟨g1, g2, g3, g4⟩ := gap_spec hsort hcd
      have g1' := SSet.mem_ofList.mp g1
      have g2' := SSet.mem_ofList.mp g2
      have hcx : c ≤ x ∧ x ≤ d := by
        rcases hk with rfl | rfl | ⟨k, hk, -, rfl⟩
        · exact ⟨le_refl _, le_of_lt g3⟩
        · exact ⟨le_of_lt g3, le_refl _⟩
        · exact newPoint_between R (hr c g1') (hr d g2') (le_of_lt g3) hk
      rcases hcons c g1' with hc | hc
      · rcases hcons d g2' with hd | hd
        · have : x = a := le_antisymm (le_trans hcx.2 hd) h1
          exact ⟨0, by norm_num, by rw [this]; exact near0⟩
        · have hca : c = a := by
            rcases g4 a (SSet.mem_ofList.mpr ha) with h | h
            · exact le_antisymm hc h
            · exact absurd (lt_of_lt_of_le hab hd) (not_lt.mpr h)
          have hdb : d = b := by
            rcases g4 b (SSet.mem_ofList.mpr hb) with h | h
            · exact absurd hab (not_lt.mpr (le_trans h hc))
            · exact le_antisymm h hd
          subst hca hdb
          rcases hk with rfl | rfl | ⟨k, hk, -, rfl⟩
          · exact ⟨0, by norm_num, near0⟩
          · exact ⟨100, le_refl _, near1⟩
          · exact ⟨k, le_of_lt hk, nearK k hk⟩
      · have : x = b := le_antisymm h2 (le_trans hc hcx.1)
        exact ⟨100, le_refl _, by rw [this]; exact near1⟩
    · intro k hk
      rcases lt_or_eq_of_le hk with hk | rfl
      · obtain ⟨n1, n2⟩ := newPoint_between R (hr a ha) (hr b hb) (le_of_lt hab) hk
        refine ⟨newPoint rnd a b k, (mem_planes R hr).mpr ⟨a, b, hgap, ?_⟩, n1, n2, nearK k hk⟩
        by_cases h0 : k = 0
        · left; rw [h0, newPoint_zero R (hr a ha)]
        · exact Or.inr (Or.inr ⟨k, hk, h0, rfl⟩)
      · exact ⟨b, (mem_planes R hr).mpr ⟨a, b, hgap, Or.inr (Or.inl rfl)⟩, le_of_lt hab, le_refl _, near1⟩

/-! ## Cells -/

/-- The computed midpoint of a cell and a side: on the same side as the cell. -/
theorem mid_side (R : Rounding rnd u) {p q i j M : 𝕜} (hr : Rep rnd [p, q, i, j]) (hM : ∀ c ∈ [p, q, i, j], |c| ≤ M)
    (hpq : p < q) (hi : p ≤ i) (hij : i ≤ j) (hj : j ≤ q)
    (hgap : ∀ a ∈ [p, q, i, j], ∀ b ∈ [p, q, i, j], a < b → 1000 * (u * M) ≤ b - a)
    {g : 𝕜 × 𝕜} (hg : g ∈ gaps (planesInDirection rnd p q i j)) {c : 𝕜} (hc : c ∈ [p, q, i, j]) :
    (c ≤ mid rnd g ↔ c ≤ g.1) ∧ (mid rnd g ≤ c ↔ g.2 ≤ c) := by
  obtain ⟨a, b⟩ := g
  obtain ⟨h1, h2, h3, h4⟩ := gap_spec (planes_sorted p q i j) hg
  obtain ⟨m1, m2⟩ := mid_between R (planes_rep R hr h1) (planes_rep R hr h2) (le_of_lt h3)
  have hb := sides_between hpq hi hij hj
  have bound : ∀ x, x ∈ planesInDirection rnd p q i j → |x| ≤ M := by
    intro x hx
    obtain ⟨k1, k2⟩ := planes_between R hr hb hx
    have e1 := abs_le.mp (hM p (by simp))
    have e2 := abs_le.mp (hM q (by simp))
    rw [abs_le]
    constructor <;> linarith
  have he := abs_le.mp (mid_err R (bound a h1) (bound b h2))
  have hup : c ≤ a → c < mid rnd (a, b) := by
    intro h
    obtain ⟨g, g0, g1, g2⟩ := away R hr hM hgap h2 hc (ne_of_gt (lt_of_le_of_lt h h3))
    rcases g2 with g2 | g2
    · linarith
    · linarith
  have hdn : b ≤ c → mid rnd (a, b) < c := by
    intro h
    obtain ⟨g, g0, g1, g2⟩ := away R hr hM hgap h1 hc (ne_of_lt (lt_of_lt_of_le h3 h))
    rcases g2 with g2 | g2
    · linarith
    · linarith
  have h4c := h4 c (side_mem R hr hpq hc)
  simp only
  constructor
  · constructor
    · intro h
      rcases h4c with k | k
      · exact k
      · exact absurd (hdn k) (not_lt.mpr h)
    · exact fun h => le_of_lt (hup h)
  · constructor
    · intro h
      rcases h4c with k | k
      · exact absurd (hup k) (not_lt.mpr h)
      · exact k
    · exact fun h => le_of_lt (hdn h)

end Tulip.RoundedGrid

namespace Tulip.Props
open Tulip Tulip.Spec InCellPotentials RoundedGrid
variable {𝕜 : Type _} [Field 𝕜] [DecidableEq 𝕜] [LinearOrder 𝕜] [IsStrictOrderedRing 𝕜]

theorem rep_sides {rnd : 𝕜 → 𝕜} {box inner : Box 𝕜} (hb : RepresentableBox rnd box) (hi : RepresentableBox rnd inner) :
    Rep rnd [box.min.1, box.max.1, inner.min.1, inner.max.1] ∧
      Rep rnd [box.min.2, box.max.2, inner.min.2, inner.max.2] := by
  constructor <;> intro c hc <;> simp only [List.mem_cons, List.not_mem_nil, or_false] at hc
  · rcases hc with rfl | rfl | rfl | rfl
    exacts [hb.1, hb.2.1, hi.1, hi.2.1]
  · rcases hc with rfl | rfl | rfl | rfl
    exacts [hb.2.2.1, hb.2.2.2, hi.2.2.1, hi.2.2.2]

theorem bound_sides {M : 𝕜} {box inner : Box 𝕜} (hc : BoxContains box inner) (hv : BoxValid inner)
    (hb : BoundedBox M box) :
    (∀ c ∈ [box.min.1, box.max.1, inner.min.1, inner.max.1], |c| ≤ M) ∧
      (∀ c ∈ [box.min.2, box.max.2, inner.min.2, inner.max.2], |c| ≤ M) := by
  obtain ⟨b1, b2, b3, b4⟩ := hb
  obtain ⟨c1, c2, c3, c4⟩ := hc
  obtain ⟨v1, v2⟩ := hv
  rw [abs_le] at b1 b2 b3 b4
  constructor <;> intro c hc <;> simp only [List.mem_cons, List.not_mem_nil, or_false] at hc <;> rw [abs_le]
  · rcases hc with rfl | rfl | rfl | rfl <;> constructor <;> linarith
  · rcases hc with rfl | rfl | rfl | rfl <;> constructor <;> linarith

/-- **C111, planes.** In any binary arithmetic with relative error at most `u ≤ 1/1000`, for every box with positive
sides that contains the inner region, all sides representable and of size at most `M`: the planes computed in both
directions are strictly increasing and representable, run exactly from side to side of the box through the sides of the
inner region, and divide every gap between consecutive distinct sides in 100 equal parts up to `8 u M`. -/
theorem C111_planes {rnd : 𝕜 → 𝕜} {u M : 𝕜} (R : Rounding rnd u) (box inner : Box 𝕜) (hc : BoxContains box inner)
    (hv : BoxValid inner) (h1 : box.min.1 < box.max.1) (h2 : box.min.2 < box.max.2)
    (hrb : RepresentableBox rnd box) (hri : RepresentableBox rnd inner) (hM : BoundedBox M box) :
    ∃ xs ys, RoundedGrid.buildIntegrationPlanesForBox rnd box inner = .ok (xs, ys) ∧
      RoundedPlanes rnd u M 100 box.min.1 box.max.1 inner.min.1 inner.max.1 xs ∧
      RoundedPlanes rnd u M 100 box.min.2 box.max.2 inner.min.2 inner.max.2 ys := by
  obtain ⟨r1, r2⟩ := rep_sides hrb hri
  obtain ⟨m1, m2⟩ := bound_sides hc hv hM
  refine ⟨_, _, ?_, good_planes R r1 m1 h1 hc.1 hv.1 hc.2.1, good_planes R r2 m2 h2 hc.2.2.1 hv.2 hc.2.2.2⟩
  unfold RoundedGrid.buildIntegrationPlanesForBox
  rw [if_neg (by rintro (h | h); exacts [absurd h (not_lt.mpr hc.1), absurd h (not_lt.mpr hc.2.1)]),
    if_neg (by rintro (h | h); exacts [absurd h (not_lt.mpr hc.2.2.1), absurd h (not_lt.mpr hc.2.2.2)])]

/-! ## Averages -/

theorem abs_sum_sub_le {α : Type _} (f g h : α → 𝕜) : ∀ (l : List α), (∀ x ∈ l, |f x - g x| ≤ h x) →
    |(l.map f).sum - (l.map g).sum| ≤ (l.map h).sum
  | [], _ => by simp
  | x :: l, hl => by
    simp only [List.map_cons, List.sum_cons]
    have h1 := abs_sum_sub_le f g h l (fun y hy => hl y (by simp [hy]))
    have h2 := hl x (by simp)
    rw [show f x + (l.map f).sum - (g x + (l.map g).sum) = (f x - g x) + ((l.map f).sum - (l.map g).sum) by ring]
    exact le_trans (abs_add_le _ _) (add_le_add h2 h1)

theorem sum_le {α : Type _} (f g : α → 𝕜) : ∀ (l : List α), (∀ x ∈ l, f x ≤ g x) →
    (l.map f).sum ≤ (l.map g).sum
  | [], _ => by simp
  | x :: l, hl => by
    simp only [List.map_cons, List.sum_cons]
    exact add_le_add (hl x (by simp)) (sum_le f g l (fun y hy => hl y (by simp [hy])))

/-- Sum over the cells outside the inner box of a product of functions of one coordinate with known primitives along
the cells, for any planes through the sides. -/
theorem outside_lists (inner : Box 𝕜) (hv : BoxValid inner) {xs ys : List 𝕜} (sx : xs.Pairwise (· < ·))
    (sy : ys.Pairwise (· < ·)) (nx : xs ≠ []) (ny : ys ≠ []) (mx : inner.min.1 ∈ xs ∧ inner.max.1 ∈ xs)
    (my : inner.min.2 ∈ ys ∧ inner.max.2 ∈ ys) (f g F G : 𝕜 → 𝕜)
    (hF : ∀ a b, (b - a) * f (1 / 2 * (a + b)) = F b - F a) (hG : ∀ a b, (b - a) * g (1 / 2 * (a + b)) = G b - G a) :
    ((gaps xs).map (fun gx => ((gaps ys).map (fun gy =>
        cellVal inner (fun p => f p.1 * g p.2) gx gy)).sum)).sum =
      (F (xs.getLast nx) - F (xs.head nx)) * (G (ys.getLast ny) - G (ys.head ny)) -
        (F inner.max.1 - F inner.min.1) * (G inner.max.2 - G inner.min.2) := by
  let ix : 𝕜 × 𝕜 → 𝕜 := fun pq => if inner.min.1 ≤ (1 / 2) * (pq.1 + pq.2) ∧ (1 / 2) * (pq.1 + pq.2) ≤ inner.max.1
    then F pq.2 - F pq.1 else 0
  let iy : 𝕜 × 𝕜 → 𝕜 := fun pq => if inner.min.2 ≤ (1 / 2) * (pq.1 + pq.2) ∧ (1 / 2) * (pq.1 + pq.2) ≤ inner.max.2
    then G pq.2 - G pq.1 else 0
  have hval : ∀ gx gy, cellVal inner (fun p => f p.1 * g p.2) gx gy =
      (F gx.2 - F gx.1) * (G gy.2 - G gy.1) - ix gx * iy gy := by
    intro gx gy
    simp only [ix, iy]
    have e : (gx.2 - gx.1) * (gy.2 - gy.1) * (f (1 / 2 * (gx.1 + gx.2)) * g (1 / 2 * (gy.1 + gy.2))) =
        (F gx.2 - F gx.1) * (G gy.2 - G gy.1) := by
      rw [← hF, ← hG]; ring
    unfold cellVal
    by_cases ha : inner.min.1 ≤ (1 / 2) * (gx.1 + gx.2) ∧ (1 / 2) * (gx.1 + gx.2) ≤ inner.max.1
    · by_cases hb : inner.min.2 ≤ (1 / 2) * (gy.1 + gy.2) ∧ (1 / 2) * (gy.1 + gy.2) ≤ inner.max.2
      · rw [if_pos (show InBox inner (cellMid gx gy) from ⟨ha.1, ha.2, hb.1, hb.2⟩), if_pos ha, if_pos hb, sub_self]
      · rw [if_neg (show ¬ InBox inner (cellMid gx gy) from fun h => hb ⟨h.2.2.1, h.2.2.2⟩), if_neg hb, mul_zero,
          sub_zero]
        exact e
    · rw [if_neg (show ¬ InBox inner (cellMid gx gy) from fun h => ha ⟨h.1, h.2.1⟩), if_neg ha, zero_mul, sub_zero]
      exact e
  simp only [hval, grid_sum_map_sub]
  rw [sum_sum_mul (gaps xs) (gaps ys) (fun g => F g.2 - F g.1) (fun g => G g.2 - G g.1), sum_sum_mul]
  rw [telescope F xs nx, telescope G ys ny, inside_sum F sx nx mx.1 mx.2 hv.1, inside_sum G sy ny my.1 my.2 hv.2]

/-- What a cell adds, up to rounding. -/
def roundedCell (rnd : 𝕜 → 𝕜) (inner : Box 𝕜) (v : 𝕜 × 𝕜 → 𝕜) (gx gy : 𝕜 × 𝕜) : 𝕜 :=
  if InBox inner (RoundedGrid.mid rnd gx, RoundedGrid.mid rnd gy) then 0
  else (gx.2 - gx.1) * (gy.2 - gy.1) * v (RoundedGrid.mid rnd gx, RoundedGrid.mid rnd gy)

/-- The computed average, up to the roundings after the midpoints. -/
theorem rounded_average {rnd : 𝕜 → 𝕜} {u : 𝕜} (R : Rounding rnd u) (e : Expansion 𝕜) (f : FieldReconstruction 𝕜)
    (box inner : Box 𝕜) (hc : BoxContains box inner) (hv : BoxValid inner) (h1 : box.min.1 < box.max.1)
    (h2 : box.min.2 < box.max.2) (hrb : RepresentableBox rnd box) (hri : RepresentableBox rnd inner) (v : 𝕜 × 𝕜 → 𝕜)
    (hev : ∀ p, InBox box p → ¬ InBox inner p → e p f.ab f.expansionCenter = .ok (v p)) :
    let xs := RoundedGrid.planesInDirection rnd box.min.1 box.max.1 inner.min.1 inner.max.1
    let ys := RoundedGrid.planesInDirection rnd box.min.2 box.max.2 inner.min.2 inner.max.2
    ∃ r, RoundedGrid.getAveragePotential rnd e f inner box = .ok r ∧
      |r - (f.innerRegionAveragePotential * inner.area +
          ((gaps xs).map (fun gx => ((gaps ys).map (fun gy => roundedCell rnd inner v gx gy)).sum)).sum) / box.area| ≤
        (growth u 100000 - 1) * ((|f.innerRegionAveragePotential| * inner.area +
          ((gaps xs).map (fun gx => ((gaps ys).map (fun gy => |roundedCell rnd inner v gx gy|)).sum)).sum) /
            box.area) := by
  intro xs ys
  obtain ⟨r1, r2⟩ := rep_sides hrb hri
  have b1 := sides_between h1 hc.1 hv.1 hc.2.1
  have b2 := sides_between h2 hc.2.2.1 hv.2 hc.2.2.2
  have hmid : ∀ {p q i j : 𝕜}, Rep rnd [p, q, i, j] → (∀ c ∈ [p, q, i, j], p ≤ c ∧ c ≤ q) →
      ∀ g ∈ gaps (RoundedGrid.planesInDirection rnd p q i j), p ≤ RoundedGrid.mid rnd g ∧ RoundedGrid.mid rnd g ≤ q := by
    rintro p q i j hr hb ⟨a, b⟩ hg
    obtain ⟨k1, k2, k3, -⟩ := gap_spec (RoundedGrid.planes_sorted p q i j) hg
    obtain ⟨m1, m2⟩ := mid_between R (planes_rep R hr k1) (planes_rep R hr k2) (le_of_lt k3)
    exact ⟨le_trans (RoundedGrid.planes_between R hr hb k1).1 m1,
      le_trans m2 (RoundedGrid.planes_between R hr hb k2).2⟩
  have hcell : ∀ gx ∈ gaps xs, ∀ gy ∈ gaps ys, ∀ n S T s, 4 ≤ n → Near u n S T s →
      ∃ s', RoundedGrid.cellStep rnd e f inner gx gy s = .ok s' ∧
        Near u (n + 1) (S + roundedCell rnd inner v gx gy) (T + |roundedCell rnd inner v gx gy|) s' := by
    intro gx hgx gy hgy n S T s hn hs
    have m1 := hmid r1 b1 gx hgx
    have m2 := hmid r2 b2 gy hgy
    have l1 := (gap_spec (RoundedGrid.planes_sorted _ _ _ _) hgx).2.2.1
    have l2 := (gap_spec (RoundedGrid.planes_sorted _ _ _ _) hgy).2.2.1
    unfold RoundedGrid.cellStep roundedCell
    simp only
    by_cases h : InBox inner (RoundedGrid.mid rnd gx, RoundedGrid.mid rnd gy)
    · refine ⟨s, by rw [if_pos ((isWithin_iff inner _).mpr h)], ?_⟩
      rw [if_pos h, abs_zero, add_zero, add_zero]
      exact hs.up R (by omega)
    · rw [if_neg (fun h' => h ((isWithin_iff inner _).mp h')), if_neg h,
        hev _ ⟨m1.1, m1.2, m2.1, m2.2⟩ h]
      refine ⟨_, rfl, ?_⟩
      apply Near.round R
      apply Near.add hs
      generalize v (RoundedGrid.mid rnd gx, RoundedGrid.mid rnd gy) = w
      have ha : Near u 3 ((gx.2 - gx.1) * (gy.2 - gy.1)) (|gx.2 - gx.1| * |gy.2 - gy.1|)
        (RoundedGrid.cellArea rnd gx gy) := area_near R _ _
      have hw := (ha.mul R (Near.self R 0 w)).round R
      rw [abs_mul, abs_mul]
      exact hw.up R (by omega)
  have hrow : ∀ gx ∈ gaps xs, ∀ n S T s, 4 ≤ n → Near u n S T s →
      ∃ s', forEach (fun gy s => RoundedGrid.cellStep rnd e f inner gx gy s) (gaps ys) s = .ok s' ∧
        Near u (n + 1 * (gaps ys).length) (S + ((gaps ys).map (fun gy => roundedCell rnd inner v gx gy)).sum)
          (T + ((gaps ys).map (fun gy => |roundedCell rnd inner v gx gy|)).sum) s' := by
    intro gx hgx n S T s hn hs
    exact forEach_near _ _ _ 1 4 _ (fun gy hgy => hcell gx hgx gy hgy) n S T s hn hs
  obtain ⟨o, ho, hnear⟩ := forEach_near _ _ _ _ 4 (gaps xs) hrow 4 0 |0| 0 (le_refl _) (Near.self R 4 0)
  rw [abs_zero, zero_add, zero_add] at hnear
  have hi : Near u 4 (f.innerRegionAveragePotential * inner.area) (|f.innerRegionAveragePotential| * inner.area)
      (rnd (f.innerRegionAveragePotential * RoundedGrid.boxArea rnd inner)) := by
    have ha := area_near R (inner.max.1 - inner.min.1) (inner.max.2 - inner.min.2)
    rw [abs_of_nonneg (sub_nonneg.mpr hv.1), abs_of_nonneg (sub_nonneg.mpr hv.2)] at ha
    exact (((Near.self R 0 f.innerRegionAveragePotential).mul R ha).round R)
  have lx : xs.length ≤ 303 := planes_length (rnd := rnd) box.min.1 box.max.1 inner.min.1 inner.max.1
  have ly : ys.length ≤ 303 := planes_length (rnd := rnd) box.min.2 box.max.2 inner.min.2 inner.max.2
  have lx' : (gaps xs).length ≤ 302 := by rw [gaps_length]; omega
  have ly' : (gaps ys).length ≤ 302 := by rw [gaps_length]; omega
  have hcount : 4 + 1 * (gaps ys).length * (gaps xs).length ≤ 91208 := by
    have := Nat.mul_le_mul ly' lx'
    rw [Nat.one_mul]
    omega
  have hsum := ((hi.up R (by omega : 4 ≤ 91208)).add (hnear.up R hcount)).round R
  have hA : 0 < box.area := mul_pos (sub_pos.mpr h1) (sub_pos.mpr h2)
  obtain ⟨g1, g2⟩ := area_growth R (le_of_lt (sub_pos.mpr h1)) (le_of_lt (sub_pos.mpr h2))
  have hinv : Near u 3 box.area⁻¹ box.area⁻¹ (RoundedGrid.boxArea rnd box)⁻¹ := Near.inv R hA g1 g2
  have hB : RoundedGrid.boxArea rnd box ≠ 0 := by
    intro h0
    have : box.area ≤ growth u 3 * RoundedGrid.boxArea rnd box := g1
    rw [h0, mul_zero] at this
    linarith
  have hfin := ((hsum.mul R hinv).round R).up R (by norm_num : 91208 + 1 + 3 + 1 ≤ 100000)
  refine ⟨rnd (rnd (rnd (f.innerRegionAveragePotential * RoundedGrid.boxArea rnd inner) + o) /
    RoundedGrid.boxArea rnd box), ?_, ?_⟩
  rotate_left
  · have := hfin.2
    rw [← div_eq_mul_inv, ← div_eq_mul_inv, ← div_eq_mul_inv] at this
    exact this
  · unfold RoundedGrid.getAveragePotential RoundedGrid.buildIntegrationPlanesForBox
    rw [if_neg (by rintro (h | h); exacts [absurd h (not_lt.mpr hc.1), absurd h (not_lt.mpr hc.2.1)]),
      if_neg (by rintro (h | h); exacts [absurd h (not_lt.mpr hc.2.2.1), absurd h (not_lt.mpr hc.2.2.2)])]
    rw [Outcome.ok_bind]
    simp only
    rw [ho, Outcome.ok_bind]
    unfold divide
    rw [if_neg hB]
    rfl

/-- The computed average against a sum over the cells of a function `V` at their exact midpoints. -/
theorem rounded_cells {rnd : 𝕜 → 𝕜} {u M : 𝕜} (R : Rounding rnd u) (e : Expansion 𝕜) (f : FieldReconstruction 𝕜)
    (box inner : Box 𝕜) (hc : BoxContains box inner) (hv : BoxValid inner) (h1 : box.min.1 < box.max.1)
    (h2 : box.min.2 < box.max.2) (hrb : RepresentableBox rnd box) (hri : RepresentableBox rnd inner)
    (hM : BoundedBox M box) (hd : SidesApart (1000 * (u * M)) box inner) (v V : 𝕜 × 𝕜 → 𝕜) (D K : 𝕜)
    (hev : ∀ p, InBox box p → ¬ InBox inner p → e p f.ab f.expansionCenter = .ok (v p) ∧ |v p| ≤ K)
    (hV : ∀ gx ∈ gaps (RoundedGrid.planesInDirection rnd box.min.1 box.max.1 inner.min.1 inner.max.1),
      ∀ gy ∈ gaps (RoundedGrid.planesInDirection rnd box.min.2 box.max.2 inner.min.2 inner.max.2), ∀ p : 𝕜 × 𝕜,
      InBox box p → ¬ InBox inner p → ¬ InBox inner (cellMid gx gy) → gx.1 ≤ p.1 → p.1 ≤ gx.2 → gy.1 ≤ p.2 → p.2 ≤ gy.2 →
      |p.1 - 1 / 2 * (gx.1 + gx.2)| ≤ u * M → |p.2 - 1 / 2 * (gy.1 + gy.2)| ≤ u * M → |v p - V (cellMid gx gy)| ≤ D)
    (hK : |f.innerRegionAveragePotential| ≤ K) :
    ∃ r, RoundedGrid.getAveragePotential rnd e f inner box = .ok r ∧
      |r - (f.innerRegionAveragePotential * inner.area +
        ((gaps (RoundedGrid.planesInDirection rnd box.min.1 box.max.1 inner.min.1 inner.max.1)).map (fun gx =>
          ((gaps (RoundedGrid.planesInDirection rnd box.min.2 box.max.2 inner.min.2 inner.max.2)).map (fun gy =>
            cellVal inner V gx gy)).sum)).sum) / box.area| ≤
      D * (box.area - inner.area) / box.area + (((1 - u)⁻¹) ^ 100000 - 1) * K := by
  obtain ⟨r1, r2⟩ := rep_sides hrb hri
  obtain ⟨m1, m2⟩ := bound_sides hc hv hM
  have b1 := sides_between h1 hc.1 hv.1 hc.2.1
  have b2 := sides_between h2 hc.2.2.1 hv.2 hc.2.2.2
  obtain ⟨r, er, hr⟩ := rounded_average R e f box inner hc hv h1 h2 hrb hri v (fun p hp hq => (hev p hp hq).1)
  refine ⟨r, er, ?_⟩
  obtain ⟨nx, ax, bx⟩ := RoundedGrid.planes_ends R r1 h1 hc.1 hv.1 hc.2.1
  obtain ⟨ny, ay, bY⟩ := RoundedGrid.planes_ends R r2 h2 hc.2.2.1 hv.2 hc.2.2.2
  have sx := RoundedGrid.planes_sorted (rnd := rnd) box.min.1 box.max.1 inner.min.1 inner.max.1
  have sy := RoundedGrid.planes_sorted (rnd := rnd) box.min.2 box.max.2 inner.min.2 inner.max.2
  have mx : inner.min.1 ∈ RoundedGrid.planesInDirection rnd box.min.1 box.max.1 inner.min.1 inner.max.1 ∧
      inner.max.1 ∈ RoundedGrid.planesInDirection rnd box.min.1 box.max.1 inner.min.1 inner.max.1 :=
    ⟨side_mem R r1 h1 (by simp), side_mem R r1 h1 (by simp)⟩
  have my : inner.min.2 ∈ RoundedGrid.planesInDirection rnd box.min.2 box.max.2 inner.min.2 inner.max.2 ∧
      inner.max.2 ∈ RoundedGrid.planesInDirection rnd box.min.2 box.max.2 inner.min.2 inner.max.2 :=
    ⟨side_mem R r2 h2 (by simp), side_mem R r2 h2 (by simp)⟩
  have sides1 : ∀ g ∈ gaps (RoundedGrid.planesInDirection rnd box.min.1 box.max.1 inner.min.1 inner.max.1),
      ∀ d ∈ [box.min.1, box.max.1, inner.min.1, inner.max.1],
        (d ≤ RoundedGrid.mid rnd g ↔ d ≤ g.1) ∧ (RoundedGrid.mid rnd g ≤ d ↔ g.2 ≤ d) :=
    fun g hg d hd' => mid_side R r1 m1 h1 hc.1 hv.1 hc.2.1 hd.1 hg hd'
  have sides2 : ∀ g ∈ gaps (RoundedGrid.planesInDirection rnd box.min.2 box.max.2 inner.min.2 inner.max.2),
      ∀ d ∈ [box.min.2, box.max.2, inner.min.2, inner.max.2],
        (d ≤ RoundedGrid.mid rnd g ↔ d ≤ g.1) ∧ (RoundedGrid.mid rnd g ≤ d ↔ g.2 ≤ d) :=
    fun g hg d hd' => mid_side R r2 m2 h2 hc.2.2.1 hv.2 hc.2.2.2 hd.2 hg hd'
  have bound1 : ∀ x ∈ RoundedGrid.planesInDirection rnd box.min.1 box.max.1 inner.min.1 inner.max.1, |x| ≤ M := by
    intro x hx
    obtain ⟨k1, k2⟩ := RoundedGrid.planes_between R r1 b1 hx
    have e1 := abs_le.mp hM.1
    have e2 := abs_le.mp hM.2.1
    rw [abs_le]; constructor <;> linarith
  have bound2 : ∀ x ∈ RoundedGrid.planesInDirection rnd box.min.2 box.max.2 inner.min.2 inner.max.2, |x| ≤ M := by
    intro x hx
    obtain ⟨k1, k2⟩ := RoundedGrid.planes_between R r2 b2 hx
    have e1 := abs_le.mp hM.2.2.1
    have e2 := abs_le.mp hM.2.2.2
    rw [abs_le]; constructor <;> linarith
  have rep1 : ∀ x ∈ RoundedGrid.planesInDirection rnd box.min.1 box.max.1 inner.min.1 inner.max.1, rnd x = x :=
    fun x hx => planes_rep R r1 hx
  have rep2 : ∀ x ∈ RoundedGrid.planesInDirection rnd box.min.2 box.max.2 inner.min.2 inner.max.2, rnd x = x :=
    fun x hx => planes_rep R r2 hx
  generalize RoundedGrid.planesInDirection rnd box.min.1 box.max.1 inner.min.1 inner.max.1 = xs at *
  generalize RoundedGrid.planesInDirection rnd box.min.2 box.max.2 inner.min.2 inner.max.2 = ys at *
  -- each cell against the exact value at its exact midpoint
  have hcell : ∀ gx ∈ gaps xs, ∀ gy ∈ gaps ys,
      |roundedCell rnd inner v gx gy - cellVal inner V gx gy| ≤
        D * cellVal inner (fun _ => 1) gx gy ∧
      |roundedCell rnd inner v gx gy| ≤ K * cellVal inner (fun _ => 1) gx gy := by
    rintro ⟨x1, x2⟩ hgx ⟨y1, y2⟩ hgy
    obtain ⟨kx1, kx2, kx3, kx4⟩ := gap_spec sx hgx
    obtain ⟨ky1, ky2, ky3, ky4⟩ := gap_spec sy hgy
    have hin : InBox inner (RoundedGrid.mid rnd (x1, x2), RoundedGrid.mid rnd (y1, y2)) ↔
        InBox inner (cellMid (x1, x2) (y1, y2)) := by
      unfold InBox cellMid
      simp only
      rw [(sides1 _ hgx inner.min.1 (by simp)).1, (sides1 _ hgx inner.max.1 (by simp)).2,
        (sides2 _ hgy inner.min.2 (by simp)).1, (sides2 _ hgy inner.max.2 (by simp)).2]
      simp only
      have c1 := kx4 inner.min.1 mx.1
      have c2 := kx4 inner.max.1 mx.2
      have c3 := ky4 inner.min.2 my.1
      have c4 := ky4 inner.max.2 my.2
      have q1 : inner.min.1 ≤ x1 ↔ inner.min.1 ≤ 1 / 2 * (x1 + x2) := by
        constructor
        · intro h; linarith
        · intro h; rcases c1 with k | k
          · exact k
          · linarith
      have q2 : x2 ≤ inner.max.1 ↔ 1 / 2 * (x1 + x2) ≤ inner.max.1 := by
        constructor
        · intro h; linarith
        · intro h; rcases c2 with k | k
          · linarith
          · exact k
      have q3 : inner.min.2 ≤ y1 ↔ inner.min.2 ≤ 1 / 2 * (y1 + y2) := by
        constructor
        · intro h; linarith
        · intro h; rcases c3 with k | k
          · exact k
          · linarith
      have q4 : y2 ≤ inner.max.2 ↔ 1 / 2 * (y1 + y2) ≤ inner.max.2 := by
        constructor
        · intro h; linarith
        · intro h; rcases c4 with k | k
          · linarith
          · exact k
      rw [q1, q2, q3, q4]
    have area0 : 0 < (x2 - x1) * (y2 - y1) := mul_pos (sub_pos.mpr kx3) (sub_pos.mpr ky3)
    unfold roundedCell cellVal
    by_cases h : InBox inner (cellMid (x1, x2) (y1, y2))
    · rw [if_pos (hin.mpr h), if_pos h, if_pos h]
      simp
    · rw [if_neg (fun h' => h (hin.mp h')), if_neg h, if_neg h]
      have hbox : InBox box (RoundedGrid.mid rnd (x1, x2), RoundedGrid.mid rnd (y1, y2)) := by
        have w1 : box.min.1 ≤ x1 := by
          rw [← ax]
          rcases List.mem_iff_getElem.mp kx1 with ⟨i, hi, rfl⟩
          rw [List.head_eq_getElem]
          rcases Nat.eq_zero_or_pos i with h | h
          · subst h; exact le_refl _
          · exact le_of_lt (List.pairwise_iff_getElem.mp sx 0 i (by omega) hi h)
        have w2 : x2 ≤ box.max.1 := by
          rw [← bx]
          rcases List.mem_iff_getElem.mp kx2 with ⟨i, hi, rfl⟩
          rw [List.getLast_eq_getElem]
          rcases Nat.lt_or_ge i (xs.length - 1) with h | h
          · exact le_of_lt (List.pairwise_iff_getElem.mp sx i (xs.length - 1) hi (by omega) h)
          · have : i = xs.length - 1 := by omega
            subst this; exact le_refl _
        have w3 : box.min.2 ≤ y1 := by
          rw [← ay]
          rcases List.mem_iff_getElem.mp ky1 with ⟨i, hi, rfl⟩
          rw [List.head_eq_getElem]
          rcases Nat.eq_zero_or_pos i with h | h
          · subst h; exact le_refl _
          · exact le_of_lt (List.pairwise_iff_getElem.mp sy 0 i (by omega) hi h)
        have w4 : y2 ≤ box.max.2 := by
          rw [← bY]
          rcases List.mem_iff_getElem.mp ky2 with ⟨i, hi, rfl⟩
          rw [List.getLast_eq_getElem]
          rcases Nat.lt_or_ge i (ys.length - 1) with h | h
          · exact le_of_lt (List.pairwise_iff_getElem.mp sy i (ys.length - 1) hi (by omega) h)
          · have : i = ys.length - 1 := by omega
            subst this; exact le_refl _
        exact ⟨(sides1 _ hgx _ (by simp)).1.mpr w1, (sides1 _ hgx _ (by simp)).2.mpr w2,
          (sides2 _ hgy _ (by simp)).1.mpr w3, (sides2 _ hgy _ (by simp)).2.mpr w4⟩
      have hout := fun h' => h (hin.mp h')
      obtain ⟨-, hKv⟩ := hev _ hbox hout
      have ex := mid_err R (bound1 x1 kx1) (bound1 x2 kx2)
      have ey := mid_err R (bound2 y1 ky1) (bound2 y2 ky2)
      obtain ⟨wx1, wx2⟩ := mid_between R (rep1 x1 kx1) (rep1 x2 kx2) (le_of_lt kx3)
      obtain ⟨wy1, wy2⟩ := mid_between R (rep2 y1 ky1) (rep2 y2 ky2) (le_of_lt ky3)
      have hVD := hV _ hgx _ hgy _ hbox hout h wx1 wx2 wy1 wy2 ex ey
      constructor
      · rw [← mul_sub, abs_mul, abs_of_pos area0, mul_one, mul_comm D]
        exact mul_le_mul_of_nonneg_left hVD (le_of_lt area0)
      · rw [abs_mul, abs_of_pos area0, mul_one, mul_comm K]
        exact mul_le_mul_of_nonneg_left hKv (le_of_lt area0)
  have one : ∀ u v : 𝕜, (v - u) * (1 : 𝕜) = v - u := fun u v => mul_one _
  have s1 := outside_lists inner hv sx sy nx ny mx my (fun _ => 1) (fun _ => 1) (fun x => x) (fun y => y) one one
  rw [ax, bx, ay, bY] at s1
  have sone : ((gaps xs).map (fun gx => ((gaps ys).map (fun gy => cellVal inner (fun _ => 1) gx gy)).sum)).sum =
      box.area - inner.area := by
    simp only [mul_one] at s1
    rw [s1]; rfl
  have hdiff : |((gaps xs).map (fun gx => ((gaps ys).map (fun gy => roundedCell rnd inner v gx gy)).sum)).sum -
      ((gaps xs).map (fun gx => ((gaps ys).map (fun gy => cellVal inner V gx gy)).sum)).sum| ≤ D * (box.area - inner.area) := by
    rw [← sone]
    simp only [← List.sum_map_mul_left]
    exact abs_sum_sub_le _ _ _ _ (fun gx hgx => abs_sum_sub_le _ _ _ _ (fun gy hgy => (hcell gx hgx gy hgy).1))
  have habs : ((gaps xs).map (fun gx => ((gaps ys).map (fun gy => |roundedCell rnd inner v gx gy|)).sum)).sum ≤
      K * (box.area - inner.area) := by
    rw [← sone]
    simp only [← List.sum_map_mul_left]
    exact sum_le _ _ _ (fun gx hgx => sum_le _ _ _ (fun gy hgy => (hcell gx hgx gy hgy).2))
  have hA : 0 < box.area := mul_pos (sub_pos.mpr h1) (sub_pos.mpr h2)
  have hI : 0 ≤ inner.area := mul_nonneg (sub_nonneg.mpr hv.1) (sub_nonneg.mpr hv.2)
  have hg := growth_ge R 100000
  have hG : growth u 100000 = ((1 - u)⁻¹) ^ 100000 := rfl
  rw [← hG]
  generalize growth u 100000 = G at *
  generalize ((gaps xs).map (fun gx => ((gaps ys).map (fun gy => |roundedCell rnd inner v gx gy|)).sum)).sum = B at *
  generalize ((gaps xs).map (fun gx => ((gaps ys).map (fun gy => roundedCell rnd inner v gx gy)).sum)).sum = S at *
  generalize ((gaps xs).map (fun gx => ((gaps ys).map (fun gy => cellVal inner V gx gy)).sum)).sum = I at *
  generalize f.innerRegionAveragePotential = av at *
  generalize box.area = A at *
  generalize inner.area = Ai at *
  have step1 : |(av * Ai + S) / A - (av * Ai + I) / A| ≤ D * (A - Ai) / A := by
    rw [← sub_div, show av * Ai + S - (av * Ai + I) = S - I by ring, abs_div, abs_of_pos hA]
    exact div_le_div_of_nonneg_right hdiff (le_of_lt hA)
  have step2 : (|av| * Ai + B) / A ≤ K := by
    rw [div_le_iff₀ hA]
    have := mul_le_mul_of_nonneg_right hK hI
    linarith
  have step4 := mul_le_mul_of_nonneg_left step2 (by linarith : 0 ≤ G - 1)
  have tri := abs_sub_le r ((av * Ai + S) / A) ((av * Ai + I) / A)
  linarith

/-- **C111, averages.** In any binary arithmetic with relative error at most `u ≤ 1/1000`, for every box with positive
sides that contains the inner region, all sides representable, of size at most `M` and, if different, at least
`1000 u M` apart: if the expansion evaluates to `a + b x + c y` up to `δ` at all points of the box outside the inner
region, and these values and the inner average have size at most `K`, then the computed average differs from the exact
one (inner average times inner area plus the integral of `a + b x + c y` over the rest of the box, divided by the area
of the box) by at most `δ + (|b| + |c|) u M + ((1 - u)⁻¹⁰⁰⁰⁰⁰ - 1) K`. -/
theorem C111_average {rnd : 𝕜 → 𝕜} {u M : 𝕜} (R : Rounding rnd u) (e : Expansion 𝕜) (f : FieldReconstruction 𝕜)
    (box inner : Box 𝕜) (hc : BoxContains box inner) (hv : BoxValid inner) (h1 : box.min.1 < box.max.1)
    (h2 : box.min.2 < box.max.2) (hrb : RepresentableBox rnd box) (hri : RepresentableBox rnd inner)
    (hM : BoundedBox M box) (hd : SidesApart (1000 * (u * M)) box inner) (v : 𝕜 × 𝕜 → 𝕜) (a b c δ K : 𝕜)
    (hev : ∀ p, InBox box p → ¬ InBox inner p → e p f.ab f.expansionCenter = .ok (v p) ∧
      |v p - (a + b * p.1 + c * p.2)| ≤ δ ∧ |v p| ≤ K)
    (hK : |f.innerRegionAveragePotential| ≤ K) (hδ0 : 0 ≤ δ) :
    let integral := fun B : Box 𝕜 => (B.max.1 - B.min.1) * (B.max.2 - B.min.2) *
      (a + b * ((B.min.1 + B.max.1) / 2) + c * ((B.min.2 + B.max.2) / 2))
    ∃ r, RoundedGrid.getAveragePotential rnd e f inner box = .ok r ∧
      |r - (f.innerRegionAveragePotential * ((inner.max.1 - inner.min.1) * (inner.max.2 - inner.min.2)) +
        (integral box - integral inner)) / ((box.max.1 - box.min.1) * (box.max.2 - box.min.2))| ≤
      δ + (|b| + |c|) * (u * M) + (((1 - u)⁻¹) ^ 100000 - 1) * K := by
  intro integral
  have hD0 : 0 ≤ δ + (|b| + |c|) * (u * M) :=
    add_nonneg hδ0 (mul_nonneg (add_nonneg (abs_nonneg _) (abs_nonneg _))
      (mul_nonneg R.pos (le_trans (abs_nonneg _) hM.1)))
  obtain ⟨r, er, hr⟩ := rounded_cells R e f box inner hc hv h1 h2 hrb hri hM hd v (fun p => a + b * p.1 + c * p.2)
    (δ + (|b| + |c|) * (u * M)) K (fun p hp hq => ⟨(hev p hp hq).1, (hev p hp hq).2.2⟩) (by
      rintro gx - gy - p hp hq - - - - - ex ey
      have hδ := (hev p hp hq).2.1
      unfold cellMid
      simp only
      rw [show v p - (a + b * (1 / 2 * (gx.1 + gx.2)) + c * (1 / 2 * (gy.1 + gy.2))) =
        (v p - (a + b * p.1 + c * p.2)) + b * (p.1 - 1 / 2 * (gx.1 + gx.2)) + c * (p.2 - 1 / 2 * (gy.1 + gy.2)) by ring]
      refine le_trans (abs_add_le _ _) ?_
      have t1 := abs_add_le (v p - (a + b * p.1 + c * p.2)) (b * (p.1 - 1 / 2 * (gx.1 + gx.2)))
      rw [abs_mul] at t1 ⊢
      have t2 := mul_le_mul_of_nonneg_left ex (abs_nonneg b)
      have t3 := mul_le_mul_of_nonneg_left ey (abs_nonneg c)
      rw [add_mul]
      linarith) hK
  refine ⟨r, er, ?_⟩
  obtain ⟨r1, r2⟩ := rep_sides hrb hri
  obtain ⟨nx, ax, bx⟩ := RoundedGrid.planes_ends R r1 h1 hc.1 hv.1 hc.2.1
  obtain ⟨ny, ay, bY⟩ := RoundedGrid.planes_ends R r2 h2 hc.2.2.1 hv.2 hc.2.2.2
  have sx := RoundedGrid.planes_sorted (rnd := rnd) box.min.1 box.max.1 inner.min.1 inner.max.1
  have sy := RoundedGrid.planes_sorted (rnd := rnd) box.min.2 box.max.2 inner.min.2 inner.max.2
  have mx : inner.min.1 ∈ RoundedGrid.planesInDirection rnd box.min.1 box.max.1 inner.min.1 inner.max.1 ∧
      inner.max.1 ∈ RoundedGrid.planesInDirection rnd box.min.1 box.max.1 inner.min.1 inner.max.1 :=
    ⟨side_mem R r1 h1 (by simp), side_mem R r1 h1 (by simp)⟩
  have my : inner.min.2 ∈ RoundedGrid.planesInDirection rnd box.min.2 box.max.2 inner.min.2 inner.max.2 ∧
      inner.max.2 ∈ RoundedGrid.planesInDirection rnd box.min.2 box.max.2 inner.min.2 inner.max.2 :=
    ⟨side_mem R r2 h2 (by simp), side_mem R r2 h2 (by simp)⟩
  generalize RoundedGrid.planesInDirection rnd box.min.1 box.max.1 inner.min.1 inner.max.1 = xs at *
  generalize RoundedGrid.planesInDirection rnd box.min.2 box.max.2 inner.min.2 inner.max.2 = ys at *
  have one : ∀ u v : 𝕜, (v - u) * (1 : 𝕜) = v - u := fun u v => mul_one _
  have lin : ∀ u v : 𝕜, (v - u) * (1 / 2 * (u + v)) = v ^ 2 / 2 - u ^ 2 / 2 := fun u v => by ring
  have s1 := outside_lists inner hv sx sy nx ny mx my (fun _ => 1) (fun _ => 1) (fun x => x) (fun y => y) one one
  have s2 := outside_lists inner hv sx sy nx ny mx my (fun x => x) (fun _ => 1) (fun x => x ^ 2 / 2) (fun y => y) lin one
  have s3 := outside_lists inner hv sx sy nx ny mx my (fun _ => 1) (fun y => y) (fun x => x) (fun y => y ^ 2 / 2) one lin
  rw [ax, bx, ay, bY] at s1 s2 s3
  have split : ∀ gx gy, cellVal inner (fun p => a + b * p.1 + c * p.2) gx gy =
      a * cellVal inner (fun _ => 1 * 1) gx gy + b * cellVal inner (fun p => p.1 * 1) gx gy +
        c * cellVal inner (fun p => 1 * p.2) gx gy := by
    intro gx gy
    unfold cellVal
    split <;> ring
  have stot : ((gaps xs).map (fun gx => ((gaps ys).map (fun gy =>
      cellVal inner (fun p => a + b * p.1 + c * p.2) gx gy)).sum)).sum = integral box - integral inner := by
    simp only [split, List.sum_map_add, List.sum_map_mul_left]
    rw [s1, s2, s3]
    simp only [integral]
    ring
  rw [stot] at hr
  have hA : 0 < box.area := mul_pos (sub_pos.mpr h1) (sub_pos.mpr h2)
  have hI : 0 ≤ inner.area := mul_nonneg (sub_nonneg.mpr hv.1) (sub_nonneg.mpr hv.2)
  refine le_trans hr (add_le_add ?_ (le_refl _))
  rw [div_le_iff₀ hA]
  exact mul_le_mul_of_nonneg_left (by linarith) hD0

/-- Exact arithmetic is a rounding. -/
theorem exact_rounding : Rounding (fun x : 𝕜 => x) 0 :=
  ⟨fun _ _ h => h, fun _ => rfl, fun _ => rfl, fun _ => by simp, le_refl _, by simp⟩

/-- **C111, without rounding.** The computation of the property is the one of C47–C51 if nothing is rounded. -/
theorem C111_exact (e : Expansion 𝕜) (f : FieldReconstruction 𝕜) (inner box : Box 𝕜) :
    RoundedGrid.buildIntegrationPlanesForBox (fun x => x) box inner = InCellPotentials.buildIntegrationPlanesForBox box inner ∧
    RoundedGrid.getAveragePotential (fun x => x) e f inner box = InCellPotentials.getAveragePotential e f inner box := by
  have h1 : ∀ (l : List 𝕜) (s : SSet 𝕜), RoundedGrid.fillGaps (fun x => x) l s = InCellPotentials.fillGaps l s := by
    intro l
    induction l with
    | nil => intro s; rfl
    | cons a t ih =>
      cases t with
      | nil => intro s; rfl
      | cons b t => intro s; exact ih _
  have h2 : RoundedGrid.buildIntegrationPlanesForBox (fun x => x) box inner = InCellPotentials.buildIntegrationPlanesForBox box inner := by
    unfold RoundedGrid.buildIntegrationPlanesForBox InCellPotentials.buildIntegrationPlanesForBox RoundedGrid.planesInDirection
      InCellPotentials.planesInDirection
    rw [h1, h1]
  refine ⟨h2, ?_⟩
  unfold RoundedGrid.getAveragePotential InCellPotentials.getAveragePotential
  rw [h2]
  have h3 : ∀ {α : Type _} (x : Outcome α), (x >>= fun y => Outcome.ok y) = x := by
    intro α x; cases x <;> rfl
  refine congrArg _ (funext fun planes => ?_)
  refine congrArg _ (funext fun outerV => ?_)
  exact h3 _

end Tulip.Props
