import Verif.Spec.Results
import Verif.Proofs.Grid
import Mathlib.Data.Rat.Defs
import Mathlib.Algebra.Order.Ring.Rat
import Mathlib.Tactic.NormNum

/-!
# C47–C51: averages over a cell and the parameters computed from them
-/

set_option linter.unusedSectionVars false

namespace Tulip.Spec
variable {𝕜 : Type _} [LinearOrder 𝕜]

/-- The outer box contains the inner one. -/
def BoxContains (outer inner : Box 𝕜) : Prop :=
  outer.min.1 ≤ inner.min.1 ∧ inner.max.1 ≤ outer.max.1 ∧ outer.min.2 ≤ inner.min.2 ∧ inner.max.2 ≤ outer.max.2

/-- The sides of the box are in order. -/
def BoxValid (b : Box 𝕜) : Prop := b.min.1 ≤ b.max.1 ∧ b.min.2 ≤ b.max.2

/-- The point lies in the box. -/
def InBox (b : Box 𝕜) (p : 𝕜 × 𝕜) : Prop := b.min.1 ≤ p.1 ∧ p.1 ≤ b.max.1 ∧ b.min.2 ≤ p.2 ∧ p.2 ≤ b.max.2

/-- Planes of an integration grid in one direction, for the given box and inner sides: strictly increasing
from side to side, through the inner sides, and every gap between consecutive distinct sides divided in
`n` equal parts. -/
def GoodPlanes [Field 𝕜] (n : Nat) (boxMin boxMax innerMin innerMax : 𝕜) (l : List 𝕜) : Prop :=
  l.Pairwise (· < ·) ∧ l.head? = some boxMin ∧ l.getLast? = some boxMax ∧ innerMin ∈ l ∧ innerMax ∈ l ∧
  ∀ a ∈ [boxMin, boxMax, innerMin, innerMax], ∀ b ∈ [boxMin, boxMax, innerMin, innerMax], a < b →
    (∀ c ∈ [boxMin, boxMax, innerMin, innerMax], c ≤ a ∨ b ≤ c) →
    ∀ x, (x ∈ l ∧ a ≤ x ∧ x ≤ b) ↔ ∃ k : Nat, k ≤ n ∧ x = a + k * ((b - a) / n)

end Tulip.Spec

namespace Tulip.Props
open Tulip Tulip.Spec InCellPotentials
variable {𝕜 : Type _} [Field 𝕜] [DecidableEq 𝕜] [LinearOrder 𝕜] [IsStrictOrderedRing 𝕜]

/-- The expansion used by the code. -/
abbrev Expansion (𝕜 : Type _) := 𝕜 × 𝕜 → List (𝕜 × 𝕜) → 𝕜 × 𝕜 → Outcome 𝕜

theorem planes_ends {p q i j : 𝕜} (hpq : p < q) (hi : p ≤ i) (hij : i ≤ j) (hj : j ≤ q) :
    ∃ hne : planesInDirection p q i j ≠ [], (planesInDirection p q i j).head hne = p ∧
      (planesInDirection p q i j).getLast hne = q := by
  have hb : ∀ c ∈ [p, q, i, j], p ≤ c ∧ c ≤ q := by
    intro c hc
    simp only [List.mem_cons, List.not_mem_nil, or_false] at hc
    rcases hc with rfl | rfl | rfl | rfl
    · exact ⟨le_refl _, le_of_lt hpq⟩
    · exact ⟨le_of_lt hpq, le_refl _⟩
    · exact ⟨hi, le_trans hij hj⟩
    · exact ⟨le_trans hi hij, hj⟩
  have hp : p ∈ planesInDirection p q i j := control_mem (by simp) ⟨q, by simp, ne_of_gt hpq⟩
  have hq : q ∈ planesInDirection p q i j := control_mem (by simp) ⟨p, by simp, ne_of_lt hpq⟩
  have hne : planesInDirection p q i j ≠ [] := List.ne_nil_of_mem hp
  have hs := planes_sorted p q i j
  refine ⟨hne, ?_, ?_⟩
  · apply le_antisymm _ (planes_between hb (List.head_mem hne)).1
    rcases List.mem_iff_getElem.mp hp with ⟨n, hn, e⟩
    rw [List.head_eq_getElem]
    refine le_of_le_of_eq ?_ e
    rcases Nat.eq_zero_or_pos n with h | h
    · subst h; exact le_refl _
    · exact le_of_lt (List.pairwise_iff_getElem.mp hs 0 n (by omega) hn h)
  · apply le_antisymm (planes_between hb (List.getLast_mem hne)).2
    rcases List.mem_iff_getElem.mp hq with ⟨n, hn, e⟩
    rw [List.getLast_eq_getElem]
    refine le_of_eq_of_le e.symm ?_
    rcases Nat.lt_or_ge n ((planesInDirection p q i j).length - 1) with h | h
    · exact le_of_lt (List.pairwise_iff_getElem.mp hs n _ hn (by omega) h)
    · have : n = (planesInDirection p q i j).length - 1 := by omega
      subst this; exact le_refl _

theorem inner_mem {p q i j : 𝕜} (hpq : p < q) : i ∈ planesInDirection p q i j ∧ j ∈ planesInDirection p q i j := by
  have : ∀ c, c ∈ [p, q, i, j] → c ∈ planesInDirection p q i j := by
    intro c hc
    apply control_mem hc
    by_cases h : p = c
    · exact ⟨q, by simp, by rw [← h]; exact ne_of_gt hpq⟩
    · exact ⟨p, by simp, h⟩
  exact ⟨this i (by simp), this j (by simp)⟩

/-- **C47.** For a box with positive sides that contains the inner region, the planes in both directions are
strictly increasing, run from side to side through the sides of the inner region, and divide every gap between
consecutive distinct sides in 100 equal parts. -/
theorem C47_planes (box inner : Box 𝕜) (hc : BoxContains box inner) (hv : BoxValid inner)
    (h1 : box.min.1 < box.max.1) (h2 : box.min.2 < box.max.2) :
    ∃ xs ys, buildIntegrationPlanesForBox box inner = .ok (xs, ys) ∧
      GoodPlanes 100 box.min.1 box.max.1 inner.min.1 inner.max.1 xs ∧
      GoodPlanes 100 box.min.2 box.max.2 inner.min.2 inner.max.2 ys := by
  have good : ∀ {p q i j : 𝕜}, p < q → p ≤ i → i ≤ j → j ≤ q → GoodPlanes 100 p q i j (planesInDirection p q i j) := by
    intro p q i j hpq hi hij hj
    obtain ⟨hne, e1, e2⟩ := planes_ends hpq hi hij hj
    refine ⟨planes_sorted _ _ _ _, ?_, ?_, (inner_mem hpq).1, (inner_mem hpq).2, ?_⟩
    · rw [List.head?_eq_some_head hne, e1]
    · rw [List.getLast?_eq_some_getLast hne, e2]
    · intro a ha b hb hab hcons x
      exact planes_in_gap ha hb hab hcons
  refine ⟨_, _, ?_, good h1 hc.1 hv.1 hc.2.1, good h2 hc.2.2.1 hv.2 hc.2.2.2⟩
  unfold buildIntegrationPlanesForBox
  rw [if_neg (by rintro (h | h); exacts [absurd h (not_lt.mpr hc.1), absurd h (not_lt.mpr hc.2.1)]),
    if_neg (by rintro (h | h); exacts [absurd h (not_lt.mpr hc.2.2.1), absurd h (not_lt.mpr hc.2.2.2)])]

/-! ## C48 -/

theorem forEach_sum {α : Type _} (body : α → 𝕜 → Outcome 𝕜) (val : α → 𝕜) : ∀ (l : List α) (s : 𝕜),
    (∀ x ∈ l, ∀ s, body x s = .ok (s + val x)) → forEach body l s = .ok (s + (l.map val).sum)
  | [], s, _ => by simp [forEach]
  | x :: l, s, h => by
    rw [forEach, h x (by simp), Outcome.ok_bind, forEach_sum body val l _ (fun y hy => h y (by simp [hy]))]
    simp [add_assoc]

/-- Midpoint of a cell. -/
def cellMid (gx gy : 𝕜 × 𝕜) : 𝕜 × 𝕜 := ((1 / 2) * (gx.1 + gx.2), (1 / 2) * (gy.1 + gy.2))

instance (b : Box 𝕜) (p : 𝕜 × 𝕜) : Decidable (InBox b p) := by unfold InBox; infer_instance

/-- Contribution of a cell. -/
def cellVal (inner : Box 𝕜) (v : 𝕜 × 𝕜 → 𝕜) (gx gy : 𝕜 × 𝕜) : 𝕜 :=
  if InBox inner (cellMid gx gy) then 0 else (gx.2 - gx.1) * (gy.2 - gy.1) * v (cellMid gx gy)

theorem isWithin_iff (b : Box 𝕜) (p : 𝕜 × 𝕜) : b.isWithinBox p = true ↔ InBox b p := by
  unfold Box.isWithinBox InBox
  simp only [ge_iff_le, Bool.and_eq_true, decide_eq_true_eq]
  tauto

theorem sum_sum_mul {α β : Type _} (l : List α) (m : List β) (f : α → 𝕜) (g : β → 𝕜) :
    (l.map (fun x => (m.map (fun y => f x * g y)).sum)).sum = (l.map f).sum * (m.map g).sum := by
  induction l with
  | nil => simp
  | cons x l ih =>
    simp only [List.map_cons, List.sum_cons]
    rw [ih, List.sum_map_mul_left, add_mul]

theorem grid_sum_map_sub {α : Type _} (l : List α) (f g : α → 𝕜) : (l.map (fun x => f x - g x)).sum =
    (l.map f).sum - (l.map g).sum := by
  induction l with
  | nil => simp
  | cons x l ih => simp only [List.map_cons, List.sum_cons, ih]; ring

/-- Total weight of the cells outside the inner box. -/
theorem outside_area (box inner : Box 𝕜) (hc : BoxContains box inner) (hv : BoxValid inner)
    (h1 : box.min.1 < box.max.1) (h2 : box.min.2 < box.max.2) :
    ((gaps (planesInDirection box.min.1 box.max.1 inner.min.1 inner.max.1)).map (fun gx =>
      ((gaps (planesInDirection box.min.2 box.max.2 inner.min.2 inner.max.2)).map (fun gy =>
        cellVal inner (fun _ => 1) gx gy)).sum)).sum = box.area - inner.area := by
  obtain ⟨nx, ax, bx⟩ := planes_ends h1 hc.1 hv.1 hc.2.1
  obtain ⟨ny, ay, bY⟩ := planes_ends h2 hc.2.2.1 hv.2 hc.2.2.2
  generalize hxs : planesInDirection box.min.1 box.max.1 inner.min.1 inner.max.1 = xs at *
  generalize hys : planesInDirection box.min.2 box.max.2 inner.min.2 inner.max.2 = ys at *
  have sx : xs.Pairwise (· < ·) := by rw [← hxs]; exact planes_sorted _ _ _ _
  have sy : ys.Pairwise (· < ·) := by rw [← hys]; exact planes_sorted _ _ _ _
  have mx := inner_mem (i := inner.min.1) (j := inner.max.1) h1
  have my := inner_mem (i := inner.min.2) (j := inner.max.2) h2
  rw [hxs] at mx
  rw [hys] at my
  let ix : 𝕜 × 𝕜 → 𝕜 := fun pq => if inner.min.1 ≤ (1 / 2) * (pq.1 + pq.2) ∧ (1 / 2) * (pq.1 + pq.2) ≤ inner.max.1
    then pq.2 - pq.1 else 0
  let iy : 𝕜 × 𝕜 → 𝕜 := fun pq => if inner.min.2 ≤ (1 / 2) * (pq.1 + pq.2) ∧ (1 / 2) * (pq.1 + pq.2) ≤ inner.max.2
    then pq.2 - pq.1 else 0
  have hval : ∀ gx gy, cellVal inner (fun _ => 1) gx gy = (gx.2 - gx.1) * (gy.2 - gy.1) - ix gx * iy gy := by
    intro gx gy
    simp only [ix, iy]
    unfold cellVal cellMid InBox
    simp only [mul_one]
    by_cases ha : inner.min.1 ≤ (1 / 2) * (gx.1 + gx.2) ∧ (1 / 2) * (gx.1 + gx.2) ≤ inner.max.1
    · by_cases hb : inner.min.2 ≤ (1 / 2) * (gy.1 + gy.2) ∧ (1 / 2) * (gy.1 + gy.2) ≤ inner.max.2
      · rw [if_pos ⟨ha.1, ha.2, hb.1, hb.2⟩, if_pos ha, if_pos hb, sub_self]
      · rw [if_neg (fun h => hb ⟨h.2.2.1, h.2.2.2⟩), if_neg hb, mul_zero, sub_zero]
    · rw [if_neg (fun h => ha ⟨h.1, h.2.1⟩), if_neg ha, zero_mul, sub_zero]
  simp only [hval, grid_sum_map_sub]
  rw [sum_sum_mul (gaps xs) (gaps ys) (fun g => g.2 - g.1) (fun g => g.2 - g.1), sum_sum_mul]
  have tx := telescope (fun x : 𝕜 => x) xs nx
  have ty := telescope (fun x : 𝕜 => x) ys ny
  simp only [ax, bx, ay, bY] at tx ty
  rw [tx, ty, inside_length sx nx mx.1 mx.2 hv.1, inside_length sy ny my.1 my.2 hv.2]
  rfl

/-- What the double loop computes. -/
theorem outer_sum (e : Expansion 𝕜) (f : FieldReconstruction 𝕜) (box inner : Box 𝕜)
    (hc : BoxContains box inner) (hv : BoxValid inner) (v : 𝕜 × 𝕜 → 𝕜)
    (hev : ∀ p, InBox box p → ¬ InBox inner p → e p f.ab f.expansionCenter = .ok (v p)) :
    getAveragePotential e f inner box = divide (f.innerRegionAveragePotential * inner.area +
      ((gaps (planesInDirection box.min.1 box.max.1 inner.min.1 inner.max.1)).map (fun gx =>
        ((gaps (planesInDirection box.min.2 box.max.2 inner.min.2 inner.max.2)).map (fun gy =>
          cellVal inner v gx gy)).sum)).sum) box.area := by
  unfold getAveragePotential buildIntegrationPlanesForBox
  rw [if_neg (by rintro (h | h); exacts [absurd h (not_lt.mpr hc.1), absurd h (not_lt.mpr hc.2.1)]),
    if_neg (by rintro (h | h); exacts [absurd h (not_lt.mpr hc.2.2.1), absurd h (not_lt.mpr hc.2.2.2)])]
  rw [Outcome.ok_bind]
  simp only
  have hmid : ∀ {p q i j : 𝕜}, p ≤ i → i ≤ j → j ≤ q → ∀ g ∈ gaps (planesInDirection p q i j),
      p ≤ (1 / 2) * (g.1 + g.2) ∧ (1 / 2) * (g.1 + g.2) ≤ q := by
    intro p q i j hi hij hj g hg
    obtain ⟨k1, k2, -, -⟩ := gap_spec (planes_sorted p q i j) hg
    have hb : ∀ c ∈ [p, q, i, j], p ≤ c ∧ c ≤ q := by
      intro c hc
      simp only [List.mem_cons, List.not_mem_nil, or_false] at hc
      have hpq : p ≤ q := le_trans hi (le_trans hij hj)
      rcases hc with rfl | rfl | rfl | rfl
      · exact ⟨le_refl _, hpq⟩
      · exact ⟨hpq, le_refl _⟩
      · exact ⟨hi, le_trans hij hj⟩
      · exact ⟨le_trans hi hij, hj⟩
    have b1 := planes_between hb k1
    have b2 := planes_between hb k2
    constructor <;> linarith
  have hcell : ∀ gx ∈ gaps (planesInDirection box.min.1 box.max.1 inner.min.1 inner.max.1),
      ∀ gy ∈ gaps (planesInDirection box.min.2 box.max.2 inner.min.2 inner.max.2), ∀ s,
      cellStep e f inner gx gy s = .ok (s + cellVal inner v gx gy) := by
    intro gx hgx gy hgy s
    have m1 := hmid hc.1 hv.1 hc.2.1 gx hgx
    have m2 := hmid hc.2.2.1 hv.2 hc.2.2.2 gy hgy
    unfold cellStep cellVal
    simp only
    change (if inner.isWithinBox (cellMid gx gy) = true then Outcome.ok s else do
      let v ← e (cellMid gx gy) f.ab f.expansionCenter
      Outcome.ok (s + (gx.2 - gx.1) * (gy.2 - gy.1) * v)) = _
    by_cases h : InBox inner (cellMid gx gy)
    · rw [if_pos ((isWithin_iff inner _).mpr h), if_pos h, add_zero]
    · rw [if_neg (fun h' => h ((isWithin_iff inner _).mp h')), if_neg h]
      rw [hev (cellMid gx gy) ⟨m1.1, m1.2, m2.1, m2.2⟩ h]
      rfl
  rw [forEach_sum _ (fun gx => ((gaps (planesInDirection box.min.2 box.max.2 inner.min.2 inner.max.2)).map
    (fun gy => cellVal inner v gx gy)).sum) _ _ (fun gx hgx s =>
      forEach_sum _ _ _ _ (fun gy hgy s => hcell gx hgx gy hgy s))]
  rw [Outcome.ok_bind, zero_add]

/-- Sum over the cells outside the inner box of a product of functions of one coordinate with known primitives along
the cells. -/
theorem outside_product (box inner : Box 𝕜) (hc : BoxContains box inner) (hv : BoxValid inner)
    (h1 : box.min.1 < box.max.1) (h2 : box.min.2 < box.max.2) (f g F G : 𝕜 → 𝕜)
    (hF : ∀ a b, (b - a) * f (1 / 2 * (a + b)) = F b - F a) (hG : ∀ a b, (b - a) * g (1 / 2 * (a + b)) = G b - G a) :
    ((gaps (planesInDirection box.min.1 box.max.1 inner.min.1 inner.max.1)).map (fun gx =>
      ((gaps (planesInDirection box.min.2 box.max.2 inner.min.2 inner.max.2)).map (fun gy =>
        cellVal inner (fun p => f p.1 * g p.2) gx gy)).sum)).sum =
      (F box.max.1 - F box.min.1) * (G box.max.2 - G box.min.2) -
        (F inner.max.1 - F inner.min.1) * (G inner.max.2 - G inner.min.2) := by
  obtain ⟨nx, ax, bx⟩ := planes_ends h1 hc.1 hv.1 hc.2.1
  obtain ⟨ny, ay, bY⟩ := planes_ends h2 hc.2.2.1 hv.2 hc.2.2.2
  generalize hxs : planesInDirection box.min.1 box.max.1 inner.min.1 inner.max.1 = xs at *
  generalize hys : planesInDirection box.min.2 box.max.2 inner.min.2 inner.max.2 = ys at *
  have sx : xs.Pairwise (· < ·) := by rw [← hxs]; exact planes_sorted _ _ _ _
  have sy : ys.Pairwise (· < ·) := by rw [← hys]; exact planes_sorted _ _ _ _
  have mx := inner_mem (i := inner.min.1) (j := inner.max.1) h1
  have my := inner_mem (i := inner.min.2) (j := inner.max.2) h2
  rw [hxs] at mx
  rw [hys] at my
  let ix : 𝕜 × 𝕜 → 𝕜 := fun pq => if inner.min.1 ≤ (1 / 2) * (pq.1 + pq.2) ∧ (1 / 2) * (pq.1 + pq.2) ≤ inner.max.1
    then F pq.2 - F pq.1 else 0
  let iy : 𝕜 × 𝕜 → 𝕜 := fun pq => if inner.min.2 ≤ (1 / 2) * (pq.1 + pq.2) ∧ (1 / 2) * (pq.1 + pq.2) ≤ inner.max.2
    then G pq.2 - G pq.1 else 0
  have hval : ∀ gx gy, cellVal inner (fun p => f p.1 * g p.2) gx gy =
      (F gx.2 - F gx.1) * (G gy.2 - G gy.1) - ix gx * iy gy := by
    intro gx gy
    simp only [ix, iy]
    have e : (gx.2 - gx.1) * (gy.2 - gy.1) * (f (1 / 2 * (gx.1 + gx.2)) * g (1 / 2 * (gy.1 + gy.2))) =
        (F gx.2 - F gx.1) * (G gy.2 - G gy.1) := by
      rw [← hF, ← hG]; ring
    unfold cellVal
    by_cases ha : inner.min.1 ≤ (1 / 2) * (gx.1 + gx.2) ∧ (1 / 2) * (gx.1 + gx.2) ≤ inner.max.1
    · by_cases hb : inner.min.2 ≤ (1 / 2) * (gy.1 + gy.2) ∧ (1 / 2) * (gy.1 + gy.2) ≤ inner.max.2
      · rw [if_pos (show InBox inner (cellMid gx gy) from ⟨ha.1, ha.2, hb.1, hb.2⟩), if_pos ha, if_pos hb, sub_self]
      · rw [if_neg (show ¬ InBox inner (cellMid gx gy) from fun h => hb ⟨h.2.2.1, h.2.2.2⟩), if_neg hb, mul_zero,
          sub_zero]
        exact e
    · rw [if_neg (show ¬ InBox inner (cellMid gx gy) from fun h => ha ⟨h.1, h.2.1⟩), if_neg ha, zero_mul, sub_zero]
      exact e
  simp only [hval, grid_sum_map_sub]
  rw [sum_sum_mul (gaps xs) (gaps ys) (fun g => F g.2 - F g.1) (fun g => G g.2 - G g.1), sum_sum_mul]
  have tx := telescope F xs nx
  have ty := telescope G ys ny
  simp only [ax, bx, ay, bY] at tx ty
  rw [tx, ty, inside_sum F sx nx mx.1 mx.2 hv.1, inside_sum G sy ny my.1 my.2 hv.2]

/-- **C48, exactness.** If the expansion is `a + b x + c y + d x y` at all points of the box outside the inner region,
the average is exact: inner average times inner area plus the integral over the rest of the box, divided by the area
of the box. (The integral of this function over a box is its area times the value at its centre.) -/
theorem C48_exact (e : Expansion 𝕜) (f : FieldReconstruction 𝕜) (box inner : Box 𝕜)
    (hc : BoxContains box inner) (hv : BoxValid inner) (h1 : box.min.1 < box.max.1) (h2 : box.min.2 < box.max.2)
    (a b c d : 𝕜) (hev : ∀ p, InBox box p → ¬ InBox inner p →
      e p f.ab f.expansionCenter = .ok (a + b * p.1 + c * p.2 + d * (p.1 * p.2))) :
    let integral := fun B : Box 𝕜 => (B.max.1 - B.min.1) * (B.max.2 - B.min.2) *
      (a + b * ((B.min.1 + B.max.1) / 2) + c * ((B.min.2 + B.max.2) / 2) +
        d * ((B.min.1 + B.max.1) / 2 * ((B.min.2 + B.max.2) / 2)))
    getAveragePotential e f inner box =
      .ok ((f.innerRegionAveragePotential * ((inner.max.1 - inner.min.1) * (inner.max.2 - inner.min.2)) +
        (integral box - integral inner)) / ((box.max.1 - box.min.1) * (box.max.2 - box.min.2))) := by
  intro integral
  have hA : box.area ≠ 0 := by
    unfold Box.area
    exact ne_of_gt (mul_pos (sub_pos.mpr h1) (sub_pos.mpr h2))
  rw [outer_sum e f box inner hc hv _ hev]
  unfold divide
  rw [if_neg hA]
  congr 1
  refine congrArg₂ (· / ·) (congrArg₂ (· + ·) rfl ?_) rfl
  have one : ∀ u v : 𝕜, (v - u) * (1 : 𝕜) = v - u := fun u v => mul_one _
  have lin : ∀ u v : 𝕜, (v - u) * (1 / 2 * (u + v)) = v ^ 2 / 2 - u ^ 2 / 2 := fun u v => by ring
  have s1 := outside_product box inner hc hv h1 h2 (fun _ => 1) (fun _ => 1) (fun x => x) (fun y => y) one one
  have s2 := outside_product box inner hc hv h1 h2 (fun x => x) (fun _ => 1) (fun x => x ^ 2 / 2) (fun y => y) lin one
  have s3 := outside_product box inner hc hv h1 h2 (fun _ => 1) (fun y => y) (fun x => x) (fun y => y ^ 2 / 2) one lin
  have s4 := outside_product box inner hc hv h1 h2 (fun x => x) (fun y => y) (fun x => x ^ 2 / 2) (fun y => y ^ 2 / 2) lin lin
  have split : ∀ gx gy, cellVal inner (fun p => a + b * p.1 + c * p.2 + d * (p.1 * p.2)) gx gy =
      a * cellVal inner (fun _ => 1 * 1) gx gy + b * cellVal inner (fun p => p.1 * 1) gx gy +
        c * cellVal inner (fun p => 1 * p.2) gx gy + d * cellVal inner (fun p => p.1 * p.2) gx gy := by
    intro gx gy
    unfold cellVal
    split <;> ring
  simp only [split, List.sum_map_add, List.sum_map_mul_left]
  rw [s1, s2, s3, s4]
  simp only [integral]
  ring

/-- a linear expansion, a box and an inner region: the hypotheses of C48 hold -/
example : BoxContains (⟨(0, 0), (4, 3)⟩ : Box ℚ) ⟨(1, 1), (2, 2)⟩ ∧ BoxValid (⟨(1, 1), (2, 2)⟩ : Box ℚ) ∧
    getAveragePotential (fun p _ _ => .ok (1 + 2 * p.1)) ⟨5, (0, 0), [(1, 0)], []⟩ ⟨(1, 1), (2, 2)⟩
      (⟨(0, 0), (4, 3)⟩ : Box ℚ) = .ok (61 / 12) := by
  have hc : BoxContains (⟨(0, 0), (4, 3)⟩ : Box ℚ) ⟨(1, 1), (2, 2)⟩ := by unfold BoxContains; norm_num
  have hv : BoxValid (⟨(1, 1), (2, 2)⟩ : Box ℚ) := by unfold BoxValid; norm_num
  refine ⟨hc, hv, ?_⟩
  have := C48_exact (fun p _ _ => .ok (1 + 2 * p.1)) ⟨5, (0, 0), [(1, 0)], []⟩ ⟨(0, 0), (4, 3)⟩ ⟨(1, 1), (2, 2)⟩ hc hv
    (by norm_num) (by norm_num) 1 2 0 0 (fun p _ _ => by simp)
  rw [this]
  norm_num

/-- **C48.** For every box with positive sides that contains the inner region: if the expansion is `c` at all
points of the box outside the inner region, the average is the area-weighted mean of the inner average and
`c`; in particular it is `c` if the inner average is `c`. In general the average lies between any bounds of
the inner average and of the expansion in the box outside the inner region. -/
theorem C48_average (e : Expansion 𝕜) (f : FieldReconstruction 𝕜) (box inner : Box 𝕜)
    (hc : BoxContains box inner) (hv : BoxValid inner) (h1 : box.min.1 < box.max.1) (h2 : box.min.2 < box.max.2) :
    (∀ c, (∀ p, InBox box p → ¬ InBox inner p → e p f.ab f.expansionCenter = .ok c) →
      getAveragePotential e f inner box =
        .ok ((f.innerRegionAveragePotential * inner.area + c * (box.area - inner.area)) / box.area) ∧
      (f.innerRegionAveragePotential = c → getAveragePotential e f inner box = .ok c)) ∧
    ∀ lo hi, lo ≤ f.innerRegionAveragePotential → f.innerRegionAveragePotential ≤ hi →
      (∀ p, InBox box p → ¬ InBox inner p →
        ∃ x, e p f.ab f.expansionCenter = .ok x ∧ lo ≤ x ∧ x ≤ hi) →
      ∃ y, getAveragePotential e f inner box = .ok y ∧ lo ≤ y ∧ y ≤ hi := by
  have hA : 0 < box.area := by
    unfold Box.area
    exact mul_pos (sub_pos.mpr h1) (sub_pos.mpr h2)
  have hI : 0 ≤ inner.area := by
    unfold Box.area
    exact mul_nonneg (sub_nonneg.mpr hv.1) (sub_nonneg.mpr hv.2)
  have harea := outside_area box inner hc hv h1 h2
  have hscale : ∀ c : 𝕜, ((gaps (planesInDirection box.min.1 box.max.1 inner.min.1 inner.max.1)).map (fun gx =>
        ((gaps (planesInDirection box.min.2 box.max.2 inner.min.2 inner.max.2)).map (fun gy =>
          cellVal inner (fun _ => c) gx gy)).sum)).sum = c * (box.area - inner.area) := by
    intro c
    rw [← harea, ← List.sum_map_mul_left]
    congr 1
    apply List.map_congr_left
    intro gx _
    rw [← List.sum_map_mul_left]
    congr 1
    apply List.map_congr_left
    intro gy _
    unfold cellVal
    split
    · simp
    · ring
  refine ⟨?_, ?_⟩
  · intro c hev
    have h := outer_sum e f box inner hc hv (fun _ => c) hev
    rw [hscale] at h
    have h' : getAveragePotential e f inner box =
        .ok ((f.innerRegionAveragePotential * inner.area + c * (box.area - inner.area)) / box.area) := by
      rw [h]; unfold divide; rw [if_neg (ne_of_gt hA)]
    refine ⟨h', ?_⟩
    intro hf
    rw [h', hf]
    congr 1
    rw [div_eq_iff (ne_of_gt hA)]
    ring
  · intro lo hi hlo hhi hev
    classical
    let v : 𝕜 × 𝕜 → 𝕜 := fun p => match e p f.ab f.expansionCenter with
      | .ok x => x
      | _ => lo
    have hv' : ∀ p, InBox box p → ¬ InBox inner p → e p f.ab f.expansionCenter = .ok (v p) := by
      intro p hp hq
      obtain ⟨x, hx, -⟩ := hev p hp hq
      simp only [v, hx]
    have hvb : ∀ p, InBox box p → ¬ InBox inner p → lo ≤ v p ∧ v p ≤ hi := by
      intro p hp hq
      obtain ⟨x, hx, hb⟩ := hev p hp hq
      simp only [v, hx]; exact hb
    have h := outer_sum e f box inner hc hv v hv'
    -- compare cell by cell
    have hmid : ∀ {p q i j : 𝕜}, p ≤ i → i ≤ j → j ≤ q → ∀ g ∈ gaps (planesInDirection p q i j),
        g.1 < g.2 ∧ p ≤ (1 / 2) * (g.1 + g.2) ∧ (1 / 2) * (g.1 + g.2) ≤ q := by
      intro p q i j hi hij hj g hg
      obtain ⟨k1, k2, k3, -⟩ := gap_spec (planes_sorted p q i j) hg
      have hb : ∀ c ∈ [p, q, i, j], p ≤ c ∧ c ≤ q := by
        intro c hc
        simp only [List.mem_cons, List.not_mem_nil, or_false] at hc
        have hpq : p ≤ q := le_trans hi (le_trans hij hj)
        rcases hc with rfl | rfl | rfl | rfl
        · exact ⟨le_refl _, hpq⟩
        · exact ⟨hpq, le_refl _⟩
        · exact ⟨hi, le_trans hij hj⟩
        · exact ⟨le_trans hi hij, hj⟩
      have b1 := planes_between hb k1
      have b2 := planes_between hb k2
      exact ⟨k3, by linarith, by linarith⟩
    have hcell : ∀ gx ∈ gaps (planesInDirection box.min.1 box.max.1 inner.min.1 inner.max.1),
        ∀ gy ∈ gaps (planesInDirection box.min.2 box.max.2 inner.min.2 inner.max.2),
        cellVal inner (fun _ => lo) gx gy ≤ cellVal inner v gx gy ∧
        cellVal inner v gx gy ≤ cellVal inner (fun _ => hi) gx gy := by
      intro gx hgx gy hgy
      obtain ⟨x0, x1, x2⟩ := hmid hc.1 hv.1 hc.2.1 gx hgx
      obtain ⟨y0, y1, y2⟩ := hmid hc.2.2.1 hv.2 hc.2.2.2 gy hgy
      unfold cellVal
      by_cases hin : InBox inner (cellMid gx gy)
      · simp [if_pos hin]
      · simp only [if_neg hin]
        have hp : 0 ≤ (gx.2 - gx.1) * (gy.2 - gy.1) :=
          mul_nonneg (sub_nonneg.mpr (le_of_lt x0)) (sub_nonneg.mpr (le_of_lt y0))
        obtain ⟨b1, b2⟩ := hvb (cellMid gx gy) ⟨x1, x2, y1, y2⟩ hin
        exact ⟨mul_le_mul_of_nonneg_left b1 hp, mul_le_mul_of_nonneg_left b2 hp⟩
    have hmono : ∀ {α : Type _} (l : List α) (F G : α → 𝕜), (∀ x ∈ l, F x ≤ G x) → (l.map F).sum ≤ (l.map G).sum := by
      intro α l F G hFG
      induction l with
      | nil => simp
      | cons x l ih =>
        simp only [List.map_cons, List.sum_cons]
        exact add_le_add (hFG x (by simp)) (ih (fun y hy => hFG y (by simp [hy])))
    have hLo := hscale lo
    have hHi := hscale hi
    refine ⟨_, by rw [h]; unfold divide; rw [if_neg (ne_of_gt hA)], ?_, ?_⟩
    · rw [le_div_iff₀ hA]
      have := hmono _ _ _ (fun gx hgx => hmono _ _ _ (fun gy hgy => (hcell gx hgx gy hgy).1))
      rw [hLo] at this
      have h0 := mul_le_mul_of_nonneg_right hlo hI
      linarith
    · rw [div_le_iff₀ hA]
      have := hmono _ _ _ (fun gx hgx => hmono _ _ _ (fun gy hgy => (hcell gx hgx gy hgy).2))
      rw [hHi] at this
      have h0 := mul_le_mul_of_nonneg_right hhi hI
      linarith

/-- a box around the unit square; the hypotheses of C47 and C48 -/
example : BoxContains (⟨(-1, 0), (2, 3)⟩ : Box ℚ) ⟨(0, 0), (1, 1)⟩ ∧ BoxValid (⟨(0, 0), (1, 1)⟩ : Box ℚ) ∧
    (⟨(-1, 0), (2, 3)⟩ : Box ℚ).min.1 < (⟨(-1, 0), (2, 3)⟩ : Box ℚ).max.1 ∧
    (⟨(-1, 0), (2, 3)⟩ : Box ℚ).area = 9 := by
  unfold BoxContains BoxValid Box.area; norm_num

/-! ## C49 -/

theorem planes_throw (box inner : Box 𝕜) : (¬ BoxContains box inner →
      buildIntegrationPlanesForBox box inner = .throw boxErr) ∧
    (BoxContains box inner → ∃ r, buildIntegrationPlanesForBox box inner = .ok r) := by
  unfold buildIntegrationPlanesForBox
  constructor
  · intro h
    by_cases a : box.min.1 > inner.min.1 ∨ box.max.1 < inner.max.1
    · rw [if_pos a]
    · rw [if_neg a]
      by_cases b : box.min.2 > inner.min.2 ∨ box.max.2 < inner.max.2
      · rw [if_pos b]
      · push Not at a b
        exact absurd ⟨a.1, a.2, b.1, b.2⟩ h
  · intro hc
    rw [if_neg (by rintro (h | h); exacts [absurd h (not_lt.mpr hc.1), absurd h (not_lt.mpr hc.2.1)]),
      if_neg (by rintro (h | h); exacts [absurd h (not_lt.mpr hc.2.2.1), absurd h (not_lt.mpr hc.2.2.2)])]
    exact ⟨_, rfl⟩

theorem forEach_no_throw {α S : Type _} {body : α → S → Outcome S} (h : ∀ x s er, body x s ≠ .throw er) :
    ∀ (l : List α) (s : S) (er : Err), forEach body l s ≠ .throw er
  | [], s, er => by simp [forEach]
  | x :: l, s, er => by
    rw [forEach]
    cases hb : body x s with
    | ok a => exact forEach_no_throw h l a er
    | throw e => exact absurd hb (h x s e)
    | ub => simp
    | nonfinite => simp

theorem average_no_throw (e : Expansion 𝕜) (he : ∀ p ab c er, e p ab c ≠ .throw er) (f : FieldReconstruction 𝕜)
    (box inner : Box 𝕜) (hc : BoxContains box inner) (er : Err) : getAveragePotential e f inner box ≠ .throw er := by
  unfold getAveragePotential
  obtain ⟨r, hr⟩ := (planes_throw box inner).2 hc
  rw [hr, Outcome.ok_bind]
  have hcell : ∀ gx gy s er, cellStep e f inner gx gy s ≠ .throw er := by
    intro gx gy s er
    unfold cellStep
    simp only
    split
    · simp
    · cases hx : e ((1 / 2) * (gx.1 + gx.2), (1 / 2) * (gy.1 + gy.2)) f.ab f.expansionCenter with
      | throw z => exact absurd hx (he _ _ _ z)
      | _ => simp
  cases hs : forEach (fun gx s => forEach (fun gy s => cellStep e f inner gx gy s) (gaps r.2) s) (gaps r.1) 0 with
  | ok v =>
    rw [Outcome.ok_bind]
    unfold divide
    simp only
    split <;> simp
  | throw z => exact absurd hs (forEach_no_throw (fun gx s er => forEach_no_throw (fun gy s er => hcell gx gy s er) _ _ _) _ _ _)
  | ub => simp
  | nonfinite => simp

/-- **C49.** For an expansion that does not throw: both functions throw only if the box fails to contain the
inner region or an index is missing; a missing entry `j` throws `out_of_range`; for an existing entry with
coefficients, a box that fails to contain the inner region throws; otherwise, if the average is finite, a
missing `i` throws `out_of_range`. -/
theorem C49_rejects (e : Expansion 𝕜) (he : ∀ p ab c er, e p ab c ≠ .throw er) (k : 𝕜)
    (p : InCellPotentials 𝕜) (i j : Int) (box : Box 𝕜) :
    (∀ er, getCapacitanceOnBox e k p i j box = .throw er →
      ¬ BoxContains box p.innerRegionBox ∨ p.electric.find? j = none ∨
      ∃ f, p.electric.find? j = some f ∧ f.conductorPotentials.find? i = none) ∧
    (p.electric.find? j = none → getCapacitanceOnBox e k p i j box = .throw .outOfRange) ∧
    (∀ f, p.electric.find? j = some f → f.ab ≠ [] →
      (¬ BoxContains box p.innerRegionBox → getCapacitanceOnBox e k p i j box = .throw (.runtimeError "Integration box has to be larger than the  inner region.")) ∧
      (∀ y, getAveragePotential e f p.innerRegionBox box = .ok y → f.conductorPotentials.find? i = none →
        getCapacitanceOnBox e k p i j box = .throw .outOfRange)) ∧
    (∀ er, getInductanceOnBox e k p i j box = .throw er →
      ¬ BoxContains box p.innerRegionBox ∨ p.magnetic.find? j = none ∨ p.electric.find? j = none ∨
      ∃ f, p.electric.find? j = some f ∧ f.conductorPotentials.find? i = none) ∧
    (p.magnetic.find? j = none → getInductanceOnBox e k p i j box = .throw .outOfRange) ∧
    (∀ f, p.magnetic.find? j = some f → f.ab ≠ [] →
      (¬ BoxContains box p.innerRegionBox → getInductanceOnBox e k p i j box = .throw (.runtimeError "Integration box has to be larger than the  inner region.")) ∧
      (∀ y, getAveragePotential e f p.innerRegionBox box = .ok y →
        (∀ g, p.electric.find? j = some g → g.conductorPotentials.find? i = none) →
        getInductanceOnBox e k p i j box = .throw .outOfRange)) := by
  have hdiv : ∀ (x y : 𝕜) er, divide x y ≠ .throw er := by
    intro x y er; unfold divide; split <;> simp
  have hmono : ∀ (ab : List (𝕜 × 𝕜)) er, monopole ab ≠ .throw er := by
    intro ab er; cases ab <;> simp [monopole]
  have hmono' : ∀ (ab : List (𝕜 × 𝕜)), ab ≠ [] → ∃ q, monopole ab = .ok q := by
    intro ab h; cases ab with
    | nil => exact absurd rfl h
    | cons a t => exact ⟨_, rfl⟩
  have havg : ∀ f, ¬ BoxContains box p.innerRegionBox →
      getAveragePotential e f p.innerRegionBox box = .throw boxErr := by
    intro f h
    unfold getAveragePotential
    rw [(planes_throw _ _).1 h]; rfl
  refine ⟨?_, ?_, ?_, ?_, ?_, ?_⟩
  · intro er h
    by_contra hcon
    push Not at hcon
    obtain ⟨c1, c2, c3⟩ := hcon
    obtain ⟨f, hf⟩ := Option.ne_none_iff_exists'.mp c2
    obtain ⟨v, hv⟩ := Option.ne_none_iff_exists'.mp (c3 f hf)
    unfold getCapacitanceOnBox mapAt at h
    rw [hf] at h
    simp only [Outcome.ofOption_some, Outcome.ok_bind, hv] at h
    cases hm : monopole f.ab with
    | throw z => exact hmono _ _ hm
    | ub => rw [hm] at h; cases h
    | nonfinite => rw [hm] at h; cases h
    | ok q =>
      rw [hm, Outcome.ok_bind] at h
      cases ha : getAveragePotential e f p.innerRegionBox box with
      | throw z => exact average_no_throw e he f _ _ c1 z ha
      | ub => rw [ha] at h; cases h
      | nonfinite => rw [ha] at h; cases h
      | ok y =>
        rw [ha, Outcome.ok_bind] at h
        cases hd : divide q (-y + v) with
        | throw z => exact hdiv _ _ _ hd
        | _ => rw [hd] at h; cases h
  · intro h
    unfold getCapacitanceOnBox mapAt
    rw [h]; rfl
  · intro f hf hab
    obtain ⟨q, hq⟩ := hmono' f.ab hab
    constructor
    · intro hc
      unfold getCapacitanceOnBox mapAt
      rw [hf, Outcome.ofOption_some, Outcome.ok_bind, hq, Outcome.ok_bind, havg f hc]; rfl
    · intro y hy hi
      unfold getCapacitanceOnBox mapAt
      rw [hf, Outcome.ofOption_some, Outcome.ok_bind, hq, Outcome.ok_bind, hy, Outcome.ok_bind, hi]; rfl
  · intro er h
    by_contra hcon
    push Not at hcon
    obtain ⟨c1, c2, c2', c3⟩ := hcon
    obtain ⟨f, hf⟩ := Option.ne_none_iff_exists'.mp c2
    obtain ⟨g, hg⟩ := Option.ne_none_iff_exists'.mp c2'
    obtain ⟨v, hv⟩ := Option.ne_none_iff_exists'.mp (c3 g hg)
    unfold getInductanceOnBox mapAt at h
    rw [hf, hg] at h
    simp only [Outcome.ofOption_some, Outcome.ok_bind, hv] at h
    cases hm : monopole f.ab with
    | throw z => exact hmono _ _ hm
    | ub => rw [hm] at h; cases h
    | nonfinite => rw [hm] at h; cases h
    | ok q =>
      rw [hm, Outcome.ok_bind] at h
      cases ha : getAveragePotential e f p.innerRegionBox box with
      | throw z => exact average_no_throw e he f _ _ c1 z ha
      | ub => rw [ha] at h; cases h
      | nonfinite => rw [ha] at h; cases h
      | ok y =>
        rw [ha, Outcome.ok_bind] at h
        cases hd : divide (-y + v) q with
        | throw z => exact hdiv _ _ _ hd
        | _ => rw [hd] at h; cases h
  · intro h
    unfold getInductanceOnBox mapAt
    rw [h]; rfl
  · intro f hf hab
    obtain ⟨q, hq⟩ := hmono' f.ab hab
    constructor
    · intro hc
      unfold getInductanceOnBox mapAt
      rw [hf, Outcome.ofOption_some, Outcome.ok_bind, hq, Outcome.ok_bind, havg f hc]; rfl
    · intro y hy hi
      unfold getInductanceOnBox mapAt
      rw [hf, Outcome.ofOption_some, Outcome.ok_bind, hq, Outcome.ok_bind, hy, Outcome.ok_bind]
      cases hg : p.electric.find? j with
      | none => rfl
      | some g => rw [Outcome.ofOption_some, Outcome.ok_bind, hi g hg]; rfl

/-! ## C50 -/

/-- The average over the inner region itself is the inner average. -/
theorem average_self (e : Expansion 𝕜) (f : FieldReconstruction 𝕜) (b : Box 𝕜) (h1 : b.min.1 < b.max.1)
    (h2 : b.min.2 < b.max.2) : getAveragePotential e f b b = .ok f.innerRegionAveragePotential :=
  ((C48_average e f b b ⟨le_refl _, le_refl _, le_refl _, le_refl _⟩ ⟨le_of_lt h1, le_of_lt h2⟩ h1 h2).1
    f.innerRegionAveragePotential (fun _ h h' => absurd h h')).2 rfl

/-- **C50, what holds.** On the inner region itself (if its sides are positive) the capacitance agrees with
the inner-region formula; the inductance does if the electric and magnetic entries have the same conductor
potentials. -/
theorem C50_inner_partial (e : Expansion 𝕜) (k : 𝕜) (p : InCellPotentials 𝕜) (i j : Int)
    (h1 : p.innerRegionBox.min.1 < p.innerRegionBox.max.1) (h2 : p.innerRegionBox.min.2 < p.innerRegionBox.max.2) :
    getCapacitanceOnBox e k p i j p.innerRegionBox = getCapacitanceUsingInnerRegion k p i j ∧
    ((p.electric.find? j).map FieldReconstruction.conductorPotentials =
      (p.magnetic.find? j).map FieldReconstruction.conductorPotentials →
      getInductanceOnBox e k p i j p.innerRegionBox = getInductanceUsingInnerRegion k p i j) := by
  constructor
  · unfold getCapacitanceOnBox getCapacitanceUsingInnerRegion
    simp only [average_self e _ _ h1 h2, Outcome.ok_bind]
  · intro hcp
    unfold getInductanceOnBox getInductanceUsingInnerRegion mapAt
    simp only [average_self e _ _ h1 h2, Outcome.ok_bind]
    cases hm : p.magnetic.find? j with
    | none => rfl
    | some f =>
      rw [hm] at hcp
      cases he : p.electric.find? j with
      | none => rw [he] at hcp; simp at hcp
      | some g =>
        rw [he] at hcp
        have : g.conductorPotentials = f.conductorPotentials := by simpa using hcp
        simp only [Outcome.ofOption_some, Outcome.ok_bind, this]

/-- results of a two-conductor case whose electric and magnetic floating potentials differ -/
def inCellExample : InCellPotentials ℚ where
  innerRegionBox := ⟨(0, 0), (1, 1)⟩
  electric := [(0, ⟨1/2, (0, 0), [(1, 0)], [(0, 1), (1, 1/2)]⟩)]
  magnetic := [(0, ⟨1/2, (0, 0), [(1, 0)], [(0, 1), (1, 3/4)]⟩)]

/-- **C50 fails** for the inductance when electric and magnetic floating potentials differ (as with
dielectrics): on the inner region itself the box formula gives 0, the inner-region formula 1/4. -/
theorem C50_refuted (e : Expansion ℚ) :
    getInductanceOnBox e 1 inCellExample 1 0 inCellExample.innerRegionBox = .ok 0 ∧
    getInductanceUsingInnerRegion 1 inCellExample 1 0 = .ok (1 / 4) := by
  constructor
  · unfold getInductanceOnBox
    have := average_self e ⟨1/2, (0, 0), [(1, 0)], [(0, 1), (1, 3/4)]⟩ inCellExample.innerRegionBox
      (by decide +kernel) (by decide +kernel)
    show (do
      let av ← getAveragePotential e ⟨1/2, (0, 0), [(1, 0)], [(0, 1), (1, 3/4)]⟩ inCellExample.innerRegionBox
        inCellExample.innerRegionBox
      let q ← divide (-av + 1/2) 1
      Outcome.ok (q * 1)) = _
    rw [this]
    decide +kernel
  · decide +kernel

/-! ## C51 -/

/-- **C51, what holds.** The inner-region inductance is determined by the magnetic data, both capacitances by
the electric data; the box inductance by the magnetic data and the electric conductor potentials. -/
theorem C51_dependence_partial (e : Expansion 𝕜) (k : 𝕜) (p q : InCellPotentials 𝕜) (i j : Int) (box : Box 𝕜) :
    (p.magnetic = q.magnetic → getInductanceUsingInnerRegion k p i j = getInductanceUsingInnerRegion k q i j) ∧
    (p.electric = q.electric → getCapacitanceUsingInnerRegion k p i j = getCapacitanceUsingInnerRegion k q i j) ∧
    (p.electric = q.electric → p.innerRegionBox = q.innerRegionBox →
      getCapacitanceOnBox e k p i j box = getCapacitanceOnBox e k q i j box) ∧
    (p.magnetic = q.magnetic → p.innerRegionBox = q.innerRegionBox →
      (p.electric.find? j).map FieldReconstruction.conductorPotentials =
        (q.electric.find? j).map FieldReconstruction.conductorPotentials →
      getInductanceOnBox e k p i j box = getInductanceOnBox e k q i j box) := by
  refine ⟨?_, ?_, ?_, ?_⟩
  · intro h; unfold getInductanceUsingInnerRegion; rw [h]
  · intro h; unfold getCapacitanceUsingInnerRegion; rw [h]
  · intro h h'; unfold getCapacitanceOnBox; rw [h, h']
  · intro h h' hcp
    unfold getInductanceOnBox mapAt
    rw [h, h']
    cases hp : p.electric.find? j with
    | none =>
      rw [hp] at hcp
      cases hq : q.electric.find? j with
      | none => rfl
      | some g => rw [hq] at hcp; simp at hcp
    | some f =>
      rw [hp] at hcp
      cases hq : q.electric.find? j with
      | none => rw [hq] at hcp; simp at hcp
      | some g =>
        rw [hq] at hcp
        have : f.conductorPotentials = g.conductorPotentials := by simpa using hcp
        simp only [Outcome.ofOption_some, Outcome.ok_bind, this]

/-- **C51 fails** for the box inductance: changing the electric data only changes it. -/
theorem C51_refuted (e : Expansion ℚ) :
    let q : InCellPotentials ℚ := { inCellExample with electric := inCellExample.magnetic }
    q.magnetic = inCellExample.magnetic ∧ q.innerRegionBox = inCellExample.innerRegionBox ∧
    getInductanceOnBox e 1 q 1 0 q.innerRegionBox = .ok (1 / 4) ∧
    getInductanceOnBox e 1 inCellExample 1 0 inCellExample.innerRegionBox = .ok 0 := by
  refine ⟨rfl, rfl, ?_, (C50_refuted e).1⟩
  have h := (C50_inner_partial e 1 { inCellExample with electric := inCellExample.magnetic } 1 0
    (by decide +kernel) (by decide +kernel)).2 rfl
  rw [h]
  decide +kernel

/-- **C51, the error.** On every box: had the electric data the conductor potentials of the magnetic ones, the box
inductance would be some `L`; it is `L` plus the difference of the potentials of conductor `i`, divided by the current. -/
theorem C51_error_partial (e : Expansion 𝕜) (k : 𝕜) (p : InCellPotentials 𝕜) (i j : Int) (box : Box 𝕜) {f g : FieldReconstruction 𝕜}
    (hm : p.magnetic.find? j = some f) (he : p.electric.find? j = some g) {Am Ae I b : 𝕜} {t : List (𝕜 × 𝕜)}
    (h1 : f.conductorPotentials.find? i = some Am) (h2 : g.conductorPotentials.find? i = some Ae) (h3 : f.ab = (I, b) :: t)
    {L : 𝕜} (hL : getInductanceOnBox e k { p with electric := p.magnetic } i j box = .ok L) :
    getInductanceOnBox e k p i j box = .ok (L + (Ae - Am) / I * k) := by
  unfold getInductanceOnBox mapAt at *
  simp only [hm, he, h1, h2, h3, monopole, Outcome.ofOption_some, Outcome.ok_bind] at hL ⊢
  rcases ha : getAveragePotential e f p.innerRegionBox box with a | _ | _ | _ <;> simp only [ha] at hL
  · rw [Outcome.ok_bind] at hL ⊢
    unfold divide at hL ⊢
    by_cases hI : I = 0
    · rw [if_pos hI] at hL
      cases hL
    · rw [if_neg hI, Outcome.ok_bind] at hL ⊢
      cases hL
      congr 1
      ring
  all_goals cases hL

/-- **C50, the error.** On the inner region itself the box inductance is the inner-region one plus the difference of the
electric and magnetic potentials of conductor `i`, divided by the current. -/
theorem C50_error_partial (e : Expansion 𝕜) (k : 𝕜) (p : InCellPotentials 𝕜) (i j : Int)
    (hx : p.innerRegionBox.min.1 < p.innerRegionBox.max.1) (hy : p.innerRegionBox.min.2 < p.innerRegionBox.max.2)
    {f g : FieldReconstruction 𝕜}
    (hm : p.magnetic.find? j = some f) (he : p.electric.find? j = some g) {Am Ae I b : 𝕜} {t : List (𝕜 × 𝕜)}
    (h1 : f.conductorPotentials.find? i = some Am) (h2 : g.conductorPotentials.find? i = some Ae) (h3 : f.ab = (I, b) :: t)
    {L : 𝕜} (hL : getInductanceUsingInnerRegion k p i j = .ok L) :
    getInductanceOnBox e k p i j p.innerRegionBox = .ok (L + (Ae - Am) / I * k) := by
  refine C51_error_partial e k p i j _ hm he h1 h2 h3 ?_
  have := (C50_inner_partial e k { p with electric := p.magnetic } i j hx hy).2 rfl
  exact this.trans hL

/-- The hypotheses are met: for `inCellExample` the error is `(1/2 - 3/4) / 1`. -/
example (e : Expansion ℚ) : getInductanceOnBox e 1 inCellExample 1 0 inCellExample.innerRegionBox =
    .ok (1 / 4 + (1 / 2 - 3 / 4) / 1 * 1) :=
  C50_error_partial e 1 inCellExample 1 0 (by decide +kernel) (by decide +kernel) rfl rfl rfl rfl rfl (C50_refuted e).2

/-- the hypotheses of C49, C50 and C51 are met by `inCellExample`: a finite capacitance -/
example : getCapacitanceUsingInnerRegion 1 inCellExample 0 0 = .ok 2 := by decide +kernel

end Tulip.Props
