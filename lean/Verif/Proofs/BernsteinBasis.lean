import Verif.Proofs.BernsteinSpaces

/-!
# The functions of `BernsteinSpaces` are independent
-/

set_option linter.unusedSectionVars false

namespace Tulip
open Matrix Spec MvPolynomial

section
variable {𝕜 : Type} [Field 𝕜] {T : Triangulation 𝕜}

/-- Gradients of two barycentric coordinates are not parallel. -/
theorem cross_ne {t : Tri T.nv} (h : T.det t ≠ 0) {i j : Fin T.nv} (hi : IsVertex t i) (hj : IsVertex t j) (hij : i ≠ j) :
    (T.gradHat t i).1 * (T.gradHat t j).2 - (T.gradHat t i).2 * (T.gradHat t j).1 ≠ 0 := by
  obtain ⟨ga, gb, gc⟩ := gradHat_verts h
  have hd : T.det t ≠ 0 := h
  have fin : ∀ x : 𝕜, x * T.det t = 1 ∨ x * T.det t = -1 → x ≠ 0 := by
    rintro x hx rfl
    rw [zero_mul] at hx
    rcases hx with hx | hx
    · exact zero_ne_one hx
    · exact one_ne_zero (neg_eq_zero.mp hx.symm)
  refine fin _ ?_
  have hdef : T.det t = ((T.coord t.b).1 - (T.coord t.a).1) * ((T.coord t.c).2 - (T.coord t.a).2) -
    ((T.coord t.c).1 - (T.coord t.a).1) * ((T.coord t.b).2 - (T.coord t.a).2) := by
    unfold Triangulation.det; ring
  rcases hi with rfl | rfl | rfl <;> rcases hj with rfl | rfl | rfl <;>
    first
      | exact absurd rfl hij
      | (left; simp only [ga, gb, gc]; field_simp; rw [hdef]; ring1)
      | (right; simp only [ga, gb, gc]; field_simp; rw [hdef]; ring1)

/-- The vertices of a triangle in the order of their numbers. -/
structure Sorted (t : Tri T.nv) (l m h : Fin T.nv) : Prop where
  lm : l < m
  mh : m < h
  vl : IsVertex t l
  vm : IsVertex t m
  vh : IsVertex t h

theorem Sorted.eq {t : Tri T.nv} {l m h v : Fin T.nv} (s : Sorted t l m h) (hv : IsVertex t v) : v = l ∨ v = m ∨ v = h :=
  three_vertices s.vl s.vm s.vh s.lm s.mh hv

theorem exists_sorted {t : Tri T.nv} (hd : T.det t ≠ 0) : ∃ l m h, Sorted t l m h := by
  obtain ⟨h1, h2, h3⟩ := det_ne hd
  have va : IsVertex t t.a := Or.inl rfl
  have vb : IsVertex t t.b := Or.inr (Or.inl rfl)
  have vc : IsVertex t t.c := Or.inr (Or.inr rfl)
  rcases lt_or_gt_of_ne h1 with k1 | k1 <;> rcases lt_or_gt_of_ne h2 with k2 | k2 <;> rcases lt_or_gt_of_ne h3 with k3 | k3
  · exact absurd (k1.trans (k2.trans k3)) (lt_irrefl _)
  · exact ⟨_, _, _, k1, k2, va, vb, vc⟩
  · exact ⟨_, _, _, k3, k1, vc, va, vb⟩
  · exact ⟨_, _, _, k3, k2, va, vc, vb⟩
  · exact ⟨_, _, _, k2, k3, vb, vc, va⟩
  · exact ⟨_, _, _, k1, k3, vb, va, vc⟩
  · exact ⟨_, _, _, k2, k1, vc, vb, va⟩
  · exact absurd (k1.trans (k3.trans k2)) (lt_irrefl _)

theorem Sorted.sum {t : Tri T.nv} {l m h : Fin T.nv} (s : Sorted t l m h) {M : Type _} [AddCommMonoid M] (f : Fin T.nv → M)
    (h0 : ∀ k, ¬ IsVertex t k → f k = 0) : ∑ k, f k = f l + f m + f h := by
  have : ∑ k, f k = ∑ k ∈ {l, m, h}, f k := by
    symm
    refine Finset.sum_subset (Finset.subset_univ _) fun k _ hk => h0 k fun hv => hk ?_
    simpa using s.eq hv
  rw [this, Finset.sum_insert (by simp [s.lm.ne, (s.lm.trans s.mh).ne]), Finset.sum_insert (by simp [s.mh.ne]),
    Finset.sum_singleton, add_assoc]

theorem eval_whitneyP {t : Tri T.nv} (h : T.det t ≠ 0) {x : Fin T.nv → 𝕜} (h0 : ∀ v, ¬ IsVertex t v → x v = 0)
    (h1 : x t.a + x t.b + x t.c = 1) (i j : Fin T.nv) :
    eval ![x t.b, x t.c] (whitneyP T t i j).1 = x i * (T.gradHat t j).1 - x j * (T.gradHat t i).1 ∧
    eval ![x t.b, x t.c] (whitneyP T t i j).2 = x i * (T.gradHat t j).2 - x j * (T.gradHat t i).2 := by
  unfold whitneyP
  simp only [map_sub, map_mul, eval_C, eval_baryP h h0 h1]
  exact ⟨trivial, trivial⟩

/-- Coordinates with respect to the vertices of a triangle. -/
theorem corner_sum {t : Tri T.nv} {l m h : Fin T.nv} (hd : T.det t ≠ 0) (s : Sorted t l m h) {x : Fin T.nv → 𝕜}
    (h0 : ∀ v, ¬ IsVertex t v → x v = 0) (h1 : x l + x m + x h = 1) : x t.a + x t.b + x t.c = 1 := by
  rw [← sum_verts hd x h0, s.sum x h0, h1]

variable [CharZero 𝕜]

theorem hFun_indep (hd : ∀ t ∈ T.tris, T.det t ≠ 0) {p : Nat} (c : (Fin T.nv → ℕ) → 𝕜)
    (h : ∀ t, ∑ α ∈ hDofs T p, C (c α) * hFun T α t = 0) : ∀ α ∈ hDofs T p, c α = 0 := by
  intro α hα
  obtain ⟨_, t, ht, hw⟩ := mem_hDofs.mp hα
  have hdt := hd t ht
  obtain ⟨n1, n2, n3⟩ := det_ne hdt
  have h0 : (Nat.multinomial Finset.univ α : 𝕜) ≠ 0 := by exact_mod_cast (Nat.multinomial_pos _ _).ne'
  have key := homogeneous_zero {t.a, t.b, t.c} (l := t.a) (by simp) (hDofs T p) (fun β hβ => (mem_hDofs.mp hβ).1)
    (fun β => c β * (Nat.multinomial Finset.univ β : 𝕜)) ?_ α hα (fun v hv => by simpa [IsVertex] using hw v hv)
  · exact (mul_eq_zero.mp key).resolve_right h0
  · intro x hx hs _
    have hx' : ∀ v, ¬ IsVertex t v → x v = 0 := fun v hv => hx v (by simpa [IsVertex] using hv)
    rw [Finset.sum_insert (by simp [n1, n3.symm]), Finset.sum_insert (by simp [n2]), Finset.sum_singleton, ← add_assoc] at hs
    have e := congrArg (eval ![x t.b, x t.c]) (h ⟨t, ht⟩)
    rw [map_sum, map_zero] at e
    rw [← e]
    refine Finset.sum_congr rfl fun β _ => ?_
    unfold hFun
    rw [map_mul, map_mul, eval_C, eval_C, eval_monoP hdt hx' hs]
    ring

/-- Restricted to a segment. -/
theorem hFun_indep_side (hd : ∀ t ∈ T.tris, T.det t ≠ 0) {p : Nat} {t : Tri T.nv} (ht : t ∈ T.tris) {v w : Fin T.nv} (hv : IsVertex t v)
    (hw : IsVertex t w) (hvw : v ≠ w) (c : (Fin T.nv → ℕ) → 𝕜)
    (h : ∀ x y : 𝕜, x + y = 1 → ∑ α ∈ hDofs T p, c α * eval (Triangulation.onSide t v w x y) (hFun T α ⟨t, ht⟩) = 0) :
    ∀ α ∈ hDofs T p, (∀ k, α k ≠ 0 → k = v ∨ k = w) → c α = 0 := by
  intro α hα hs
  have h0 : (Nat.multinomial Finset.univ α : 𝕜) ≠ 0 := by exact_mod_cast (Nat.multinomial_pos _ _).ne'
  have key := homogeneous_zero {v, w} (l := v) (by simp) (hDofs T p) (fun β hβ => (mem_hDofs.mp hβ).1)
    (fun β => c β * (Nat.multinomial Finset.univ β : 𝕜)) ?_ α hα (fun k hk => by simpa using hs k hk)
  · exact (mul_eq_zero.mp key).resolve_right h0
  · intro x hx hs _
    rw [Finset.sum_insert (by simp [hvw]), Finset.sum_singleton] at hs
    have e : between v w (x v) (x w) = x := by
      funext k
      unfold between
      by_cases k1 : k = v
      · subst k1; rw [if_pos rfl, if_neg hvw, add_zero]
      · by_cases k2 : k = w
        · subst k2; rw [if_neg k1, if_pos rfl, zero_add]
        · rw [if_neg k1, if_neg k2, hx k (by simp [k1, k2]), add_zero]
    rw [← h _ _ hs]
    refine Finset.sum_congr rfl fun β _ => ?_
    unfold hFun
    rw [map_mul, eval_C, eval_side (hd t ht) hv hw hs, e]
    ring

open Classical in
theorem wFun_indep (hd : ∀ t ∈ T.tris, T.det t ≠ 0) {q : Nat} (c : (Fin T.nv → ℕ) × Fin T.nv × Fin T.nv → 𝕜)
    (hc : ∀ t, ∑ k ∈ wDofs T q, C (c k) * (wFun T k t).1 = 0 ∧ ∑ k ∈ wDofs T q, C (c k) * (wFun T k t).2 = 0) :
    ∀ k ∈ wDofs T q, c k = 0 := by
  rintro ⟨β0, i0, j0⟩ hk
  obtain ⟨hβ0, hij, hlow, t, ht, hw, vi, vj⟩ := mem_wDofs.mp hk
  dsimp only at hβ0 hij hlow hw vi vj
  have hdt := hd t ht
  obtain ⟨l, m, h, s⟩ := exists_sorted hdt
  let D : Finset (Fin T.nv → ℕ) := Finset.piAntidiag Finset.univ q
  have hD : ∀ β ∈ D, ∑ v, β v = q := fun β hβ => (Finset.mem_piAntidiag.mp hβ).1
  let c' : (Fin T.nv → ℕ) → Fin T.nv → Fin T.nv → 𝕜 := fun β i j => if (β, i, j) ∈ wDofs T q then c (β, i, j) else 0
  let P : (Fin T.nv → 𝕜) → Fin T.nv → Fin T.nv → 𝕜 := fun x i j => ∑ β ∈ D, c' β i j * ∏ v, x v ^ β v
  have hP0 : ∀ x i j, ¬ i < j → P x i j = 0 := fun x i j hn => Finset.sum_eq_zero fun β _ => by
    have : (β, i, j) ∉ wDofs T q := fun hm => hn (mem_wDofs.mp hm).2.1
    simp only [c', if_neg this, zero_mul]
  -- what vanishes at a point
  have total : ∀ x : Fin T.nv → 𝕜, (∀ v, ¬ IsVertex t v → x v = 0) → x l + x m + x h = 1 → ∀ g : Fin T.nv → 𝕜,
      (∀ v, ¬ IsVertex t v → g v = 0) → (∑ k ∈ wDofs T q, c k * ((∏ v, x v ^ k.1 v) * (x k.2.1 * g k.2.2 - x k.2.2 * g k.2.1)) =
        P x l m * (x l * g m - x m * g l) + P x l h * (x l * g h - x h * g l) + P x m h * (x m * g h - x h * g m)) := by
    intro x hx hs g hg
    have e1 : ∑ k ∈ wDofs T q, c k * ((∏ v, x v ^ k.1 v) * (x k.2.1 * g k.2.2 - x k.2.2 * g k.2.1)) =
        ∑ k ∈ D ×ˢ (Finset.univ : Finset (Fin T.nv × Fin T.nv)), c' k.1 k.2.1 k.2.2 * ((∏ v, x v ^ k.1 v) *
          (x k.2.1 * g k.2.2 - x k.2.2 * g k.2.1)) := by
      have : wDofs T q ⊆ D ×ˢ (Finset.univ : Finset (Fin T.nv × Fin T.nv)) := Finset.filter_subset _ _
      rw [← Finset.sum_subset this]
      · refine Finset.sum_congr rfl fun k hk => ?_
        have : c' k.1 k.2.1 k.2.2 = c k := if_pos hk
        rw [this]
      · intro k _ hk
        have : c' k.1 k.2.1 k.2.2 = 0 := if_neg hk
        rw [this, zero_mul]
    rw [e1, Finset.sum_product_right, Fintype.sum_prod_type]
    have e2 : ∀ i j, ∑ β ∈ D, c' β i j * ((∏ v, x v ^ β v) * (x i * g j - x j * g i)) =
        P x i j * (x i * g j - x j * g i) := by
      intro i j
      simp only [P, Finset.sum_mul]
      exact Finset.sum_congr rfl fun β _ => by ring
    simp only [e2]
    have off : ∀ i j, ¬ IsVertex t i ∨ ¬ IsVertex t j → P x i j * (x i * g j - x j * g i) = 0 := by
      rintro i j (hn | hn)
      · rw [hx i hn, hg i hn]; ring
      · rw [hx j hn, hg j hn]; ring
    rw [s.sum _ (fun i hi => Finset.sum_eq_zero fun j _ => off i j (Or.inl hi))]
    rw [s.sum _ (fun j hj => off l j (Or.inr hj)), s.sum _ (fun j hj => off m j (Or.inr hj)), s.sum _ (fun j hj => off h j (Or.inr hj))]
    rw [hP0 x l l (lt_irrefl _), hP0 x m m (lt_irrefl _), hP0 x h h (lt_irrefl _), hP0 x m l s.lm.asymm,
      hP0 x h m s.mh.asymm, hP0 x h l (s.lm.trans s.mh).asymm]
    ring
  have zero : ∀ x : Fin T.nv → 𝕜, (∀ v, ¬ IsVertex t v → x v = 0) → x l + x m + x h = 1 →
      (P x l m * (x l * (T.gradHat t m).1 - x m * (T.gradHat t l).1) + P x l h * (x l * (T.gradHat t h).1 - x h * (T.gradHat t l).1) +
        P x m h * (x m * (T.gradHat t h).1 - x h * (T.gradHat t m).1) = 0) ∧
      (P x l m * (x l * (T.gradHat t m).2 - x m * (T.gradHat t l).2) + P x l h * (x l * (T.gradHat t h).2 - x h * (T.gradHat t l).2) +
        P x m h * (x m * (T.gradHat t h).2 - x h * (T.gradHat t m).2) = 0) := by
    intro x hx hs
    have hs' := corner_sum hdt s hx hs
    obtain ⟨z1, z2⟩ := hc ⟨t, ht⟩
    constructor
    · rw [← total x hx hs (fun v => (T.gradHat t v).1) (fun v hv => by rw [gradHat_off hv])]
      have e := congrArg (eval ![x t.b, x t.c]) z1
      rw [map_sum, map_zero] at e
      rw [← e]
      refine Finset.sum_congr rfl fun k _ => ?_
      unfold wFun
      rw [Prod.smul_fst, smul_eq_mul, map_mul, map_mul, eval_C, eval_monoP hdt hx hs', (eval_whitneyP hdt hx hs' _ _).1]
    · rw [← total x hx hs (fun v => (T.gradHat t v).2) (fun v hv => by rw [gradHat_off hv])]
      have e := congrArg (eval ![x t.b, x t.c]) z2
      rw [map_sum, map_zero] at e
      rw [← e]
      refine Finset.sum_congr rfl fun k _ => ?_
      unfold wFun
      rw [Prod.smul_snd, smul_eq_mul, map_mul, map_mul, eval_C, eval_monoP hdt hx hs', (eval_whitneyP hdt hx hs' _ _).2]
  -- gradients
  obtain ⟨g1, g2⟩ := sum_gradHat hdt
  rw [s.sum _ (fun k hk => by rw [gradHat_off hk])] at g1 g2
  have κ := cross_ne hdt s.vl s.vm s.lm.ne
  set al := (T.gradHat t l).1
  set am := (T.gradHat t m).1
  set ah := (T.gradHat t h).1
  set bl := (T.gradHat t l).2
  set bm := (T.gradHat t m).2
  set bh := (T.gradHat t h).2
  have eah : ah = -al - am := by rw [eq_sub_iff_add_eq, eq_neg_iff_add_eq_zero, ← g1]; ring
  have ebh : bh = -bl - bm := by rw [eq_sub_iff_add_eq, eq_neg_iff_add_eq_zero, ← g2]; ring
  have lh := s.lm.trans s.mh
  -- opposite to the vertex with the lowest number
  have stepA : ∀ β ∈ D, (∀ v, β v ≠ 0 → v = m ∨ v = h) → c' β m h = 0 := by
    intro β hβ hsup
    refine homogeneous_zero {m, h} (l := m) (by simp) D hD (fun β => c' β m h) ?_ β hβ (fun v hv => by simpa using hsup v hv)
    intro x hx hs _
    rw [Finset.sum_insert (by simp [s.mh.ne]), Finset.sum_singleton] at hs
    have hx' : ∀ v, ¬ IsVertex t v → x v = 0 := fun v hv => hx v (by
      simp only [Finset.mem_insert, Finset.mem_singleton]
      rintro (rfl | rfl)
      · exact hv s.vm
      · exact hv s.vh)
    have hl : x l = 0 := hx l (by simp [s.lm.ne, lh.ne])
    obtain ⟨z1, z2⟩ := zero x hx' (by rw [hl, zero_add, hs])
    show P x m h = 0
    rw [hl] at z1 z2
    have : P x m h * ((x m + x h) * (al * bm - bl * am)) = 0 := by
      rw [eah] at z1
      rw [ebh] at z2
      linear_combination bl * z1 - al * z2
    rw [hs, one_mul] at this
    exact (mul_eq_zero.mp this).resolve_right κ
  have stepA' : ∀ β ∈ D, (∀ v, β v ≠ 0 → IsVertex t v) → c' β m h = 0 := by
    intro β hβ hsup
    by_cases hm : (β, m, h) ∈ wDofs T q
    · refine stepA β hβ fun v hv => ?_
      rcases s.eq (hsup v hv) with rfl | e
      · exact absurd ((mem_wDofs.mp hm).2.2.1 v s.lm) hv
      · exact e
    · exact if_neg hm
  have Pmh : ∀ x : Fin T.nv → 𝕜, (∀ v, ¬ IsVertex t v → x v = 0) → P x m h = 0 := by
    intro x hx
    refine Finset.sum_eq_zero fun β hβ => ?_
    by_cases hsup : ∀ v, β v ≠ 0 → IsVertex t v
    · rw [stepA' β hβ hsup, zero_mul]
    · push Not at hsup
      obtain ⟨v, hv, hn⟩ := hsup
      rw [Finset.prod_eq_zero (Finset.mem_univ v) (by rw [hx v hn, zero_pow hv]), mul_zero]
  have stepB : ∀ β ∈ D, (∀ v, β v ≠ 0 → IsVertex t v) → c' β l m = 0 ∧ c' β l h = 0 := by
    intro β hβ hsup
    have points : ∀ x : Fin T.nv → 𝕜, (∀ v, v ∉ ({l, m, h} : Finset (Fin T.nv)) → x v = 0) →
        ∑ v ∈ ({l, m, h} : Finset (Fin T.nv)), x v = 1 → x l ≠ 0 → P x l m = 0 ∧ P x l h = 0 := by
      intro x hx hs hl
      rw [Finset.sum_insert (by simp [s.lm.ne, lh.ne]), Finset.sum_insert (by simp [s.mh.ne]), Finset.sum_singleton, ← add_assoc] at hs
      have hx' : ∀ v, ¬ IsVertex t v → x v = 0 := fun v hv => hx v (by
        simp only [Finset.mem_insert, Finset.mem_singleton]
        rintro (rfl | rfl | rfl)
        · exact hv s.vl
        · exact hv s.vm
        · exact hv s.vh)
      obtain ⟨z1, z2⟩ := zero x hx' hs
      rw [Pmh x hx', zero_mul, add_zero] at z1 z2
      rw [eah] at z1
      rw [ebh] at z2
      have k1 : P x l m * (x l * (al * bm - bl * am)) = 0 := by
        have : P x l m * (x l * (x l + x m + x h) * (al * bm - bl * am)) = 0 := by
          linear_combination (x l * (-bl - bm) - x h * bl) * z1 - (x l * (-al - am) - x h * al) * z2
        rwa [hs, mul_one] at this
      have k2 : P x l h * (x l * (al * bm - bl * am)) = 0 := by
        have : P x l h * (x l * (x l + x m + x h) * (al * bm - bl * am)) = 0 := by
          linear_combination (x l * am - x m * al) * z2 - (x l * bm - x m * bl) * z1
        rwa [hs, mul_one] at this
      exact ⟨(mul_eq_zero.mp k1).resolve_right (mul_ne_zero hl κ), (mul_eq_zero.mp k2).resolve_right (mul_ne_zero hl κ)⟩
    have hsup' : ∀ v, β v ≠ 0 → v ∈ ({l, m, h} : Finset (Fin T.nv)) := fun v hv => by simpa using s.eq (hsup v hv)
    exact ⟨homogeneous_zero {l, m, h} (l := l) (by simp) D hD (fun β => c' β l m) (fun x a b d => (points x a b d).1) β hβ hsup',
      homogeneous_zero {l, m, h} (l := l) (by simp) D hD (fun β => c' β l h) (fun x a b d => (points x a b d).2) β hβ hsup'⟩
  have hβD : β0 ∈ D := Finset.mem_piAntidiag.mpr ⟨hβ0, fun _ _ => Finset.mem_univ _⟩
  have hfin : c' β0 i0 j0 = 0 := by
    rcases s.eq vi with rfl | rfl | rfl <;> rcases s.eq vj with rfl | rfl | rfl
    · exact absurd hij (lt_irrefl _)
    · exact (stepB β0 hβD hw).1
    · exact (stepB β0 hβD hw).2
    · exact absurd hij s.lm.asymm
    · exact absurd hij (lt_irrefl _)
    · exact stepA' β0 hβD hw
    · exact absurd hij lh.asymm
    · exact absurd hij s.mh.asymm
    · exact absurd hij (lt_irrefl _)
  have : c' β0 i0 j0 = c (β0, i0, j0) := if_pos hk
  rw [← this, hfin]

end
end Tulip
