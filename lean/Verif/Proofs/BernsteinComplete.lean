import Verif.Spec.Spaces
import Verif.Proofs.BernsteinBasis
import Verif.Proofs.Plates

/-!
# The spaces of `BernsteinSpaces` are complete
-/

set_option linter.unusedSectionVars false

namespace Tulip
open Matrix Spec MvPolynomial

section
variable {𝕜 : Type} [Field 𝕜] {T : Triangulation 𝕜}

/-- The mesh of one triangle. -/
abbrev only (T : Triangulation 𝕜) (t : Tri T.nv) : Triangulation 𝕜 := { T with tris := [t] }

theorem only_mem {t : Tri T.nv} : t ∈ (only T t).tris := List.mem_singleton.mpr rfl

theorem only_det {t : Tri T.nv} (h : T.det t ≠ 0) : ∀ t' ∈ (only T t).tris, (only T t).det t' ≠ 0 := by
  intro t' ht'
  rw [List.mem_singleton.mp ht']
  exact h

theorem monoP_two {t : Tri T.nv} (h : T.det t ≠ 0) (m n : ℕ) :
    monoP 𝕜 t (fun w => (if w = t.b then m else 0) + (if w = t.c then n else 0)) = X 0 ^ m * X 1 ^ n := by
  obtain ⟨ha, hb, hc⟩ := baryP_verts h
  unfold monoP
  simp only [pow_add, Finset.prod_mul_distrib]
  congr 1
  · rw [Finset.prod_eq_single t.b]
    · rw [if_pos rfl, hb]
    · intro w _ hw; rw [if_neg hw, pow_zero]
    · intro hw; exact absurd (Finset.mem_univ _) hw
  · rw [Finset.prod_eq_single t.c]
    · rw [if_pos rfl, hc]
    · intro w _ hw; rw [if_neg hw, pow_zero]
    · intro hw; exact absurd (Finset.mem_univ _) hw

/-- Polynomials of degree at most `q`. -/
theorem poly_mem {t : Tri T.nv} (h : T.det t ≠ 0) {q : Nat} {P : MvPolynomial (Fin 2) 𝕜} (hP : P.totalDegree ≤ q) :
    (fun _ => P : Functions (only T t)) ∈ rawH (only T t) q := by
  have e : (fun _ => P : Functions (only T t)) =
      ∑ v ∈ P.support, P.coeff v • (fun _ => X 0 ^ v 0 * X 1 ^ v 1 : Functions (only T t)) := by
    funext t'
    rw [Finset.sum_apply]
    conv_lhs => rw [P.as_sum]
    refine Finset.sum_congr rfl fun v _ => ?_
    rw [Pi.smul_apply, smul_eq_C_mul, monomial_eq, Finsupp.prod_fintype _ _ (fun _ => pow_zero _), Fin.prod_univ_two]
  rw [e]
  refine Submodule.sum_mem _ fun v hv => Submodule.smul_mem _ _ ?_
  have hdeg : v 0 + v 1 ≤ q := by
    have := (le_totalDegree hv).trans hP
    rwa [Finsupp.sum_fintype _ _ (fun _ => rfl), Fin.sum_univ_two] at this
  obtain ⟨r, rfl⟩ := Nat.exists_eq_add_of_le hdeg
  refine rawH_up (only_det h) ?_ r
  let β : Fin T.nv → ℕ := fun w => (if w = t.b then v 0 else 0) + (if w = t.c then v 1 else 0)
  refine Submodule.subset_span ⟨β, ?_, ?_⟩
  · show ∑ w, β w = v 0 + v 1
    simp only [β, Finset.sum_add_distrib, Finset.sum_ite_eq', Finset.mem_univ, if_true]
  · funext t'
    have ht' : t'.1 = t := List.mem_singleton.mp t'.2
    show monoP 𝕜 t'.1 β = X 0 ^ v 0 * X 1 ^ v 1
    rw [ht']
    exact monoP_two h _ _

/-- Products of polynomials and fields. -/
theorem rawH_smul_rawW {q r : Nat} {P : Functions T} {f : Fields T} (hP : P ∈ rawH T q) (hf : f ∈ rawW T r) :
    (fun t => P t • f t : Fields T) ∈ rawW T (q + r) := by
  unfold rawH at hP
  induction hP using Submodule.span_induction with
  | mem P hP =>
    obtain ⟨α, hα, rfl⟩ := hP
    change ∑ v, α v = q at hα
    let L : Fields T →ₗ[𝕜] Fields T :=
      { toFun := fun f t => monoP 𝕜 t.1 α • f t
        map_add' := fun f g => by funext t; exact smul_add _ _ _
        map_smul' := fun c f => by funext t; exact smul_comm (monoP 𝕜 t.1 α) c (f t) }
    have : rawW T r ≤ (rawW T (q + r)).comap L := by
      unfold rawW
      rw [Submodule.span_le]
      rintro _ ⟨⟨β, i, j⟩, hβ, rfl⟩
      change ∑ v, β v = r at hβ
      refine Submodule.subset_span ⟨(fun v => α v + β v, i, j), ?_, ?_⟩
      · show ∑ w, (α w + β w) = q + r
        rw [Finset.sum_add_distrib, hα, hβ]
      · funext t
        show monoP 𝕜 t.1 (fun v => α v + β v) • whitneyP T t.1 i j = monoP 𝕜 t.1 α • (monoP 𝕜 t.1 β • whitneyP T t.1 i j)
        rw [smul_smul]
        congr 1
        unfold monoP
        simp only [pow_add, Finset.prod_mul_distrib]
    exact this hf
  | zero =>
    have : (fun t => (0 : Functions T) t • f t : Fields T) = 0 := by funext t; exact zero_smul _ _
    rw [this]; exact Submodule.zero_mem _
  | add P Q _ _ h1 h2 =>
    have : (fun t => (P + Q) t • f t : Fields T) = (fun t => P t • f t) + fun t => Q t • f t := by
      funext t; exact add_smul _ _ _
    rw [this]; exact Submodule.add_mem _ h1 h2
  | smul c P _ h1 =>
    have : (fun t => (c • P) t • f t : Fields T) = c • (fun t => P t • f t) := by
      funext t; exact smul_assoc c (P t) (f t)
    rw [this]; exact Submodule.smul_mem _ _ h1

/-- The rotated position is a combination of Whitney functions. -/
theorem rotation_mem (hd : ∀ t ∈ T.tris, T.det t ≠ 0) :
    (fun t => (-linearOn t.1 (fun v => (T.coord v).2), linearOn t.1 (fun v => (T.coord v).1)) : Fields T) ∈ rawW T 0 := by
  have : (fun t => (-linearOn t.1 (fun v => (T.coord v).2), linearOn t.1 (fun v => (T.coord v).1)) : Fields T) =
      ∑ i, ∑ j, ((T.coord i).1 * (T.coord j).2) • wFun T (0, i, j) := by
    funext t
    have hdt := hd t.1 t.2
    have hdef : T.det t.1 = ((T.coord t.1.b).1 - (T.coord t.1.a).1) * ((T.coord t.1.c).2 - (T.coord t.1.a).2) -
      ((T.coord t.1.c).1 - (T.coord t.1.a).1) * ((T.coord t.1.b).2 - (T.coord t.1.a).2) := by
      unfold Triangulation.det; ring
    obtain ⟨ha, hb, hc⟩ := baryP_verts hdt
    have lin : ∀ f : Fin T.nv → 𝕜, ∑ v, C (f v) * baryP 𝕜 t.1 v = linearOn t.1 f := by
      intro f
      rw [sum_verts hdt _ (fun k hk => by rw [baryP_off hk, mul_zero]), ha, hb, hc]
      rfl
    have grad : ∀ f : Fin T.nv → 𝕜, (∑ v, f v * (T.gradHat t.1 v).1, ∑ v, f v * (T.gradHat t.1 v).2) =
        vectorAt (T.gradHat t.1) f := fun f => rfl
    have gx := (grad (fun v => (T.coord v).1)).trans (vectorAt_gradHat hdt _)
    have gy := (grad (fun v => (T.coord v).2)).trans (vectorAt_gradHat hdt _)
    have x1 : ∑ v, (T.coord v).1 * (T.gradHat t.1 v).1 = 1 := by
      rw [(Prod.mk.inj gx).1, div_eq_one_iff_eq hdt, hdef]; ring
    have x2 : ∑ v, (T.coord v).1 * (T.gradHat t.1 v).2 = 0 := by
      rw [(Prod.mk.inj gx).2, div_eq_zero_iff]; left; ring
    have y1 : ∑ v, (T.coord v).2 * (T.gradHat t.1 v).1 = 0 := by
      rw [(Prod.mk.inj gy).1, div_eq_zero_iff]; left; ring
    have y2 : ∑ v, (T.coord v).2 * (T.gradHat t.1 v).2 = 1 := by
      rw [(Prod.mk.inj gy).2, div_eq_one_iff_eq hdt, hdef]; ring
    simp only [Finset.sum_apply, Pi.smul_apply]
    have e : ∀ i j, ((T.coord i).1 * (T.coord j).2) • wFun T (0, i, j) t =
        (C (T.coord i).1 * baryP 𝕜 t.1 i * C ((T.coord j).2 * (T.gradHat t.1 j).1) -
          C (T.coord j).2 * baryP 𝕜 t.1 j * C ((T.coord i).1 * (T.gradHat t.1 i).1),
         C (T.coord i).1 * baryP 𝕜 t.1 i * C ((T.coord j).2 * (T.gradHat t.1 j).2) -
          C (T.coord j).2 * baryP 𝕜 t.1 j * C ((T.coord i).1 * (T.gradHat t.1 i).2)) := by
      intro i j
      have h0 : monoP 𝕜 t.1 (0 : Fin T.nv → ℕ) = 1 := by simp [monoP]
      unfold wFun whitneyP
      dsimp only
      rw [h0, one_smul, Prod.smul_mk]
      simp only [smul_eq_C_mul, C_mul]
      refine Prod.ext ?_ ?_ <;> · dsimp only; ring
    simp only [e]
    refine Prod.ext ?_ ?_
    · simp only [Prod.fst_sum, Finset.sum_sub_distrib, ← Finset.mul_sum, ← map_sum, y1, map_zero, mul_zero]
      rw [Finset.sum_comm]
      simp only [← Finset.mul_sum, ← map_sum, x1, C_1, mul_one, lin]
      simp
    · simp only [Prod.snd_sum, Finset.sum_sub_distrib, ← Finset.mul_sum, ← map_sum, y2, C_1, mul_one, lin]
      rw [Finset.sum_comm]
      simp only [← Finset.mul_sum, ← map_sum, x2, map_zero, mul_zero]
      simp
  rw [this]
  exact Submodule.sum_mem _ fun i _ => Submodule.sum_mem _ fun j _ => Submodule.smul_mem _ _
    (Submodule.subset_span ⟨_, by show ∑ v, (0 : Fin T.nv → ℕ) v = 0; simp, rfl⟩)

/-- A uniform field is a field of lowest order. -/
theorem uniform_mem (hd : ∀ t ∈ T.tris, T.det t ≠ 0) (g : 𝕜 × 𝕜) : (fun _ => (C g.1, C g.2) : Fields T) ∈ rawW T 0 := by
  have : (fun _ => (C g.1, C g.2) : Fields T) = ∑ v, (g.1 * (T.coord v).1 + g.2 * (T.coord v).2) •
      (fun t => (C (T.gradHat t.1 v).1, C (T.gradHat t.1 v).2) : Fields T) := by
    funext t
    have e := vectorAt_gradHat (hd t.1 t.2) (fun v => g.1 * (T.coord v).1 + g.2 * (T.coord v).2)
    have h1 := congrArg Prod.fst e
    have h2 := congrArg Prod.snd e
    simp only [vectorAt] at h1 h2
    have hdt := hd t.1 t.2
    have hdef : T.det t.1 = ((T.coord t.1.b).1 - (T.coord t.1.a).1) * ((T.coord t.1.c).2 - (T.coord t.1.a).2) -
      ((T.coord t.1.c).1 - (T.coord t.1.a).1) * ((T.coord t.1.b).2 - (T.coord t.1.a).2) := by
      unfold Triangulation.det; ring
    rw [Finset.sum_apply]
    refine Prod.ext ?_ ?_
    · rw [Prod.fst_sum]
      simp only [Pi.smul_apply, Prod.smul_fst, smul_eq_C_mul, ← C_mul, ← map_sum]
      congr 1
      rw [h1, eq_div_iff hdt, hdef]
      ring
    · rw [Prod.snd_sum]
      simp only [Pi.smul_apply, Prod.smul_snd, smul_eq_C_mul, ← C_mul, ← map_sum]
      congr 1
      rw [h2, eq_div_iff hdt, hdef]
      ring
  rw [this]
  exact Submodule.sum_mem _ fun v _ => Submodule.smul_mem _ _ (gradHat_mem hd v)

/-- Coefficients in one triangle. -/
theorem local_nodal [CharZero 𝕜] {t : Tri T.nv} (h : T.det t ≠ 0) {p : Nat} {P : MvPolynomial (Fin 2) 𝕜} (hP : P.totalDegree ≤ p) :
    ∃ c : (Fin T.nv → ℕ) → 𝕜, ∑ α ∈ hDofs (only T t) p, C (c α) * (C (Nat.multinomial Finset.univ α : 𝕜) * monoP 𝕜 t α) = P := by
  obtain ⟨c, hc⟩ := (Submodule.mem_span_image_finset_iff_exists_fun' 𝕜).mp (rawH_le _ (poly_mem h hP))
  refine ⟨c, ?_⟩
  have := congrFun hc ⟨t, only_mem⟩
  rw [Finset.sum_apply] at this
  rw [← this]
  exact Finset.sum_congr rfl fun α _ => (smul_eq_C_mul _ _).symm

theorem local_field {t : Tri T.nv} (h : T.det t ≠ 0) {q : Nat} {a b c : MvPolynomial (Fin 2) 𝕜}
    (ha : a.totalDegree ≤ q) (hb : b.totalDegree ≤ q) (hc : c.totalDegree ≤ q) :
    ∃ u : (Fin T.nv → ℕ) × Fin T.nv × Fin T.nv → 𝕜,
      ∑ k ∈ wDofs (only T t) q, u k • (monoP 𝕜 t k.1 • whitneyP T t k.2.1 k.2.2) =
        (-(b + c * linearOn t (fun v => (T.coord v).2)), a + c * linearOn t (fun v => (T.coord v).1)) := by
  have h1 := uniform_mem (only_det h) (1, 0)
  have h2 := uniform_mem (only_det h) (0, 1)
  have h3 := rotation_mem (only_det h)
  have k1 := rawH_smul_rawW (poly_mem h ha) h2
  have k2 := rawH_smul_rawW (poly_mem h (q := q) (P := -b) (by rw [totalDegree_neg]; exact hb)) h1
  have k3 := rawH_smul_rawW (poly_mem h hc) h3
  have hm := Submodule.add_mem _ (Submodule.add_mem _ k1 k2) k3
  obtain ⟨u, hu⟩ := (Submodule.mem_span_image_finset_iff_exists_fun' 𝕜).mp (rawW_le _ hm)
  refine ⟨u, ?_⟩
  have := congrFun hu ⟨t, only_mem⟩
  rw [Finset.sum_apply] at this
  refine Eq.trans ?_ (this.trans ?_)
  · rfl
  · refine Prod.ext ?_ ?_
    · show a * C 0 + -b * C 1 + c * -linearOn t (fun v => (T.coord v).2) = _
      simp only [C_0, C_1]; ring
    · show a * C 1 + -b * C 0 + c * linearOn t (fun v => (T.coord v).1) = _
      simp only [C_0, C_1]; ring

/-- Triangles of a conforming mesh with the same vertices are the same. -/
theorem same_vertices [LinearOrder 𝕜] [IsStrictOrderedRing 𝕜] (hT : Proper T) (hc : Conforming T) {t t' : Tri T.nv} (ht : t ∈ T.tris)
    (ht' : t' ∈ T.tris) (h : ∀ v, IsVertex t v → IsVertex t' v) : t = t' := by
  have hn := List.nodup_flatMap.mp hc.sides
  by_contra hne
  haveI : Std.Symm (Function.onFun List.Disjoint (Tri.sides (nv := T.nv))) := ⟨fun _ _ h => List.Disjoint.symm h⟩
  have hdis := hn.2.forall ht ht' hne
  obtain ⟨n1, n2, n3⟩ := det_ne (hT.area t ht).ne'
  obtain ⟨m1, m2, m3⟩ := det_ne (hT.area t' ht').ne'
  have hmem : (t.a, t.b) ∈ t.sides := by simp [Tri.sides]
  have h1 := h t.a (Or.inl rfl)
  have h2 := h t.b (Or.inr (Or.inl rfl))
  have h3 := h t.c (Or.inr (Or.inr rfl))
  have key : (t.a, t.b) ∈ t'.sides ∨ T.det t' = -T.det t := by
    simp only [Tri.sides, List.mem_cons, Prod.mk.injEq, List.not_mem_nil, or_false]
    unfold Triangulation.det
    rcases h1 with e1 | e1 | e1 <;> rcases h2 with e2 | e2 | e2 <;> rcases h3 with e3 | e3 | e3 <;>
      rw [e1, e2, e3] <;>
      first
        | exact absurd (e1.trans e2.symm) n1
        | exact absurd (e2.trans e3.symm) n2
        | exact absurd (e3.trans e1.symm) n3
        | (left; simp only [true_and, true_or, or_true, and_self]; done)
        | (right; ring1)
  rcases key with k | k
  · exact hdis hmem k
  · have := hT.area t' ht'
    rw [k] at this
    linarith [hT.area t ht]

theorem hDofs_only {t : Tri T.nv} {p : Nat} {α : Fin T.nv → ℕ} : α ∈ hDofs (only T t) p ↔ ∑ v, α v = p ∧ Within t α := by
  rw [mem_hDofs]
  exact ⟨fun ⟨h, t', ht', hw⟩ => ⟨h, by rw [List.mem_singleton.mp ht'] at hw; exact hw⟩, fun ⟨h, hw⟩ => ⟨h, t, only_mem, hw⟩⟩

theorem wDofs_only {t : Tri T.nv} {q : Nat} {k : (Fin T.nv → ℕ) × Fin T.nv × Fin T.nv} : k ∈ wDofs (only T t) q ↔
    ∑ v, k.1 v = q ∧ k.2.1 < k.2.2 ∧ (∀ l, l < k.2.1 → k.1 l = 0) ∧ Within t k.1 ∧ IsVertex t k.2.1 ∧ IsVertex t k.2.2 := by
  rw [mem_wDofs]
  constructor
  · rintro ⟨h1, h2, h3, t', ht', hw⟩
    rw [List.mem_singleton.mp ht'] at hw
    exact ⟨h1, h2, h3, hw⟩
  · rintro ⟨h1, h2, h3, hw⟩
    exact ⟨h1, h2, h3, t, only_mem, hw⟩

theorem between_eq {v w : Fin T.nv} {x : Fin T.nv → 𝕜} (hx : ∀ k, k ∉ ({v, w} : Finset (Fin T.nv)) → x k = 0)
    (hs : ∑ k ∈ ({v, w} : Finset (Fin T.nv)), x k = 1) :
    ∃ a b : 𝕜, a + b = 1 ∧ x = between v w a b := by
  by_cases e : v = w
  · subst e
    refine ⟨1, 0, add_zero 1, ?_⟩
    simp at hs
    funext k
    unfold between
    by_cases k1 : k = v
    · subst k1; rw [if_pos rfl, if_pos rfl, hs, add_zero]
    · rw [if_neg k1, if_neg k1, add_zero]
      exact hx k (by simp [k1])
  · rw [Finset.sum_insert (by simp [e]), Finset.sum_singleton] at hs
    refine ⟨x v, x w, hs, ?_⟩
    funext k
    unfold between
    by_cases k1 : k = v
    · subst k1; rw [if_pos rfl, if_neg e, add_zero]
    · by_cases k2 : k = w
      · subst k2; rw [if_neg k1, if_pos rfl, zero_add]
      · rw [if_neg k1, if_neg k2, hx k (by simp [k1, k2]), add_zero]

/-- The vertices of a multi-index that belongs to two different triangles are on a common side. -/
theorem common_side {t t' : Tri T.nv} {A : Fin T.nv → Prop} (h0 : ∃ v, A v) (hA : ∀ v, A v → IsVertex t v) (hA' : ∀ v, A v → IsVertex t' v)
    (hne : ¬ ∀ v, IsVertex t v → IsVertex t' v) : ∃ v w, A v ∧ A w ∧ ∀ k, A k → k = v ∨ k = w := by
  have miss : ¬ (A t.a ∧ A t.b ∧ A t.c) := by
    rintro ⟨h1, h2, h3⟩
    refine hne fun v hv => hA' v ?_
    rcases hv with rfl | rfl | rfl <;> assumption
  by_cases ha : A t.a
  · by_cases hb : A t.b
    · refine ⟨t.a, t.b, ha, hb, fun k hk => ?_⟩
      rcases hA k hk with rfl | rfl | rfl
      · exact Or.inl rfl
      · exact Or.inr rfl
      · exact absurd ⟨ha, hb, hk⟩ miss
    · by_cases hc : A t.c
      · refine ⟨t.a, t.c, ha, hc, fun k hk => ?_⟩
        rcases hA k hk with rfl | rfl | rfl
        · exact Or.inl rfl
        · exact absurd hk hb
        · exact Or.inr rfl
      · refine ⟨t.a, t.a, ha, ha, fun k hk => ?_⟩
        rcases hA k hk with rfl | rfl | rfl
        · exact Or.inl rfl
        · exact absurd hk hb
        · exact absurd hk hc
  · by_cases hb : A t.b
    · by_cases hc : A t.c
      · refine ⟨t.b, t.c, hb, hc, fun k hk => ?_⟩
        rcases hA k hk with rfl | rfl | rfl
        · exact absurd hk ha
        · exact Or.inl rfl
        · exact Or.inr rfl
      · refine ⟨t.b, t.b, hb, hb, fun k hk => ?_⟩
        rcases hA k hk with rfl | rfl | rfl
        · exact absurd hk ha
        · exact Or.inl rfl
        · exact absurd hk hc
    · obtain ⟨v, hv⟩ := h0
      have hc : A t.c := by
        rcases hA v hv with rfl | rfl | rfl
        · exact absurd hv ha
        · exact absurd hv hb
        · exact hv
      refine ⟨t.c, t.c, hc, hc, fun k hk => ?_⟩
      rcases hA k hk with rfl | rfl | rfl
      · exact absurd hk ha
      · exact absurd hk hb
      · exact Or.inl rfl

variable [CharZero 𝕜]

open Classical in
/-- All continuous piecewise polynomials are combinations of Bernstein polynomials. -/
theorem nodal_mem (hd : ∀ t ∈ T.tris, T.det t ≠ 0)
    (hsame : ∀ t ∈ T.tris, ∀ t' ∈ T.tris, (∀ v, IsVertex t v → IsVertex t' v) → t = t') {p : Nat} (hp : 1 ≤ p)
    {P : Tri T.nv → MvPolynomial (Fin 2) 𝕜} (hP : PiecewisePolynomial T p P) :
    (fun t => P t.1 : Functions T) ∈ Submodule.span 𝕜 (hFun T '' (hDofs T p : Set _)) := by
  have loc : ∀ t : {t : Tri T.nv // t ∈ T.tris}, ∃ c : (Fin T.nv → ℕ) → 𝕜,
      ∑ α ∈ hDofs (only T t.1) p, C (c α) * (C (Nat.multinomial Finset.univ α : 𝕜) * monoP 𝕜 t.1 α) = P t.1 :=
    fun t => local_nodal (hd t.1 t.2) (hP.degree t.1 t.2)
  choose c hc using loc
  have sub : ∀ t : {t : Tri T.nv // t ∈ T.tris}, hDofs (only T t.1) p ⊆ hDofs T p := by
    intro t α hα
    obtain ⟨h1, h2⟩ := hDofs_only.mp hα
    exact mem_hDofs.mpr ⟨h1, t.1, t.2, h2⟩
  have agree : ∀ (t t' : {t : Tri T.nv // t ∈ T.tris}) (α : Fin T.nv → ℕ), ∑ v, α v = p → Within t.1 α → Within t'.1 α →
      c t α = c t' α := by
    intro t t' α hα hw hw'
    by_cases hne : ∀ v, IsVertex t.1 v → IsVertex t'.1 v
    · have := hsame t.1 t.2 t'.1 t'.2 hne
      rw [Subtype.ext this]
    · have h0 : ∃ v, α v ≠ 0 := by
        by_contra hz
        push Not at hz
        simp [hz] at hα
        omega
      obtain ⟨v, w, hv, hw2, hs⟩ := common_side (A := fun v => α v ≠ 0) h0 hw hw' hne
      let d : (Fin T.nv → ℕ) → 𝕜 := fun β =>
        ((if β ∈ hDofs (only T t.1) p then c t β else 0) - (if β ∈ hDofs (only T t'.1) p then c t' β else 0)) *
          (Nat.multinomial Finset.univ β : 𝕜)
      have key := homogeneous_zero {v, w} (l := v) (by simp) (hDofs T p) (fun β hβ => (mem_hDofs.mp hβ).1) d ?_ α
        (mem_hDofs.mpr ⟨hα, t.1, t.2, hw⟩) (fun k hk => by simpa using hs k hk)
      · have hm : (Nat.multinomial Finset.univ α : 𝕜) ≠ 0 := by exact_mod_cast (Nat.multinomial_pos _ _).ne'
        have := (mul_eq_zero.mp key).resolve_right hm
        rw [if_pos (hDofs_only.mpr ⟨hα, hw⟩), if_pos (hDofs_only.mpr ⟨hα, hw'⟩)] at this
        exact sub_eq_zero.mp this
      · intro x hx hsum _
        obtain ⟨a, b, hab, rfl⟩ := between_eq hx hsum
        have ev : ∀ s : {t : Tri T.nv // t ∈ T.tris}, IsVertex s.1 v → IsVertex s.1 w →
            ∑ β ∈ hDofs T p, (if β ∈ hDofs (only T s.1) p then c s β else 0) * (Nat.multinomial Finset.univ β : 𝕜) *
              ∏ k, between v w a b k ^ β k = eval (Triangulation.onSide s.1 v w a b) (P s.1) := by
          intro s hsv hsw
          rw [← hc s, map_sum, ← Finset.sum_subset (sub s)]
          · refine Finset.sum_congr rfl fun β hβ => ?_
            rw [if_pos hβ, map_mul, map_mul, eval_C, eval_C, eval_side (hd s.1 s.2) hsv hsw hab, mul_assoc]
          · intro β _ hβ
            rw [if_neg hβ]; ring
        have e1 := ev t (hw v hv) (hw w hw2)
        have e2 := ev t' (hw' v hv) (hw' w hw2)
        rw [hP.continuous t.1 t.2 t'.1 t'.2 v w (hw v hv) (hw w hw2) (hw' v hv) (hw' w hw2) a b hab, ← e2] at e1
        rw [← sub_eq_zero, ← Finset.sum_sub_distrib] at e1
        rw [← e1]
        refine Finset.sum_congr rfl fun β _ => ?_
        simp only [d]
        ring
  let u : (Fin T.nv → ℕ) → 𝕜 := fun α => if h : ∃ t : {t : Tri T.nv // t ∈ T.tris}, Within t.1 α then c h.choose α else 0
  refine (Submodule.mem_span_image_finset_iff_exists_fun' 𝕜).mpr ⟨u, ?_⟩
  funext t
  rw [Finset.sum_apply, ← hc t, ← Finset.sum_subset (sub t)]
  · refine Finset.sum_congr rfl fun α hα => ?_
    obtain ⟨h1, h2⟩ := hDofs_only.mp hα
    have hex : ∃ t : {t : Tri T.nv // t ∈ T.tris}, Within t.1 α := ⟨t, h2⟩
    have : u α = c t α := by
      simp only [u, dif_pos hex]
      exact agree _ _ α h1 hex.choose_spec h2
    rw [Pi.smul_apply, this, smul_eq_C_mul]
    rfl
  · intro α hα hno
    have hw : ¬ Within t.1 α := fun hw => hno (hDofs_only.mpr ⟨(mem_hDofs.mp hα).1, hw⟩)
    unfold Within at hw
    push Not at hw
    obtain ⟨v, h1, h2⟩ := hw
    show u α • (C _ * monoP 𝕜 t.1 α) = 0
    rw [monoP_off h2 h1, mul_zero, smul_zero]

/-- Derivative of a barycentric coordinate along a side. -/
theorem gradHat_along {t : Tri T.nv} (h : T.det t ≠ 0) {v w : Fin T.nv} (hv : IsVertex t v) (hw : IsVertex t w) (m : Fin T.nv) :
    (T.gradHat t m).1 * ((T.coord w).1 - (T.coord v).1) + (T.gradHat t m).2 * ((T.coord w).2 - (T.coord v).2) =
      (if m = w then 1 else 0) - (if m = v then 1 else 0) := by
  by_cases hm : IsVertex t m
  · obtain ⟨ga, gb, gc⟩ := gradHat_verts h
    obtain ⟨n1, n2, n3⟩ := det_ne h
    have hdef : T.det t = ((T.coord t.b).1 - (T.coord t.a).1) * ((T.coord t.c).2 - (T.coord t.a).2) -
      ((T.coord t.c).1 - (T.coord t.a).1) * ((T.coord t.b).2 - (T.coord t.a).2) := by
      unfold Triangulation.det; ring
    rcases hm with rfl | rfl | rfl <;> rcases hv with rfl | rfl | rfl <;> rcases hw with rfl | rfl | rfl <;>
      simp only [ga, gb, gc, n1, n2, n3, n1.symm, n2.symm, n3.symm, if_true, if_false] <;>
      first
        | ring1
        | (field_simp; rw [hdef]; ring1)
        | (field_simp; ring1)
  · rw [gradHat_off hm, if_neg (fun e : m = w => hm (e ▸ hw)), if_neg (fun e : m = v => hm (e ▸ hv))]
    ring

/-- Tangential component of a field on a side. -/
theorem tangential {t : Tri T.nv} (h : T.det t ≠ 0) {v w : Fin T.nv} (hv : IsVertex t v) (hw : IsVertex t w) {x y : 𝕜}
    (hxy : x + y = 1) (β : Fin T.nv → ℕ) (i j : Fin T.nv) :
    eval (Triangulation.onSide t v w x y) (monoP 𝕜 t β • whitneyP T t i j).1 * ((T.coord w).1 - (T.coord v).1) +
      eval (Triangulation.onSide t v w x y) (monoP 𝕜 t β • whitneyP T t i j).2 * ((T.coord w).2 - (T.coord v).2) =
    (∏ k, between v w x y k ^ β k) * (between v w x y i * ((if j = w then 1 else 0) - (if j = v then 1 else 0)) -
      between v w x y j * ((if i = w then 1 else 0) - (if i = v then 1 else 0))) := by
  have bary : ∀ m, eval (Triangulation.onSide t v w x y) (baryP 𝕜 t m) = between v w x y m := by
    intro m
    have := eval_side h hv hw hxy (bump 0 m)
    rw [monoP_add] at this
    have h0 : monoP 𝕜 t (0 : Fin T.nv → ℕ) = 1 := by simp [monoP]
    rw [h0, mul_one] at this
    rw [this, Finset.prod_eq_single m]
    · simp [bump]
    · intro k _ hk; simp [bump, hk]
    · intro hk; exact absurd (Finset.mem_univ _) hk
  unfold whitneyP
  simp only [Prod.smul_mk, smul_eq_mul, map_mul, map_sub, eval_C, bary, eval_side h hv hw hxy]
  rw [← gradHat_along h hv hw i, ← gradHat_along h hv hw j]
  ring

open Classical in
/-- All fields of order `q + 1` with continuous tangential components are combinations of the functions of
`BernsteinSpaces`. -/
theorem field_mem (hd : ∀ t ∈ T.tris, T.det t ≠ 0)
    (hsame : ∀ t ∈ T.tris, ∀ t' ∈ T.tris, (∀ v, IsVertex t v → IsVertex t' v) → t = t') {q : Nat}
    {F : Tri T.nv → MvPolynomial (Fin 2) 𝕜 × MvPolynomial (Fin 2) 𝕜} (hF : RaviartThomas T (q + 1) F) :
    (fun t => (-(F t.1).2, (F t.1).1) : Fields T) ∈ Submodule.span 𝕜 (wFun T '' (wDofs T q : Set _)) := by
  have loc : ∀ t : {t : Tri T.nv // t ∈ T.tris}, ∃ u : (Fin T.nv → ℕ) × Fin T.nv × Fin T.nv → 𝕜,
      ∑ k ∈ wDofs (only T t.1) q, u k • (monoP 𝕜 t.1 k.1 • whitneyP T t.1 k.2.1 k.2.2) = (-(F t.1).2, (F t.1).1) := by
    intro t
    obtain ⟨a, b, c, ha, hb, hc, e⟩ := hF.shape t.1 t.2
    obtain ⟨u, hu⟩ := local_field (hd t.1 t.2) (Nat.lt_succ_iff.mp ha) (Nat.lt_succ_iff.mp hb) (Nat.lt_succ_iff.mp hc)
    exact ⟨u, by rw [hu, e]⟩
  choose c hc using loc
  have sub : ∀ t : {t : Tri T.nv // t ∈ T.tris}, wDofs (only T t.1) q ⊆ wDofs T q := by
    intro t k hk
    obtain ⟨h1, h2, h3, h4⟩ := wDofs_only.mp hk
    exact mem_wDofs.mpr ⟨h1, h2, h3, t.1, t.2, h4⟩
  have agree : ∀ (t t' : {t : Tri T.nv // t ∈ T.tris}) (k : (Fin T.nv → ℕ) × Fin T.nv × Fin T.nv), k ∈ wDofs (only T t.1) q →
      k ∈ wDofs (only T t'.1) q → c t k = c t' k := by
    rintro t t' ⟨β, i, j⟩ hk hk'
    obtain ⟨hβ, hij, hlow, hw, vi, vj⟩ := wDofs_only.mp hk
    obtain ⟨_, _, _, hw', vi', vj'⟩ := wDofs_only.mp hk'
    dsimp only at hβ hij hlow hw vi vj hw' vi' vj'
    by_cases hne : ∀ v, IsVertex t.1 v → IsVertex t'.1 v
    · rw [Subtype.ext (hsame t.1 t.2 t'.1 t'.2 hne)]
    · have hs : ∀ k, β k ≠ 0 → k = i ∨ k = j := by
        obtain ⟨v, w, hv, hw2, hs⟩ := common_side (A := fun v => β v ≠ 0 ∨ v = i ∨ v = j) ⟨i, Or.inr (Or.inl rfl)⟩
          (by rintro v (h | rfl | rfl); exacts [hw v h, vi, vj]) (by rintro v (h | rfl | rfl); exacts [hw' v h, vi', vj']) hne
        intro k hk
        have h1 := hs k (Or.inl hk)
        have h2 := hs i (Or.inr (Or.inl rfl))
        have h3 := hs j (Or.inr (Or.inr rfl))
        have hij' := hij.ne
        rcases h2 with e2 | e2 <;> rcases h3 with e3 | e3
        · exact absurd (e2.trans e3.symm) hij'
        · rw [e2, e3]; exact h1
        · rw [e2, e3]; exact h1.symm
        · exact absurd (e2.trans e3.symm) hij'
      let D : Finset (Fin T.nv → ℕ) := Finset.piAntidiag Finset.univ q
      have hD : ∀ γ ∈ D, ∑ v, γ v = q := fun γ hγ => (Finset.mem_piAntidiag.mp hγ).1
      let e : {t : Tri T.nv // t ∈ T.tris} → (Fin T.nv → ℕ) × Fin T.nv × Fin T.nv → 𝕜 := fun s k =>
        if k ∈ wDofs (only T s.1) q then c s k else 0
      have key := homogeneous_zero {i, j} (l := i) (by simp) D hD (fun γ => e t (γ, i, j) - e t' (γ, i, j)) ?_ β
        (Finset.mem_piAntidiag.mpr ⟨hβ, fun _ _ => Finset.mem_univ _⟩) (fun k hk => by simpa using hs k hk)
      · have := sub_eq_zero.mp key
        simp only [e] at this
        rw [if_pos hk, if_pos hk'] at this
        exact this
      · intro x hx hsum _
        obtain ⟨a, b, hab, rfl⟩ := between_eq hx hsum
        have ev : ∀ s : {t : Tri T.nv // t ∈ T.tris}, IsVertex s.1 i → IsVertex s.1 j →
            ∑ γ ∈ D, e s (γ, i, j) * ∏ k, between i j a b k ^ γ k =
              eval (Triangulation.onSide s.1 i j a b) (F s.1).1 * ((T.coord j).2 - (T.coord i).2) -
              eval (Triangulation.onSide s.1 i j a b) (F s.1).2 * ((T.coord j).1 - (T.coord i).1) := by
          intro s hsi hsj
          have h1 : eval (Triangulation.onSide s.1 i j a b) (F s.1).1 * ((T.coord j).2 - (T.coord i).2) -
              eval (Triangulation.onSide s.1 i j a b) (F s.1).2 * ((T.coord j).1 - (T.coord i).1) =
              eval (Triangulation.onSide s.1 i j a b) ((-(F s.1).2, (F s.1).1) : MvPolynomial (Fin 2) 𝕜 × MvPolynomial (Fin 2) 𝕜).1 *
                ((T.coord j).1 - (T.coord i).1) +
              eval (Triangulation.onSide s.1 i j a b) ((-(F s.1).2, (F s.1).1) : MvPolynomial (Fin 2) 𝕜 × MvPolynomial (Fin 2) 𝕜).2 *
                ((T.coord j).2 - (T.coord i).2) := by
            dsimp only
            rw [map_neg]
            ring
          rw [h1, ← hc s, Prod.fst_sum, Prod.snd_sum, map_sum, map_sum, Finset.sum_mul, Finset.sum_mul, ← Finset.sum_add_distrib]
          have h2 : ∀ k ∈ wDofs (only T s.1) q,
              eval (Triangulation.onSide s.1 i j a b) (c s k • (monoP 𝕜 s.1 k.1 • whitneyP T s.1 k.2.1 k.2.2)).1 *
                ((T.coord j).1 - (T.coord i).1) +
              eval (Triangulation.onSide s.1 i j a b) (c s k • (monoP 𝕜 s.1 k.1 • whitneyP T s.1 k.2.1 k.2.2)).2 *
                ((T.coord j).2 - (T.coord i).2) =
              e s k * ((∏ m, between i j a b m ^ k.1 m) *
                (between i j a b k.2.1 * ((if k.2.2 = j then 1 else 0) - (if k.2.2 = i then 1 else 0)) -
                between i j a b k.2.2 * ((if k.2.1 = j then 1 else 0) - (if k.2.1 = i then 1 else 0)))) := by
            intro k hk
            rw [← tangential (hd s.1 s.2) hsi hsj hab]
            simp only [e, if_pos hk, Prod.smul_fst, Prod.smul_snd, smul_eval]
            ring
          rw [Finset.sum_congr rfl h2]
          have h3 : ∑ k ∈ wDofs (only T s.1) q, e s k * ((∏ m, between i j a b m ^ k.1 m) *
                (between i j a b k.2.1 * ((if k.2.2 = j then 1 else 0) - (if k.2.2 = i then 1 else 0)) -
                between i j a b k.2.2 * ((if k.2.1 = j then 1 else 0) - (if k.2.1 = i then 1 else 0)))) =
              ∑ k ∈ D.map ⟨fun γ => (γ, i, j), fun _ _ h => (Prod.mk.inj h).1⟩, e s k * ((∏ m, between i j a b m ^ k.1 m) *
                (between i j a b k.2.1 * ((if k.2.2 = j then 1 else 0) - (if k.2.2 = i then 1 else 0)) -
                between i j a b k.2.2 * ((if k.2.1 = j then 1 else 0) - (if k.2.1 = i then 1 else 0)))) := by
            have both : ∀ k : (Fin T.nv → ℕ) × Fin T.nv × Fin T.nv, k ∈ wDofs (only T s.1) q →
                k ∉ D.map ⟨fun γ => (γ, i, j), fun _ _ h => (Prod.mk.inj h).1⟩ →
                between i j a b k.2.1 * ((if k.2.2 = j then 1 else 0) - (if k.2.2 = i then 1 else 0)) -
                between i j a b k.2.2 * ((if k.2.1 = j then 1 else 0) - (if k.2.1 = i then (1 : 𝕜) else 0)) = 0 := by
              rintro ⟨γ, i', j'⟩ hk hno
              obtain ⟨g1, g2, _⟩ := wDofs_only.mp hk
              dsimp only at g1 g2 ⊢
              have hn : ¬ (i' = i ∧ j' = j) := by
                rintro ⟨rfl, rfl⟩
                exact hno (Finset.mem_map.mpr ⟨γ, Finset.mem_piAntidiag.mpr ⟨g1, fun _ _ => Finset.mem_univ _⟩, rfl⟩)
              unfold between
              by_cases p1 : i' = i
              · have p2 : j' ≠ j := fun h => hn ⟨p1, h⟩
                have p3 : j' ≠ i := fun h => absurd (h ▸ p1 ▸ g2) (lt_irrefl _)
                simp [p2, p3]
              · by_cases p2 : i' = j
                · have p3 : j' ≠ i := fun h => absurd (g2.trans (h ▸ p2 ▸ hij)) (lt_irrefl _)
                  have p4 : j' ≠ j := fun h => absurd (h ▸ p2 ▸ g2) (lt_irrefl _)
                  simp [p3, p4]
                · simp [p1, p2]
            refine (Finset.sum_subset (Finset.inter_subset_left (s₂ := D.map ⟨fun γ => (γ, i, j), fun _ _ h => (Prod.mk.inj h).1⟩)) ?_).symm.trans
              (Finset.sum_subset (Finset.inter_subset_right (s₁ := wDofs (only T s.1) q)) ?_)
            · intro k hk hno
              rw [both k hk (fun h => hno (Finset.mem_inter.mpr ⟨hk, h⟩)), mul_zero, mul_zero]
            · intro k hk hno
              have : k ∉ wDofs (only T s.1) q := fun h => hno (Finset.mem_inter.mpr ⟨h, hk⟩)
              simp only [e, if_neg this, zero_mul]
          rw [h3, Finset.sum_map]
          refine Finset.sum_congr rfl fun γ _ => ?_
          show _ = e s (γ, i, j) * ((∏ m, between i j a b m ^ γ m) *
                (between i j a b i * ((if j = j then 1 else 0) - (if j = i then 1 else 0)) -
                between i j a b j * ((if i = j then 1 else 0) - (if i = i then 1 else 0))))
          have hij' := hij.ne
          have : between i j a b i + between i j a b j = 1 := by
            unfold between
            simp [hij', hij'.symm, hab]
          simp only [if_true, if_neg hij', if_neg hij'.symm]
          linear_combination -(e s (γ, i, j) * ∏ m, between i j a b m ^ γ m) * this
        have e1 := ev t vi vj
        have e2 := ev t' vi' vj'
        rw [hF.normal t.1 t.2 t'.1 t'.2 i j vi vj vi' vj' a b hab, ← e2] at e1
        rw [← sub_eq_zero, ← Finset.sum_sub_distrib] at e1
        rw [← e1]
        exact Finset.sum_congr rfl fun γ _ => sub_mul _ _ _
  let u : (Fin T.nv → ℕ) × Fin T.nv × Fin T.nv → 𝕜 := fun k =>
    if h : ∃ t : {t : Tri T.nv // t ∈ T.tris}, k ∈ wDofs (only T t.1) q then c h.choose k else 0
  refine (Submodule.mem_span_image_finset_iff_exists_fun' 𝕜).mpr ⟨u, ?_⟩
  funext t
  rw [Finset.sum_apply]
  refine Eq.trans ?_ (hc t)
  rw [← Finset.sum_subset (sub t)]
  · refine Finset.sum_congr rfl fun k hk => ?_
    have hex : ∃ t : {t : Tri T.nv // t ∈ T.tris}, k ∈ wDofs (only T t.1) q := ⟨t, hk⟩
    have : u k = c t k := by
      simp only [u, dif_pos hex]
      exact agree _ _ k hex.choose_spec hk
    rw [Pi.smul_apply, this]
    rfl
  · rintro ⟨β, i, j⟩ hk hno
    obtain ⟨g1, g2, g3, _⟩ := mem_wDofs.mp hk
    show u _ • (monoP 𝕜 t.1 β • whitneyP T t.1 i j) = 0
    by_cases hv : IsVertex t.1 i ∧ IsVertex t.1 j
    · have hw : ¬ Within t.1 β := fun hw => hno (wDofs_only.mpr ⟨g1, g2, g3, hw, hv⟩)
      unfold Within at hw
      push Not at hw
      obtain ⟨v, h1, h2⟩ := hw
      rw [monoP_off h2 h1, zero_smul, smul_zero]
    · rw [whitneyP_off hv, smul_zero, smul_zero]

/-- They are Raviart-Thomas fields, turned by a right angle. -/
theorem wFun_flux (hd : ∀ t ∈ T.tris, T.det t ≠ 0) {q : Nat} {k : (Fin T.nv → ℕ) × Fin T.nv × Fin T.nv} (hk : k ∈ wDofs T q) :
    RaviartThomas T (q + 1) (fun t => ((monoP 𝕜 t k.1 • whitneyP T t k.2.1 k.2.2).2, -(monoP 𝕜 t k.1 • whitneyP T t k.2.1 k.2.2).1)) where
  shape t ht := by
    have hdt := hd t ht
    have hm := totalDegree_monoP (𝕜 := 𝕜) t k.1
    rw [(mem_wDofs.mp hk).1] at hm
    -- barycentric coordinates are linear
    have lin : ∀ m, ∃ l : 𝕜, baryP 𝕜 t m = C l + C (T.gradHat t m).1 * linearOn t (fun v => (T.coord v).1) +
        C (T.gradHat t m).2 * linearOn t (fun v => (T.coord v).2) := by
      intro m
      by_cases hv : IsVertex t m
      · obtain ⟨ga, gb, gc⟩ := gradHat_verts hdt
        obtain ⟨ba, bb, bc⟩ := baryP_verts hdt
        have va : IsVertex t t.a := Or.inl rfl
        have vb : IsVertex t t.b := Or.inr (Or.inl rfl)
        have vc : IsVertex t t.c := Or.inr (Or.inr rfl)
        have hb := gradHat_along hdt va vb m
        have hc := gradHat_along hdt va vc m
        refine ⟨(if m = t.a then 1 else 0) - (T.gradHat t m).1 * (T.coord t.a).1 - (T.gradHat t m).2 * (T.coord t.a).2, ?_⟩
        have hb' := congrArg (C (σ := Fin 2)) hb
        have hc' := congrArg (C (σ := Fin 2)) hc
        have e : baryP 𝕜 t m = C (if m = t.a then 1 else 0) + C ((if m = t.b then 1 else 0) - (if m = t.a then 1 else 0)) * X 0 +
            C ((if m = t.c then 1 else 0) - (if m = t.a then 1 else 0)) * X 1 := by
          obtain ⟨n1, n2, n3⟩ := det_ne hdt
          rcases hv with rfl | rfl | rfl
          · rw [ba]; simp [n1, n3.symm]; ring
          · rw [bb]; simp [n1.symm, n2]
          · rw [bc]; simp [n2.symm, n3]
        rw [e, ← hb, ← hc]
        unfold linearOn
        simp only [C_add, C_sub, C_mul]
        ring
      · exact ⟨0, by rw [baryP_off hv, gradHat_off hv]; simp⟩
    obtain ⟨li, ei⟩ := lin k.2.1
    obtain ⟨lj, ej⟩ := lin k.2.2
    have hdeg : ∀ r : 𝕜, (monoP 𝕜 t k.1 * C r).totalDegree < q + 1 := by
      intro r
      refine Nat.lt_succ_of_le ((totalDegree_mul _ _).trans ?_)
      rw [totalDegree_C, add_zero]
      exact hm
    refine ⟨monoP 𝕜 t k.1 * C (li * (T.gradHat t k.2.2).2 - lj * (T.gradHat t k.2.1).2),
      monoP 𝕜 t k.1 * C (lj * (T.gradHat t k.2.1).1 - li * (T.gradHat t k.2.2).1),
      monoP 𝕜 t k.1 * C ((T.gradHat t k.2.1).1 * (T.gradHat t k.2.2).2 - (T.gradHat t k.2.2).1 * (T.gradHat t k.2.1).2),
      hdeg _, hdeg _, hdeg _, ?_⟩
    unfold whitneyP
    simp only [Prod.smul_mk, smul_eq_mul]
    rw [ei, ej]
    simp only [C_sub, C_mul]
    refine Prod.ext ?_ ?_
    · dsimp only; ring
    · dsimp only; ring
  normal t ht t' ht' v w hv hw hv' hw' x y hxy := by
    have e : ∀ s ∈ T.tris, IsVertex s v → IsVertex s w →
        eval (Triangulation.onSide s v w x y) (monoP 𝕜 s k.1 • whitneyP T s k.2.1 k.2.2).2 * ((T.coord w).2 - (T.coord v).2) -
          eval (Triangulation.onSide s v w x y) (-(monoP 𝕜 s k.1 • whitneyP T s k.2.1 k.2.2).1) * ((T.coord w).1 - (T.coord v).1) =
        (∏ m, between v w x y m ^ k.1 m) * (between v w x y k.2.1 * ((if k.2.2 = w then 1 else 0) - (if k.2.2 = v then 1 else 0)) -
          between v w x y k.2.2 * ((if k.2.1 = w then 1 else 0) - (if k.2.1 = v then 1 else 0))) := by
      intro s hs h1 h2
      rw [← tangential (hd s hs) h1 h2 hxy, map_neg]
      ring
    exact (e t ht hv hw).trans (e t' ht' hv' hw').symm

end
end Tulip
