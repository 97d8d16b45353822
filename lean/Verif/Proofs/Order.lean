import Verif.Proofs.Galerkin
import Verif.Proofs.DriverSpec
import Verif.Proofs.Elements

/-!
# Energies of discrete fields of different orders
-/

set_option linter.unusedSectionVars false

namespace Tulip
open Spec MvPolynomial

section
variable {𝕜 : Type} [Field 𝕜] {T : Triangulation 𝕜} {Q : Rule 𝕜}

theorem triIntegral_add (P R : MvPolynomial (Fin 2) 𝕜) : triIntegral Q (P + R) = triIntegral Q P + triIntegral Q R := by
  unfold triIntegral
  induction Q.tri with
  | nil => simp
  | cons r l ih =>
    rw [List.map_cons, List.sum_cons, ih, map_add, List.map_cons, List.sum_cons, List.map_cons, List.sum_cons]
    ring

theorem gradient_add (t : Tri T.nv) (P R : MvPolynomial (Fin 2) 𝕜) : T.gradient t (P + R) =
    ((T.gradient t P).1 + (T.gradient t R).1, (T.gradient t P).2 + (T.gradient t R).2) := by
  unfold Triangulation.gradient
  simp only [map_add]
  refine Prod.ext ?_ ?_ <;> simp only <;> ring

theorem gradient_sub (t : Tri T.nv) (P R : MvPolynomial (Fin 2) 𝕜) : T.gradient t (P - R) =
    ((T.gradient t P).1 - (T.gradient t R).1, (T.gradient t P).2 - (T.gradient t R).2) := by
  unfold Triangulation.gradient
  simp only [map_sub]
  refine Prod.ext ?_ ?_ <;> simp only <;> ring

/-- Energy of a sum. -/
theorem fieldProduct_square (eps : Int → 𝕜) (F G : Tri T.nv → MvPolynomial (Fin 2) 𝕜 × MvPolynomial (Fin 2) 𝕜) :
    fieldProduct T Q eps F F = fieldProduct T Q eps G G +
      2 * fieldProduct T Q eps (fun t => ((F t).1 - (G t).1, (F t).2 - (G t).2)) G +
      fieldProduct T Q eps (fun t => ((F t).1 - (G t).1, (F t).2 - (G t).2)) (fun t => ((F t).1 - (G t).1, (F t).2 - (G t).2)) := by
  unfold fieldProduct
  induction T.tris with
  | nil => simp
  | cons t l ih =>
    simp only [List.map_cons, List.sum_cons, ih]
    have : (F t).1 * (F t).1 + (F t).2 * (F t).2 = ((G t).1 * (G t).1 + (G t).2 * (G t).2) +
        (((F t).1 - (G t).1) * (G t).1 + ((F t).2 - (G t).2) * (G t).2) +
        (((F t).1 - (G t).1) * (G t).1 + ((F t).2 - (G t).2) * (G t).2) +
        (((F t).1 - (G t).1) * ((F t).1 - (G t).1) + ((F t).2 - (G t).2) * ((F t).2 - (G t).2)) := by ring
    rw [this, triIntegral_add, triIntegral_add, triIntegral_add]
    ring

variable {P R : Tri T.nv → MvPolynomial (Fin 2) 𝕜} {p p' : Nat}

theorem _root_.Tulip.Spec.PiecewisePolynomial.mono (h : PiecewisePolynomial T p P) (hp : p ≤ p') : PiecewisePolynomial T p' P :=
  ⟨fun t ht => (h.degree t ht).trans hp, h.continuous⟩

theorem _root_.Tulip.Spec.PiecewisePolynomial.sub (h : PiecewisePolynomial T p P) (h' : PiecewisePolynomial T p R) :
    PiecewisePolynomial T p (fun t => P t - R t) where
  degree t ht := (totalDegree_sub _ _).trans (max_le (h.degree t ht) (h'.degree t ht))
  continuous t ht t' ht' v w h1 h2 h3 h4 x y hxy := by
    simp only [map_sub]
    rw [h.continuous t ht t' ht' v w h1 h2 h3 h4 x y hxy, h'.continuous t ht t' ht' v w h1 h2 h3 h4 x y hxy]

theorem _root_.Tulip.Spec.ConstantOn.sub {tag : Int} {c : 𝕜} (h : ConstantOn T P tag c) (h' : ConstantOn T R tag c) :
    ConstantOn T (fun t => P t - R t) tag 0 := fun s hs e t ht hst x y hxy => by
  simp only [map_sub]
  rw [h s hs e t ht hst x y hxy, h' s hs e t ht hst x y hxy, sub_self]

end

section
variable {𝕜 : Type} [Field 𝕜] [LinearOrder 𝕜] [IsStrictOrderedRing 𝕜] {T : Triangulation 𝕜} {Q Q' : Rule 𝕜} {p p' : Nat}
  {mats : Materials 𝕜} {A A' : Analytic 𝕜}

theorem triIntegral_nonneg (hQ : ∀ r ∈ Q.tri, 0 < r.1) (F : MvPolynomial (Fin 2) 𝕜 × MvPolynomial (Fin 2) 𝕜) :
    0 ≤ triIntegral Q (F.1 * F.1 + F.2 * F.2) := by
  unfold triIntegral
  refine sum_map_nonneg fun r hr => mul_nonneg (hQ r hr).le ?_
  rw [map_add, map_mul, map_mul]
  exact add_nonneg (mul_self_nonneg _) (mul_self_nonneg _)

theorem triIntegral_eq_zero (hQ : Adequate Q p) {F : MvPolynomial (Fin 2) 𝕜 × MvPolynomial (Fin 2) 𝕜} (h1 : F.1.totalDegree ≤ p)
    (h2 : F.2.totalDegree ≤ p) (h : triIntegral Q (F.1 * F.1 + F.2 * F.2) = 0) : F = 0 := by
  unfold triIntegral at h
  have := sum_nonneg_eq_zero (fun r hr => mul_nonneg (hQ.tri r hr).le (by
    rw [map_add, map_mul, map_mul]
    exact add_nonneg (mul_self_nonneg _) (mul_self_nonneg _))) h
  have key : ∀ r ∈ Q.tri, eval ![r.2.1, r.2.2] F.1 = 0 ∧ eval ![r.2.1, r.2.2] F.2 = 0 := fun r hr => by
    have e := (mul_eq_zero.mp (this r hr)).resolve_left (hQ.tri r hr).ne'
    rw [map_add, map_mul, map_mul] at e
    have := (add_eq_zero_iff_of_nonneg (mul_self_nonneg _) (mul_self_nonneg _)).mp e
    exact ⟨mul_self_eq_zero.mp this.1, mul_self_eq_zero.mp this.2⟩
  exact Prod.ext (hQ.determines _ h1 fun r hr => (key r hr).1) (hQ.determines _ h2 fun r hr => (key r hr).2)

theorem fieldProduct_nonneg (hT : Proper T) (hQ : ∀ r ∈ Q.tri, 0 < r.1) {eps : Int → 𝕜} (he : ∀ a, 0 < eps a)
    (F : Tri T.nv → MvPolynomial (Fin 2) 𝕜 × MvPolynomial (Fin 2) 𝕜) : 0 ≤ fieldProduct T Q eps F F :=
  sum_map_nonneg fun t ht => mul_nonneg (mul_nonneg (div_nonneg (hT.area t ht).le two_pos.le) (he _).le) (triIntegral_nonneg hQ _)

theorem fieldProduct_eq_zero (hT : Proper T) (hQ : Adequate Q p) {eps : Int → 𝕜} (he : ∀ a, 0 < eps a)
    {F : Tri T.nv → MvPolynomial (Fin 2) 𝕜 × MvPolynomial (Fin 2) 𝕜}
    (hF : ∀ t ∈ T.tris, (F t).1.totalDegree ≤ p ∧ (F t).2.totalDegree ≤ p) (h : fieldProduct T Q eps F F = 0) :
    ∀ t ∈ T.tris, F t = 0 := by
  have pos : ∀ t ∈ T.tris, 0 < T.det t / 2 * eps t.attr := fun t ht => mul_pos (div_pos (hT.area t ht) two_pos) (he _)
  have := sum_nonneg_eq_zero (fun t ht => mul_nonneg (pos t ht).le (triIntegral_nonneg hQ.tri (F t))) h
  intro t ht
  exact triIntegral_eq_zero hQ (hF t ht).1 (hF t ht).2 ((mul_eq_zero.mp (this t ht)).resolve_left (pos t ht).ne')

/-- **Energy and order.** Of two discrete fields on the same mesh with the same conductor potentials, the one of higher
order does not have more energy; if it has the same, the gradients are the same. -/
theorem galerkin_energy (hpp : p ≤ p') (hT : Proper T) (hA : Adequate Q' p') (hm : ∀ d ∈ mats.dielectrics, 0 < d.relativePermittivity)
    (hc : mats.openBoundaries = []) (hQ : SameIntegrals Q Q' (2 * p)) {b : Bool} {V : Int → 𝕜}
    {P P' : Tri T.nv → MvPolynomial (Fin 2) 𝕜} {D D' : Tri T.nv → MvPolynomial (Fin 2) 𝕜 × MvPolynomial (Fin 2) 𝕜}
    (h : GalerkinField T A Q p mats b V P D) (h' : GalerkinField T A' Q' p' mats b V P' D') :
    fieldProduct T Q' (declaredEps mats b) (fun t => T.gradient t (P' t)) (fun t => T.gradient t (P' t)) ≤
      fieldProduct T Q (declaredEps mats b) (fun t => T.gradient t (P t)) (fun t => T.gradient t (P t)) ∧
    (fieldProduct T Q' (declaredEps mats b) (fun t => T.gradient t (P' t)) (fun t => T.gradient t (P' t)) =
      fieldProduct T Q (declaredEps mats b) (fun t => T.gradient t (P t)) (fun t => T.gradient t (P t)) →
      ∀ t ∈ T.tris, T.gradient t (P t) = T.gradient t (P' t)) := by
  have hP : PiecewisePolynomial T p' (fun t => P t - P' t) := (h.potential.mono hpp).sub h'.potential
  have horth := h'.equations _ hP fun c hc => (h.conductors c hc).sub (h'.conductors c hc)
  rw [hc] at horth
  have habs : absorbed T A' Q' (([] : List OpenBoundary).map OpenBoundary.tag) (fun t => P t - P' t) P' = 0 := by
    simp [absorbed]
  rw [habs, add_zero] at horth
  have hsq := fieldProduct_square (Q := Q') (declaredEps mats b) (fun t => T.gradient t (P t)) (fun t => T.gradient t (P' t))
  have hg : (fun t => T.gradient t (P t - P' t)) = fun t => ((T.gradient t (P t)).1 - (T.gradient t (P' t)).1,
      (T.gradient t (P t)).2 - (T.gradient t (P' t)).2) := funext fun t => gradient_sub t _ _
  rw [← hg, horth, mul_zero, add_zero, fieldProduct_same hQ _ (fun t ht => h.potential.gradient_degree ht)
    (fun t ht => h.potential.gradient_degree ht)] at hsq
  have heps := declaredEps_pos hm b
  have hnn := fieldProduct_nonneg hT hA.tri heps (fun t => T.gradient t (P t - P' t))
  refine ⟨by rw [hsq]; exact le_add_of_nonneg_right hnn, fun e t ht => ?_⟩
  rw [hsq] at e
  have h0 := fieldProduct_eq_zero hT hA heps (fun t ht => hP.gradient_degree ht) (left_eq_add.mp e) t ht
  rw [gradient_sub] at h0
  exact Prod.ext (sub_eq_zero.mp (congrArg Prod.fst h0)) (sub_eq_zero.mp (congrArg Prod.snd h0))

end
section
variable {𝕜 : Type} [Field 𝕜] {F : FEM 𝕜} {mats : Materials 𝕜} {A : Analytic 𝕜}

theorem inputs_eps (hW : WellDeclared mats) (b : Bool) : epsOf (inputsOf mats b).domainPermittivities = declaredEps mats b := by
  funext a
  show ((permittivityMap mats b).find? a).getD 1 = _
  rw [permittivityMap_find hW]
  split
  · rfl
  · next h => exact (declaredEps_of_not_mem (fun d hd e => h ⟨d, hd, e⟩) b).symm

theorem inputs_prescribed {ps : List (PEC 𝕜)} (hN : Numbering mats ps) (b : Bool) (i : Fin F.n) :
    Prescribed F (inputsOf mats b) i ↔ ∃ p ∈ mats.pecs, OnBoundary F p.tag i := by
  constructor
  · rintro ⟨a, ha, ho⟩
    obtain ⟨p, hp, rfl⟩ := (dirichlet_keys hN b a).mp ha
    exact ⟨p, hp, ho⟩
  · rintro ⟨p, hp, ho⟩
    exact ⟨p.tag, (dirichlet_keys hN b _).mpr ⟨p, hp, rfl⟩, ho⟩

theorem inputs_weak (hW : WellDeclared mats) (b : Bool) (u : Fin F.n → 𝕜) (i : Fin F.n) :
    weakForm A F (epsOf (inputsOf mats b).domainPermittivities) (inputsOf mats b).openBoundaries u i =
      weakForm A F (declaredEps mats b) (mats.openBoundaries.map OpenBoundary.tag) u i := by
  rw [inputs_eps hW]
  unfold weakForm
  have : F.bdr.filter (fun q => decide (q.attr ∈ (inputsOf mats b).openBoundaries)) =
      F.bdr.filter (fun q => decide (q.attr ∈ mats.openBoundaries.map OpenBoundary.tag)) := by
    refine List.filter_congr fun q _ => ?_
    rw [decide_eq_decide]
    exact (openTags_perm hW).mem_iff
  rw [this]

/-- The inputs made from a model whose discrete problem is well posed are regular. -/
theorem inputs_regularly {ps : List (PEC 𝕜)} (hN : Numbering mats ps) (hB : Buildable F mats) (hW : WellDeclared mats)
    (hw : WellPosed A F mats) (b : Bool) : Regularly A F (inputsOf mats b) where
  boundary := hB.bdr
  points := hB.points
  some_ := inputs_dirichlet_ne hN b
  positive := inputs_dirichlet_pos hN hB b
  opens := by
    intro a ha
    obtain ⟨o, ho, rfl⟩ := List.mem_map.mp ((openTags_perm hW).mem_iff.mp ha)
    have := hB.opens o ho
    omega
  sorted := permittivityMap_sorted mats b
  unique := by
    intro u h0 h1
    refine hw.unique b u (fun k hk => h0 k ((inputs_prescribed hN b k).mpr hk)) fun k hk => ?_
    rw [← inputs_weak hW]
    exact h1 k fun h => hk ((inputs_prescribed hN b k).mp h)
  diagonal := by
    intro i hi
    rw [inputs_weak hW]
    exact hw.diagonal b i ((inputs_prescribed hN b i).mp hi)
  projection := hw.projection

end

end Tulip
