import Verif.Proofs.Plates
import Verif.Proofs.Passive
import Verif.Proofs.Couplings

/-!
# Maximum principle on triangles without obtuse angles
-/

set_option linter.unusedSectionVars false

namespace Tulip
open Matrix Spec

section
variable {𝕜 : Type} [Field 𝕜] {T : Triangulation 𝕜}

theorem det_area (h2 : (2 : 𝕜) ≠ 0) (t : Tri T.nv) : T.det t / 2 = triArea T t := by
  unfold Triangulation.det triArea
  ring

/-- Scalar product of two gradients in a triangle, from the differences along its sides. -/
theorem gradients_dot {t : Tri T.nv} (h : T.det t ≠ 0) (u w : Fin T.nv → 𝕜) :
    inner2 (vectorAt (T.gradHat t) u) (vectorAt (T.gradHat t) w) =
      (cornerDot T t.a t.b t.c * ((u t.b - u t.c) * (w t.b - w t.c)) +
       cornerDot T t.b t.c t.a * ((u t.c - u t.a) * (w t.c - w t.a)) +
       cornerDot T t.c t.a t.b * ((u t.a - u t.b) * (w t.a - w t.b))) / T.det t ^ 2 := by
  rw [vectorAt_gradHat h, vectorAt_gradHat h]
  unfold inner2 cornerDot
  field_simp
  ring

end

section
variable {𝕜 : Type} [Field 𝕜] [LinearOrder 𝕜] [IsStrictOrderedRing 𝕜] {T : Triangulation 𝕜} {mats : Materials 𝕜}
  {A : Analytic 𝕜}

theorem delta_diff {n : Nat} {i j : Fin n} (hij : i ≠ j) (b c : Fin n) :
    ((if b = i then (1 : 𝕜) else 0) - (if c = i then 1 else 0)) * ((if b = j then 1 else 0) - (if c = j then 1 else 0)) ≤ 0 := by
  have n1 : ∀ k : Fin n, (if k = i then (1 : 𝕜) else 0) * (if k = j then 1 else 0) = 0 := by
    intro k
    by_cases h1 : k = i
    · rw [if_neg (fun h2 => hij (h1.symm.trans h2)), mul_zero]
    · rw [if_neg h1, zero_mul]
  have n2 : ∀ k l : Fin n, 0 ≤ (if k = i then (1 : 𝕜) else 0) * (if l = j then 1 else 0) := by
    intro k l
    split <;> split <;> simp
  have := n1 b
  have := n1 c
  have := n2 b c
  have := n2 c b
  nlinarith

theorem list_sum_nonpos : ∀ {L : List 𝕜}, (∀ x ∈ L, x ≤ 0) → L.sum ≤ 0
  | [], _ => le_refl _
  | a :: L, h => by
    rw [List.sum_cons]
    exact add_nonpos (h a List.mem_cons_self) (list_sum_nonpos fun x hx => h x (List.mem_cons_of_mem _ hx))

/-- On triangles without obtuse angles, in a closed model, no two vertices are coupled with the wrong sign. -/
theorem triangles_couplings (h : Proper T) (hno : NonObtuse T) (he : Elliptic A T.fem mats)
    (hopen : mats.openBoundaries = []) (b : Bool) : NoPositiveCoupling A T.fem mats b := by
  intro i j hij
  have unit : ∀ (q : DomPt 𝕜 T.nv T.edges.length T.edges.length) (i : Fin T.nv),
      vectorAt q.gradN (fun k => if k = i then 1 else 0) = q.gradN i := by
    intro q i
    unfold vectorAt
    simp only [ite_mul, one_mul, zero_mul, Finset.sum_ite_eq', Finset.mem_univ, if_true]
  have hf : T.fem.bdr.filter (fun q => q.attr ∈ ([] : List OpenBoundary).map OpenBoundary.tag) = [] := by
    simp
  unfold weakForm
  rw [hopen, hf, List.map_nil, List.sum_nil, add_zero]
  refine list_sum_nonpos fun x hx => ?_
  obtain ⟨q, hq, rfl⟩ := List.mem_map.mp hx
  refine mul_nonpos_of_nonneg_of_nonpos (mul_nonneg (he.weights q hq).le (declaredEps_pos he.permittivities b _).le) ?_
  rw [← unit q i]
  obtain ⟨s, hs, hq⟩ := mem_dom.mp hq
  have e : q.gradN = T.gradHat s := by rcases hq with rfl | rfl | rfl <;> rfl
  rw [e]
  refine (gradients_dot (h.det_ne s hs) _ _).trans_le ?_
  obtain ⟨c1, c2, c3⟩ := hno s hs
  have key := fun b c => delta_diff (𝕜 := 𝕜) (n := T.nv) hij b c
  refine div_nonpos_of_nonpos_of_nonneg ?_ (sq_nonneg _)
  exact add_nonpos (add_nonpos (mul_nonpos_of_nonneg_of_nonpos c1 (key _ _)) (mul_nonpos_of_nonneg_of_nonpos c2 (key _ _)))
    (mul_nonpos_of_nonneg_of_nonpos c3 (key _ _))

/-- Bounds of the conductor potentials are bounds of the potential. -/
theorem maximum_principle (h : Proper T) (hC : RepresentsConstants T.fem) (hno : NonObtuse T) (he : Elliptic A T.fem mats) (hs : Separate T.fem mats)
    (hopen : mats.openBoundaries = []) {b : Bool} {V : Int → 𝕜} {t : SolverSolution T.fem}
    (ht : PrescribedField A T.fem mats b V t) {lo hi : 𝕜} (hV : ∀ p ∈ mats.pecs, lo ≤ V p.tag ∧ V p.tag ≤ hi)
    (v : Fin T.nv) : lo ≤ t.phi v ∧ t.phi v ≤ hi :=
  coupling_bounds hC he hs (by rintro q _ ⟨o, ho, _⟩; rw [hopen] at ho; cases ho) (triangles_couplings h hno he hopen b) ht
    (fun h => absurd hopen h) hV v

end
end Tulip
