import Verif.Props.Solver
import Verif.Props.Charge

/-!
# C67: the total energy
-/

namespace Tulip.Spec
open Matrix
variable {𝕜 : Type _} [Field 𝕜]

/-- The discrete gradient is exact: the field expanded in the edge basis is the gradient of the expansion in
the nodal basis. -/
def ExactGradient (F : FEM 𝕜) : Prop := ∀ q ∈ F.dom, ∀ u : Fin F.n → 𝕜,
  ∑ k, (F.grad *ᵥ u) k * (q.W k).1 = ∑ i, u i * (q.gradN i).1 ∧
  ∑ k, (F.grad *ᵥ u) k * (q.W k).2 = ∑ i, u i * (q.gradN i).2

end Tulip.Spec

namespace Tulip.Props
open Tulip Tulip.Spec Matrix

section general
variable {𝕜 : Type _} [Field 𝕜] {F : FEM 𝕜}

/-- Expansion in a vector basis. -/
def expand {n : Nat} (B : Fin n → 𝕜 × 𝕜) (u : Fin n → 𝕜) : 𝕜 × 𝕜 :=
  (∑ i, u i * (B i).1, ∑ i, u i * (B i).2)

/-- A quadratic form assembled by quadrature is the quadrature of the integrand. -/
theorem assembled_form {α : Type _} {n : Nat} (L : List α) (c : α → 𝕜) (B : α → Fin n → 𝕜 × 𝕜)
    (u v : Fin n → 𝕜) :
    ∑ i, u i * ((Matrix.of fun i j => (L.map (fun q => c q * dot2 (B q i) (B q j))).sum :
      Matrix (Fin n) (Fin n) 𝕜) *ᵥ v) i =
    (L.map (fun q => c q * dot2 (expand (B q) u) (expand (B q) v))).sum := by
  simp only [mulVec, dotProduct, Matrix.of_apply]
  induction L with
  | nil => simp
  | cons q L ih =>
    simp only [List.map_cons, List.sum_cons]
    rw [← ih]
    have : ∀ i, u i * ∑ j, (c q * dot2 (B q i) (B q j) +
        (L.map (fun q => c q * dot2 (B q i) (B q j))).sum) * v j =
        u i * ∑ j, (c q * dot2 (B q i) (B q j)) * v j +
        u i * ∑ j, ((L.map (fun q => c q * dot2 (B q i) (B q j))).sum) * v j := by
      intro i
      rw [← mul_add, ← Finset.sum_add_distrib]
      congr 1
      exact Finset.sum_congr rfl (fun j _ => by ring)
    simp only [this]
    rw [Finset.sum_add_distrib]
    congr 1
    have e : c q * dot2 (expand (B q) u) (expand (B q) v) = ∑ i, u i * (c q * ((B q i).1 * (expand (B q) v).1 +
        (B q i).2 * (expand (B q) v).2)) := by
      conv_lhs => unfold dot2; rw [show (expand (B q) u).1 = ∑ i, u i * (B q i).1 from rfl,
        show (expand (B q) u).2 = ∑ i, u i * (B q i).2 from rfl]
      rw [Finset.sum_mul, Finset.sum_mul, ← Finset.sum_add_distrib, Finset.mul_sum]
      exact Finset.sum_congr rfl (fun i _ => by ring)
    rw [e]
    refine Finset.sum_congr rfl (fun i _ => ?_)
    congr 1
    unfold dot2 expand
    simp only
    rw [Finset.mul_sum, Finset.mul_sum, ← Finset.sum_add_distrib, Finset.mul_sum]
    exact Finset.sum_congr rfl (fun j _ => by ring)

theorem expand_comb {n : Nat} (B : Fin n → 𝕜 × 𝕜) (u v : Fin n → 𝕜) :
    expand B (fun i => u i + v i) = ((expand B u).1 + (expand B v).1, (expand B u).2 + (expand B v).2) := by
  unfold expand
  simp only [add_mul, Finset.sum_add_distrib]

/-- the permittivities used for the energy are those of the constructor -/
theorem energy_eps {m : AttrToValueMap 𝕜} {eps : Int → 𝕜} (h : F.permittivity m = .ok eps) {mx : Int}
    (hmx : arrayMax F.domAttrs = .ok mx) : epsLoop mx m (fun _ => 1) = .ok eps := by
  unfold FEM.permittivity at h
  by_cases h0 : m.length = 0
  · rw [if_pos h0] at h
    have : m = [] := List.length_eq_zero_iff.mp h0
    subst this
    exact h
  · rw [if_neg h0, hmx] at h
    exact h

/-- (C67 in terms of the state.) For a closed problem without surface charges, with non-negative quadrature weights and
permittivities: the energy reported after a solve is one half of the integral of permittivity times the
square of the gradient of the potential; it is not negative; and no field derived from a potential with the
same values on the prescribed boundaries has less energy. -/
theorem energy_state [LinearOrder 𝕜] [IsStrictOrderedRing 𝕜] (A : Analytic 𝕜) (P : LinSolver 𝕜)
    (hP : ExactSolver P) (hF : ValidBoundary F) (hG : ExactGradient F) (hdom : F.domAttrs ≠ [])
    (p : SolverInputs 𝕜) (hclosed : p.openBoundaries = []) (raw : SolverSolution F) (s0 s : Solver F)
    (hmake : Solver.make A F p raw = .ok s0) (hw : ∀ q ∈ F.dom, 0 ≤ q.w ∧ 0 ≤ s0.eps q.attr)
    (hne : p.dirichletBoundaries ≠ [])
    (hpos : ∀ a ∈ SMap.keys p.dirichletBoundaries, 0 < a) (hist : List (SolverOp F))
    (hh : ∀ op ∈ hist, op.KeepsDirichlet) (hs : runOps P hist s0 = .ok s) (hsig : s.sigma = fun _ => 0)
    (hreg : Regular s0.K (fun i => ∃ a ∈ SMap.keys p.dirichletBoundaries, OnBoundary F a i))
    (hD : F.massD.det ≠ 0) (ks : List Int) (hks : ks ≠ []) (hkpos : ∀ a ∈ ks, 0 < a) (V : Int → 𝕜) :
    ∃ (s' : Solver F) (W : 𝕜), (s.setDirichletConditions (prescribe ks V)).solve P = .ok s' ∧
      s'.getTotalEnergy = .ok W ∧
      W = 2⁻¹ * (F.dom.map (fun q => q.w * s0.eps q.attr *
        ((∑ i, s'.getSolution.phi i * (q.gradN i).1) ^ 2 +
         (∑ i, s'.getSolution.phi i * (q.gradN i).2) ^ 2))).sum ∧
      0 ≤ W ∧
      ∀ t : SolverSolution F,
        (∀ a ∈ SMap.keys p.dirichletBoundaries, ∀ i, OnBoundary F a i → t.phi i = s'.getSolution.phi i) →
        t.e = (fun k => -(F.grad *ᵥ t.phi) k) →
        ∃ W', (s'.setSolution t).getTotalEnergy = .ok W' ∧ W ≤ W' := by
  obtain ⟨s', phi0, hsolve, -, -, hsol, he, -, -⟩ :=
    discrete_problem_state A P hP hF p raw s0 s hmake hne hpos hist hh hs hreg hD ks hks hkpos V
  obtain ⟨m1, m2, m3, m4, m5, m6, m7, m8⟩ := make_fields hmake
  have hK := m7 hclosed
  have hphi := (hsol s'.sol.phi).mpr rfl
  obtain ⟨mx, hmx, -⟩ := arrayMax_spec hdom
  have hperm : s'.params.domainPermittivities = p.domainPermittivities := by
    have h1 := (runOps_setup hist hs).perm
    have h2 : runOps P [.solve] (s.setDirichletConditions (prescribe ks V)) = .ok s' := by
      show ((s.setDirichletConditions (prescribe ks V)).solve P >>= fun s => runOps P [] s) = _
      rw [hsolve]; rfl
    have h3 := (runOps_setup _ h2).perm
    rw [h3]
    show s.params.domainPermittivities = _
    rw [h1, m3]
  have heps := energy_eps m2 hmx
  -- energy of a gradient field
  have energy : ∀ t : SolverSolution F, t.e = (fun k => -(F.grad *ᵥ t.phi) k) →
      (s'.setSolution t).getTotalEnergy = .ok (2⁻¹ * (F.dom.map (fun q => q.w * s0.eps q.attr *
        dot2 (expand q.gradN t.phi) (expand q.gradN t.phi))).sum) := by
    intro t ht
    unfold Solver.getTotalEnergy
    rw [hmx]
    show (do let eps ← epsLoop mx s'.params.domainPermittivities (fun _ => 1)
             Outcome.ok ((2 : 𝕜)⁻¹ * ∑ i, t.e i * (F.massE eps).mulVec t.e i)) = _
    rw [hperm, heps]
    show Outcome.ok ((2 : 𝕜)⁻¹ * ∑ i, t.e i * (F.massE s0.eps).mulVec t.e i) = _
    congr 2
    have := assembled_form F.dom (fun q => q.w * s0.eps q.attr) (fun q => q.W) t.e t.e
    unfold FEM.massE
    rw [this]
    congr 1
    apply List.map_congr_left
    intro q hq
    have hx : expand q.W t.e = (-(expand q.gradN t.phi).1, -(expand q.gradN t.phi).2) := by
      unfold expand
      rw [ht]
      simp only [neg_mul, Finset.sum_neg_distrib]
      rw [(hG q hq t.phi).1, (hG q hq t.phi).2]
    rw [hx]
    unfold dot2
    ring
  have nonneg : ∀ u : Fin F.n → 𝕜, 0 ≤ (F.dom.map (fun q => q.w * s0.eps q.attr *
      dot2 (expand q.gradN u) (expand q.gradN u))).sum := by
    intro u
    apply List.sum_nonneg
    intro x hx
    obtain ⟨q, hq, rfl⟩ := List.mem_map.mp hx
    obtain ⟨h1, h2⟩ := hw q hq
    apply mul_nonneg (mul_nonneg h1 h2)
    unfold dot2
    nlinarith [sq_nonneg (expand q.gradN u).1, sq_nonneg (expand q.gradN u).2]
  have hE := energy s'.getSolution he
  refine ⟨s', _, hsolve, hE, ?_, ?_, ?_⟩
  · congr 3
    funext q
    unfold dot2 expand
    ring
  · exact mul_nonneg (by norm_num) (nonneg _)
  · intro t ht hte
    refine ⟨_, energy t hte, ?_⟩
    apply mul_le_mul_of_nonneg_left _ (by norm_num)
    -- t.phi = phi + w
    let w : Fin F.n → 𝕜 := fun i => t.phi i - s'.sol.phi i
    have hcross : (F.dom.map (fun q => q.w * s0.eps q.attr *
        dot2 (expand q.gradN w) (expand q.gradN s'.sol.phi))).sum = 0 := by
      rw [← assembled_form]
      show ∑ i, w i * (F.stiffness s0.eps *ᵥ s'.sol.phi) i = 0
      rw [← hK]
      apply Finset.sum_eq_zero
      intro i _
      by_cases hi : ∃ a ∈ SMap.keys p.dirichletBoundaries, OnBoundary F a i
      · obtain ⟨a, ha, hai⟩ := hi
        have : w i = 0 := by
          show t.phi i - s'.sol.phi i = 0
          rw [ht a ha i hai]; exact sub_self _
        rw [this, zero_mul]
      · rw [hphi.2 i hi, hsig]
        have : (F.surfMass *ᵥ fun _ => (0 : 𝕜)) i = 0 := by simp [mulVec, dotProduct]
        rw [this, mul_zero]
    have hdec : (F.dom.map (fun q => q.w * s0.eps q.attr *
        dot2 (expand q.gradN t.phi) (expand q.gradN t.phi))).sum =
        (F.dom.map (fun q => q.w * s0.eps q.attr *
          dot2 (expand q.gradN s'.sol.phi) (expand q.gradN s'.sol.phi))).sum +
        2 * (F.dom.map (fun q => q.w * s0.eps q.attr *
          dot2 (expand q.gradN w) (expand q.gradN s'.sol.phi))).sum +
        (F.dom.map (fun q => q.w * s0.eps q.attr *
          dot2 (expand q.gradN w) (expand q.gradN w))).sum := by
      have ht' : t.phi = fun i => s'.sol.phi i + w i := by
        funext i
        show t.phi i = s'.sol.phi i + (t.phi i - s'.sol.phi i)
        ring
      generalize F.dom = L
      induction L with
      | nil => simp
      | cons q L ih =>
        simp only [List.map_cons, List.sum_cons]
        rw [ih, ht', expand_comb]
        unfold dot2
        ring
    show (F.dom.map (fun q => q.w * s0.eps q.attr *
      dot2 (expand q.gradN s'.sol.phi) (expand q.gradN s'.sol.phi))).sum ≤ _
    rw [hdec, hcross]
    have := nonneg w
    linarith

end general

theorem chain_gradient : ExactGradient chain := by
  intro q hq (u : Fin 3 → ℚ)
  have hq' : q = chain.dom[0] ∨ q = chain.dom[1] := by
    have : q ∈ [chain.dom[0], chain.dom[1]] := hq
    simpa using this
  rcases hq' with rfl | rfl
  · constructor
    · show ∑ k : Fin 2, ((!![-1, 1, 0; 0, -1, 1] : Matrix (Fin 2) (Fin 3) ℚ) *ᵥ u) k *
        ((![(1, 0), (0, 0)] : Fin 2 → ℚ × ℚ) k).1 = ∑ i : Fin 3, u i * ((![(-1, 0), (1, 0), (0, 0)] : Fin 3 → ℚ × ℚ) i).1
      simp [mulVec, dotProduct, Fin.sum_univ_two, Fin.sum_univ_three]
    · show ∑ k : Fin 2, ((!![-1, 1, 0; 0, -1, 1] : Matrix (Fin 2) (Fin 3) ℚ) *ᵥ u) k *
        ((![(1, 0), (0, 0)] : Fin 2 → ℚ × ℚ) k).2 = ∑ i : Fin 3, u i * ((![(-1, 0), (1, 0), (0, 0)] : Fin 3 → ℚ × ℚ) i).2
      simp [mulVec, dotProduct, Fin.sum_univ_two, Fin.sum_univ_three]
  · constructor
    · show ∑ k : Fin 2, ((!![-1, 1, 0; 0, -1, 1] : Matrix (Fin 2) (Fin 3) ℚ) *ᵥ u) k *
        ((![(0, 0), (1, 0)] : Fin 2 → ℚ × ℚ) k).1 = ∑ i : Fin 3, u i * ((![(0, 0), (-1, 0), (1, 0)] : Fin 3 → ℚ × ℚ) i).1
      simp [mulVec, dotProduct, Fin.sum_univ_two, Fin.sum_univ_three]
    · show ∑ k : Fin 2, ((!![-1, 1, 0; 0, -1, 1] : Matrix (Fin 2) (Fin 3) ℚ) *ᵥ u) k *
        ((![(0, 0), (1, 0)] : Fin 2 → ℚ × ℚ) k).2 = ∑ i : Fin 3, u i * ((![(0, 0), (-1, 0), (1, 0)] : Fin 3 → ℚ × ℚ) i).2
      simp [mulVec, dotProduct, Fin.sum_univ_two, Fin.sum_univ_three]

/-- the hypotheses of C67 hold for the chain (the others are shown beside C66); the energy of 2 V over two
elements in series is not zero -/
example : ExactGradient chain ∧ chain.domAttrs ≠ [] ∧ (∀ q ∈ chain.dom, 0 ≤ q.w ∧ 0 ≤ chainBoth.eps q.attr) ∧
    ({ chainBoth with sol := ⟨![0, 1, 2], ![-1, -1], ![-1, -1]⟩ } : Solver chain).getTotalEnergy = .ok 1 :=
  ⟨chain_gradient, by decide, by decide +kernel, by decide +kernel⟩

end Tulip.Props
