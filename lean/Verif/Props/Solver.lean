import Verif.Proofs.Flux
import Mathlib.Tactic.FinCases
import Mathlib.Tactic.NormNum
import Mathlib.Tactic.Linarith

/-!
# C58–C61, C63, C66: the solver
-/

namespace Tulip.Props
open Tulip Tulip.Spec Matrix

/-! ## An example discretisation: three nodes in a row, boundary 1 on the left, boundary 2 on the right -/

/-- chain of two elements -/
def chain : FEM ℚ where
  n := 3
  ne := 2
  nd := 2
  bdrAttrs := [1, 2]
  domAttrs := [1]
  bdrElems := [(1, [0]), (2, [2])]
  node := fun i => (i.1, 0)
  dom := [{ attr := 1, w := 1, N := ![1/2, 1/2, 0], gradN := ![(-1, 0), (1, 0), (0, 0)],
            W := ![(1, 0), (0, 0)], R := ![(1, 0), (0, 0)] },
          { attr := 1, w := 1, N := ![0, 1/2, 1/2], gradN := ![(0, 0), (-1, 0), (1, 0)],
            W := ![(0, 0), (1, 0)], R := ![(0, 0), (1, 0)] }]
  bdr := [{ attr := 1, w := 1, pos := (0, 0), N := ![1, 0, 0], fl := ![-1, 0] },
          { attr := 2, w := 1, pos := (2, 0), N := ![0, 0, 1], fl := ![0, 1] }]
  grad := !![-1, 1, 0; 0, -1, 1]

theorem chain_K : chain.stiffness (fun _ => 1) = !![1, -1, 0; -1, 2, -1; 0, -1, 1] := by
  ext i j
  fin_cases i <;> fin_cases j <;> decide +kernel

theorem chain_massD : chain.massD = 1 := by
  ext i j
  fin_cases i <;> fin_cases j <;> decide +kernel

theorem chain_det : chain.massD.det ≠ 0 := by rw [chain_massD, Matrix.det_one]; exact one_ne_zero

theorem chain_valid : ValidBoundary chain := by
  constructor
  · intro b hb
    rcases List.mem_cons.mp hb with rfl | hb
    · decide
    · rcases List.mem_cons.mp hb with rfl | hb
      · decide
      · cases hb
  · decide

theorem chain_on (a : Int) (i : Fin 3) : OnBoundary chain a i ↔ (a = 1 ∧ i = 0) ∨ (a = 2 ∧ i = 2) := by
  unfold OnBoundary
  constructor
  · rintro ⟨b, hb, rfl, hi⟩
    rcases List.mem_cons.mp hb with rfl | hb
    · exact Or.inl ⟨rfl, List.mem_singleton.mp hi⟩
    · rcases List.mem_cons.mp hb with rfl | hb
      · exact Or.inr ⟨rfl, List.mem_singleton.mp hi⟩
      · cases hb
  · rintro (⟨rfl, rfl⟩ | ⟨rfl, rfl⟩)
    · exact ⟨((1 : Int), [(0 : Fin 3)]), List.mem_cons_self, rfl, List.mem_singleton.mpr rfl⟩
    · exact ⟨((2 : Int), [(2 : Fin 3)]), List.mem_cons_of_mem _ List.mem_cons_self, rfl, List.mem_singleton.mpr rfl⟩

theorem chainK_regular (fixed : Fin 3 → Prop) (h0 : fixed 0) :
    Regular (!![1, -1, 0; -1, 2, -1; 0, -1, 1] : Matrix (Fin 3) (Fin 3) ℚ) fixed := by
  constructor
  · intro u ⟨h1, h2⟩
    have e0 : u 0 = 0 := h1 0 h0
    have e1 : u 1 = 0 ∨ -u 0 + 2 * u 1 - u 2 = 0 := by
      by_cases h : fixed 1
      · exact Or.inl (h1 1 h)
      · have := h2 1 h
        simp [mulVec, dotProduct, Fin.sum_univ_three] at this
        exact Or.inr (by linarith)
    have e2 : u 2 = 0 ∨ -u 1 + u 2 = 0 := by
      by_cases h : fixed 2
      · exact Or.inl (h1 2 h)
      · have := h2 2 h
        simp [mulVec, dotProduct, Fin.sum_univ_three] at this
        exact Or.inr (by linarith)
    funext i
    have r1 : u 1 = 0 := by
      rcases e1 with h | h
      · exact h
      · rcases e2 with h' | h' <;> linarith
    have r2 : u 2 = 0 := by rcases e2 with h' | h' <;> linarith
    fin_cases i
    · exact e0
    · exact r1
    · exact r2
  · intro i _
    fin_cases i <;> decide +kernel

theorem chain_regular (fixed : Fin 3 → Prop) (h0 : fixed 0) :
    Regular (chain.stiffness (fun _ => 1)) fixed := by
  rw [chain_K]; exact chainK_regular fixed h0

theorem chain_constants : RepresentsConstants chain where
  dom := by
    intro q hq
    rcases List.mem_cons.mp hq with rfl | hq
    · decide +kernel
    · rcases List.mem_cons.mp hq with rfl | hq
      · decide +kernel
      · cases hq
  bdr := by
    intro q hq
    rcases List.mem_cons.mp hq with rfl | hq
    · decide +kernel
    · rcases List.mem_cons.mp hq with rfl | hq
      · decide +kernel
      · cases hq
  gradN := by
    intro q hq
    rcases List.mem_cons.mp hq with rfl | hq
    · decide +kernel
    · rcases List.mem_cons.mp hq with rfl | hq
      · decide +kernel
      · cases hq
  grad := by
    funext i
    fin_cases i <;> decide +kernel

/-- no absorbing condition, no moments -/
def noAnalytic : Analytic ℚ := ⟨fun _ => 0, fun _ _ _ _ => 0⟩

/-- zero storage -/
def chainRaw : SolverSolution chain := ⟨fun _ => 0, fun _ => 0, fun _ => 0⟩

/-- an exact linear solver exists -/
noncomputable def inverseSolver : LinSolver ℚ := fun _ A b _ => A⁻¹ *ᵥ b

theorem inverseSolver_exact : ExactSolver inverseSolver := by
  intro n A b x0 h
  unfold inverseSolver
  rw [mulVec_mulVec, Matrix.mul_nonsing_inv _ (isUnit_iff_ne_zero.mpr h), one_mulVec]

/-- a solver on the chain with both boundaries prescribed -/
def chainBoth : Solver chain where
  params := { dirichletBoundaries := [(1, 0), (2, 0)] }
  essBdr := [1, 1]
  eps := fun _ => 1
  K := chain.stiffness (fun _ => 1)
  elim := none
  sigma := fun _ => 0
  sol := chainRaw

theorem chainBoth_made : Solver.make noAnalytic chain { dirichletBoundaries := [(1, 0), (2, 0)] } chainRaw =
    .ok chainBoth := rfl

section general
variable {𝕜 : Type _} [Field 𝕜] {F : FEM 𝕜}

/-! ## C66 -/

/-- (C66 in terms of the state of the solver.) After any history of calls that keeps some boundary prescribed, `Solve` returns the unique
solution of the discrete problem: the potential has the boundary values at the degrees of freedom of the
boundaries prescribed at construction and satisfies the equations of the assembled form, with the current
surface charges on the right, at all others; E is minus the discrete gradient; D is the projection of
permittivity times E. The inputs and surface charges are left unchanged. -/
theorem discrete_problem_state (A : Analytic 𝕜) (P : LinSolver 𝕜) (hP : ExactSolver P) (hF : ValidBoundary F)
    (p : SolverInputs 𝕜) (raw : SolverSolution F) (s0 s : Solver F)
    (hmake : Solver.make A F p raw = .ok s0) (hne : p.dirichletBoundaries ≠ [])
    (hpos : ∀ a ∈ SMap.keys p.dirichletBoundaries, 0 < a) (hist : List (SolverOp F))
    (hh : ∀ op ∈ hist, op.KeepsDirichlet) (hs : runOps P hist s0 = .ok s)
    (hreg : Regular s0.K (fun i => ∃ a ∈ SMap.keys p.dirichletBoundaries, OnBoundary F a i))
    (hD : F.massD.det ≠ 0) (ks : List Int) (hks : ks ≠ []) (hkpos : ∀ a ∈ ks, 0 < a) (V : Int → 𝕜) :
    ∃ (s' : Solver F) (phi0 : Fin F.n → 𝕜),
      (s.setDirichletConditions (prescribe ks V)).solve P = .ok s' ∧
      (∀ i, (∀ a ∈ ks, ¬ OnBoundary F a i) → phi0 i = 0) ∧
      (∀ i, ∀ a ∈ ks, OnBoundary F a i → (∀ b ∈ ks, OnBoundary F b i → V b = V a) → phi0 i = V a) ∧
      (∀ u, DirichletSolution s0.K (fun i => ∃ a ∈ SMap.keys p.dirichletBoundaries, OnBoundary F a i) phi0
        (F.surfMass *ᵥ s.sigma) u ↔ u = s'.sol.phi) ∧
      s'.sol.e = (fun i => -(F.grad *ᵥ s'.sol.phi) i) ∧
      (∀ d, F.massD *ᵥ d = F.mixed s0.eps *ᵥ s'.sol.e ↔ d = s'.sol.d) ∧
      s'.sigma = s.sigma := by
  have hb : F.bdrAttrs ≠ [] := by
    obtain ⟨m1, _⟩ := make_fields hmake
    intro h0
    unfold AttrToMarker at m1
    have hl : p.dirichletBoundaries.getAttributesAsArray.length ≠ 0 := by
      unfold AttrToValueMap.getAttributesAsArray SMap.keys; simpa using hne
    rw [if_neg hl, h0] at m1
    cases h : arrayMax p.dirichletBoundaries.getAttributesAsArray with
    | ok m => rw [h] at m1; cases m1
    | _ => rw [h] at m1; cases m1
  obtain ⟨phi0, h1, h2, h3⟩ := applyBoundary_ok hF hb ks V hkpos
  obtain ⟨s', e1, e2, e3, e4, e5, e6⟩ := solve_after hP hF hmake hne hpos hh hs hreg hD
    (v := prescribe ks V) (by unfold prescribe; simpa using hks) h1
  refine ⟨s', phi0, e1, h2, ?_, ?_, e3, ?_, ?_⟩
  · intro i a ha hon hall
    exact h3 i (V a) ⟨a, ha, hon⟩ (fun b hb hon' => hall b hb hon')
  · intro u
    exact ⟨fun hu => dirichlet_unique hreg hu e2, fun hu => hu ▸ e2⟩
  · intro d
    exact ⟨fun hd => mulVec_injective_of_det hD (hd.trans e4.symm), fun hd => hd ▸ e4⟩
  · exact (solve_setup e1).2.2.1

/-! ## C58 -/

/-- (C58 in terms of the state.) After any history of calls that keeps some boundary prescribed, prescribing values
on boundaries that were all prescribed at construction and solving gives the potential those values on their
degrees of freedom (if shared with another boundary of the set: when the values agree). Boundaries prescribed
at construction and left out are silently held at 0. -/
theorem attained_state (A : Analytic 𝕜) (P : LinSolver 𝕜) (hP : ExactSolver P) (hF : ValidBoundary F)
    (p : SolverInputs 𝕜) (raw : SolverSolution F) (s0 s : Solver F)
    (hmake : Solver.make A F p raw = .ok s0) (hne : p.dirichletBoundaries ≠ [])
    (hpos : ∀ a ∈ SMap.keys p.dirichletBoundaries, 0 < a) (hist : List (SolverOp F))
    (hh : ∀ op ∈ hist, op.KeepsDirichlet) (hs : runOps P hist s0 = .ok s)
    (hreg : Regular s0.K (fun i => ∃ a ∈ SMap.keys p.dirichletBoundaries, OnBoundary F a i))
    (hD : F.massD.det ≠ 0) (ks : List Int) (hks : ks ≠ [])
    (hsub : ∀ a ∈ ks, a ∈ SMap.keys p.dirichletBoundaries) (V : Int → 𝕜) :
    ∃ s' : Solver F, (s.setDirichletConditions (prescribe ks V)).solve P = .ok s' ∧
      (∀ a ∈ ks, ∀ i, OnBoundary F a i → (∀ b ∈ ks, OnBoundary F b i → V b = V a) →
        s'.sol.phi i = V a) ∧
      (∀ a ∈ SMap.keys p.dirichletBoundaries, ∀ i, OnBoundary F a i → (∀ b ∈ ks, ¬ OnBoundary F b i) →
        s'.sol.phi i = 0) := by
  obtain ⟨s', phi0, e1, e2, e3, e4, _⟩ := discrete_problem_state A P hP hF p raw s0 s hmake hne hpos hist hh hs
    hreg hD ks hks (fun a ha => hpos a (hsub a ha)) V
  have hsol := (e4 s'.sol.phi).mpr rfl
  refine ⟨s', e1, ?_, ?_⟩
  · intro a ha i hon hall
    rw [hsol.1 i ⟨a, hsub a ha, hon⟩]
    exact e3 i a ha hon hall
  · intro a ha i hon hno
    rw [hsol.1 i ⟨a, ha, hon⟩]
    exact e2 i hno

end general

/-- (C58 fails, in terms of the state.) For boundaries that were not prescribed at construction: with boundary 1 prescribed at
construction and 0 V and 1 V prescribed on boundaries 1 and 2 afterwards, every exact solver leaves boundary
2 at 0 V. -/
theorem late_boundary_state : ∃ s0 : Solver chain,
    Solver.make noAnalytic chain { dirichletBoundaries := [(1, 0)] } chainRaw = .ok s0 ∧
    Regular s0.K (fun i => OnBoundary chain 1 i) ∧
    ∀ P, ExactSolver P → ∃ s', (s0.setDirichletConditions [(1, 0), (2, 1)]).solve P = .ok s' ∧
      OnBoundary chain 2 (2 : Fin 3) ∧ s'.sol.phi (2 : Fin 3) = 0 := by
  refine ⟨_, rfl, chain_regular _ ((chain_on 1 0).mpr (Or.inl ⟨rfl, rfl⟩)), ?_⟩
  intro P hP
  have hfix : (fun i => ∃ a ∈ SMap.keys [((1 : Int), (0 : ℚ))], OnBoundary chain a i) =
      fun i => OnBoundary chain 1 i := by
    funext i; simp [SMap.keys]
  obtain ⟨s', phi0, e1, e2, e3, e4, _⟩ := discrete_problem_state noAnalytic P hP chain_valid
    { dirichletBoundaries := [(1, 0)] } chainRaw _ _ rfl (by simp) (by simp [SMap.keys]) []
    (by intro _ h; cases h) rfl (by
      show Regular (chain.stiffness fun _ => 1) _
      exact chain_regular _ ⟨1, by simp [SMap.keys], (chain_on 1 0).mpr (Or.inl ⟨rfl, rfl⟩)⟩)
    chain_det [1, 2] (by simp) (by decide) (fun a => if a = 2 then 1 else 0)
  refine ⟨s', e1, (chain_on 2 2).mpr (Or.inr ⟨rfl, rfl⟩), ?_⟩
  have h0 : phi0 (0 : Fin 3) = 0 := by
    refine (e3 (0 : Fin 3) 1 (by simp) ((chain_on 1 0).mpr (Or.inl ⟨rfl, rfl⟩)) ?_).trans (by simp)
    intro b _ hon
    rcases (chain_on b 0).mp hon with ⟨rfl, _⟩ | ⟨_, h⟩
    · rfl
    · exact absurd h (by decide)
  have : (fun _ => (0 : ℚ)) = s'.sol.phi := by
    rw [← e4]
    refine ⟨?_, ?_⟩
    · rintro i ⟨a, ha, hon⟩
      have ha1 : a = 1 := by simpa [SMap.keys] using ha
      subst ha1
      rcases (chain_on 1 i).mp hon with ⟨_, rfl⟩ | ⟨h, _⟩
      · exact h0.symm
      · exact absurd h (by decide)
    · intro i _
      have r : chain.surfMass *ᵥ (fun _ => (0 : ℚ)) = fun _ => 0 := by
        funext k; simp [mulVec, dotProduct]
      show (_ *ᵥ fun _ => (0 : ℚ)) i = (chain.surfMass *ᵥ (fun _ => (0 : ℚ))) i
      rw [r]; simp [mulVec, dotProduct]
  exact (congrFun this (2 : Fin 3)).symm

section general
variable {𝕜 : Type _} [Field 𝕜] {F : FEM 𝕜}

/-! ## C59 -/

/-- (C59 in terms of the state.) Without surface charges the fields and the charges depend linearly on the prescribed values,
after any history. -/
theorem superposition_state (A : Analytic 𝕜) (P : LinSolver 𝕜) (hP : ExactSolver P) (hF : ValidBoundary F)
    (p : SolverInputs 𝕜) (raw : SolverSolution F) (s0 s : Solver F)
    (hmake : Solver.make A F p raw = .ok s0) (hne : p.dirichletBoundaries ≠ [])
    (hpos : ∀ a ∈ SMap.keys p.dirichletBoundaries, 0 < a) (hist : List (SolverOp F))
    (hh : ∀ op ∈ hist, op.KeepsDirichlet) (hs : runOps P hist s0 = .ok s) (hsig : s.sigma = fun _ => 0)
    (hreg : Regular s0.K (fun i => ∃ a ∈ SMap.keys p.dirichletBoundaries, OnBoundary F a i))
    (hD : F.massD.det ≠ 0) (ks : List Int) (hks : ks ≠ []) (hkpos : ∀ a ∈ ks, 0 < a)
    (V1 V2 : Int → 𝕜) (α β : 𝕜) :
    ∃ s1 s2 s' : Solver F, (s.setDirichletConditions (prescribe ks V1)).solve P = .ok s1 ∧
      (s.setDirichletConditions (prescribe ks V2)).solve P = .ok s2 ∧
      (s.setDirichletConditions (prescribe ks (fun a => α * V1 a + β * V2 a))).solve P = .ok s' ∧
      (∀ i, s'.sol.phi i = α * s1.sol.phi i + β * s2.sol.phi i) ∧
      (∀ i, s'.sol.e i = α * s1.sol.e i + β * s2.sol.e i) ∧
      (∀ i, s'.sol.d i = α * s1.sol.d i + β * s2.sol.d i) ∧
      (∀ a, s'.getChargeInBoundary a = α * s1.getChargeInBoundary a + β * s2.getChargeInBoundary a) ∧
      s'.getTotalCharge = α * s1.getTotalCharge + β * s2.getTotalCharge ∧
      (∀ n d c, s'.getChargeMomentComponent A n d c =
        α * s1.getChargeMomentComponent A n d c + β * s2.getChargeMomentComponent A n d c) := by
  have hb : F.bdrAttrs ≠ [] := by
    obtain ⟨m1, _⟩ := make_fields hmake
    intro h0
    unfold AttrToMarker at m1
    have hl : p.dirichletBoundaries.getAttributesAsArray.length ≠ 0 := by
      unfold AttrToValueMap.getAttributesAsArray SMap.keys; simpa using hne
    rw [if_neg hl, h0] at m1
    cases h : arrayMax p.dirichletBoundaries.getAttributesAsArray with
    | ok m => rw [h] at m1; cases m1
    | _ => rw [h] at m1; cases m1
  have hpne : ∀ V : Int → 𝕜, prescribe ks V ≠ [] := by intro V; unfold prescribe; simpa using hks
  obtain ⟨g1, a1, _⟩ := applyBoundary_ok hF hb ks V1 hkpos
  obtain ⟨g2, a2, _⟩ := applyBoundary_ok hF hb ks V2 hkpos
  have a3 := applyBoundary_comb V1 V2 α β ks a1 a2
  have hz : (fun i : Fin F.n => α * (0 : 𝕜) + β * 0) = fun _ => 0 := by funext i; simp
  rw [hz] at a3
  have hrhs : F.surfMass *ᵥ s.sigma = fun _ => 0 := by
    rw [hsig]; funext k; simp [mulVec, dotProduct]
  obtain ⟨s1, b1, c1, d1, f1, x1, y1⟩ := solve_after hP hF hmake hne hpos hh hs hreg hD (hpne V1) a1
  obtain ⟨s2, b2, c2, d2, f2, x2, y2⟩ := solve_after hP hF hmake hne hpos hh hs hreg hD (hpne V2) a2
  obtain ⟨s3, b3, c3, d3, f3, x3, y3⟩ := solve_after hP hF hmake hne hpos hh hs hreg hD (hpne _) a3
  rw [hrhs] at c1 c2 c3
  have hphi : s3.sol.phi = fun i => α * s1.sol.phi i + β * s2.sol.phi i := by
    apply dirichlet_unique hreg c3
    have := dirichlet_linear c1 c2 α β
    simpa using this
  have he : s3.sol.e = fun i => α * s1.sol.e i + β * s2.sol.e i := by
    rw [d3, d1, d2, hphi, mulVec_comb]
    funext i; ring
  have hd : s3.sol.d = fun i => α * s1.sol.d i + β * s2.sol.d i := by
    apply mulVec_injective_of_det hD
    rw [f3, he, mulVec_comb, mulVec_comb, f1, f2]
  have hq : ∀ a, s3.getChargeInBoundary a = α * s1.getChargeInBoundary a + β * s2.getChargeInBoundary a := by
    intro a
    unfold Solver.getChargeInBoundary
    rw [hd, flux_comb]
  refine ⟨s1, s2, s3, b1, b2, b3, fun i => congrFun hphi i, fun i => congrFun he i, fun i => congrFun hd i,
    hq, ?_, ?_⟩
  · unfold Solver.getTotalCharge
    rw [hd, flux_comb]
  · have hk : ∀ V : Int → 𝕜, SMap.keys (prescribe ks V) = ks := fun V => prescribe_keys ks V
    have n1 : s1.chargedBoundaries = s3.chargedBoundaries := by
      unfold Solver.chargedBoundaries; rw [y1, y3, x1.neumann, x3.neumann, hk, hk]
    have n2 : s2.chargedBoundaries = s3.chargedBoundaries := by
      unfold Solver.chargedBoundaries; rw [y2, y3, x2.neumann, x3.neumann, hk, hk]
    intro n d c
    unfold Solver.getChargeMomentComponent
    rw [n1, n2]
    split
    · split
      · simp only [foldl_add_eq_sum, zero_add, hq]
        rw [List.sum_map_add, List.sum_map_mul_left, List.sum_map_mul_left]
      · ring
    · rw [hd, flux_comb]

/-! ## C60 -/

/-- Uniform potentials and the sum over all one-volt excitations. -/
theorem stiffness_const (hC : RepresentsConstants F) (eps : Int → 𝕜) (c : 𝕜) :
    F.stiffness eps *ᵥ (fun _ => c) = fun _ => 0 := by
  funext i
  simp only [mulVec, dotProduct, FEM.stiffness, Matrix.of_apply]
  rw [sum_list_sum F.dom (fun q k => q.w * eps q.attr * dot2 (q.gradN i) (q.gradN k)) (fun _ => c)]
  apply List.sum_eq_zero
  intro x hx
  obtain ⟨q, hq, rfl⟩ := List.mem_map.mp hx
  obtain ⟨g1, g2⟩ := hC.gradN q hq
  have : ∀ k, q.w * eps q.attr * dot2 (q.gradN i) (q.gradN k) * c =
      (q.w * eps q.attr * c * (q.gradN i).1) * (q.gradN k).1 +
      (q.w * eps q.attr * c * (q.gradN i).2) * (q.gradN k).2 := by
    intro k; unfold dot2; ring
  simp only [this, Finset.sum_add_distrib, ← Finset.mul_sum, g1, g2]
  ring

/-- (C60 in terms of the state.) In a problem without open boundary and surface charge, prescribing the same value on every
boundary prescribed at construction gives that constant potential everywhere, zero E and D, and zero charges.
Consequently the charges induced on any boundary by exciting each prescribed boundary with one volt add up to
zero. -/
theorem uniform_state (A : Analytic 𝕜) (P : LinSolver 𝕜) (hP : ExactSolver P) (hF : ValidBoundary F)
    (hC : RepresentsConstants F) (p : SolverInputs 𝕜) (raw : SolverSolution F) (s0 s : Solver F)
    (hmake : Solver.make A F p raw = .ok s0) (hne : p.dirichletBoundaries ≠ [])
    (hpos : ∀ a ∈ SMap.keys p.dirichletBoundaries, 0 < a) (hopen : p.openBoundaries = [])
    (hist : List (SolverOp F)) (hh : ∀ op ∈ hist, op.KeepsDirichlet) (hs : runOps P hist s0 = .ok s)
    (hsig : s.sigma = fun _ => 0)
    (hreg : Regular s0.K (fun i => ∃ a ∈ SMap.keys p.dirichletBoundaries, OnBoundary F a i))
    (hD : F.massD.det ≠ 0) :
    (∀ c : 𝕜, ∃ s' : Solver F,
      (s.setDirichletConditions (prescribe (SMap.keys p.dirichletBoundaries) (fun _ => c))).solve P = .ok s' ∧
      (∀ i, s'.sol.phi i = c) ∧ (∀ i, s'.sol.e i = 0) ∧ (∀ i, s'.sol.d i = 0) ∧
      ∀ a, s'.getChargeInBoundary a = 0) ∧
    (∀ r : Int → Solver F, (SMap.keys p.dirichletBoundaries).Nodup →
      (∀ k ∈ SMap.keys p.dirichletBoundaries,
        (s.setDirichletConditions (prescribe (SMap.keys p.dirichletBoundaries)
          (fun a => if a = k then 1 else 0))).solve P = .ok (r k)) →
      ∀ a, ((SMap.keys p.dirichletBoundaries).map (fun k => (r k).getChargeInBoundary a)).sum = 0) := by
  have hkne : SMap.keys p.dirichletBoundaries ≠ [] := by unfold SMap.keys; simpa using hne
  have hK : s0.K = F.stiffness s0.eps := by
    obtain ⟨_, _, _, _, _, _, h, _⟩ := make_fields hmake
    exact h hopen
  have uni : ∀ c : 𝕜, ∃ s' : Solver F,
      (s.setDirichletConditions (prescribe (SMap.keys p.dirichletBoundaries) (fun _ => c))).solve P = .ok s' ∧
      (∀ i, s'.sol.phi i = c) ∧ (∀ i, s'.sol.e i = 0) ∧ (∀ i, s'.sol.d i = 0) ∧
      ∀ a, s'.getChargeInBoundary a = 0 := by
    intro c
    obtain ⟨s', phi0, e1, e2, e3, e4, e5, e6, _⟩ := discrete_problem_state A P hP hF p raw s0 s hmake hne hpos
      hist hh hs hreg hD _ hkne hpos (fun _ => c)
    have hphi : (fun _ => c) = s'.sol.phi := by
      rw [← e4]
      refine ⟨?_, ?_⟩
      · rintro i ⟨a, ha, hon⟩
        exact (e3 i a ha hon (fun _ _ _ => rfl)).symm
      · intro i _
        rw [hK, stiffness_const hC, hsig]
        simp [mulVec, dotProduct]
    have he : s'.sol.e = fun _ => 0 := by
      rw [e5, ← hphi]
      have : (fun _ : Fin F.n => c) = c • (fun _ => (1 : 𝕜)) := by funext i; simp
      rw [this, mulVec_smul, hC.grad]
      funext i; simp
    have hd : (fun _ => 0) = s'.sol.d := by
      rw [← e6, he]
      funext i; simp [mulVec, dotProduct]
    refine ⟨s', e1, fun i => (congrFun hphi i).symm, fun i => congrFun he i,
      fun i => (congrFun hd i).symm, ?_⟩
    intro a
    unfold Solver.getChargeInBoundary
    rw [← hd, flux_zero]
  refine ⟨uni, ?_⟩
  intro r hnd hr a
  -- the charge as a linear function of the prescribed values
  have ex : ∀ V : Int → 𝕜, ∃ s' : Solver F,
      (s.setDirichletConditions (prescribe (SMap.keys p.dirichletBoundaries) V)).solve P = .ok s' := by
    intro V
    obtain ⟨s', _, e1, _⟩ := discrete_problem_state A P hP hF p raw s0 s hmake hne hpos
      hist hh hs hreg hD _ hkne hpos V
    exact ⟨s', e1⟩
  choose g hg using ex
  have lin : ∀ (V1 V2 : Int → 𝕜) (α β : 𝕜), (g (fun b => α * V1 b + β * V2 b)).getChargeInBoundary a =
      α * (g V1).getChargeInBoundary a + β * (g V2).getChargeInBoundary a := by
    intro V1 V2 α β
    obtain ⟨s1, s2, s3, b1, b2, b3, _, _, _, hq, _⟩ := superposition_state A P hP hF p raw s0 s hmake hne hpos
      hist hh hs hsig hreg hD _ hkne hpos V1 V2 α β
    rw [hg] at b1 b2 b3
    cases b1; cases b2; cases b3
    exact hq a
  have hsum : ∀ l : List Int, l.Nodup →
      (l.map (fun k => (g (fun b => if b = k then 1 else 0)).getChargeInBoundary a)).sum =
      (g (fun b => if b ∈ l then 1 else 0)).getChargeInBoundary a := by
    intro l
    induction l with
    | nil =>
      intro _
      have := lin (fun _ => 0) (fun _ => 0) 0 0
      simp only [zero_mul, add_zero] at this
      simpa using this.symm
    | cons k l ih =>
      intro hn
      rw [List.nodup_cons] at hn
      rw [List.map_cons, List.sum_cons, ih hn.2]
      have := lin (fun b => if b = k then 1 else 0) (fun b => if b ∈ l then 1 else 0) 1 1
      rw [one_mul, one_mul] at this
      rw [← this]
      congr 2
      funext b
      by_cases hb : b = k
      · subst hb; simp [hn.1]
      · simp [hb]
  have hrk : ∀ k ∈ SMap.keys p.dirichletBoundaries, r k = g (fun b => if b = k then 1 else 0) := by
    intro k hk
    have := hr k hk
    rw [hg] at this
    exact (Outcome.ok.inj this).symm
  have e1 : ((SMap.keys p.dirichletBoundaries).map (fun k => (r k).getChargeInBoundary a)).sum =
      ((SMap.keys p.dirichletBoundaries).map (fun k =>
        (g (fun b => if b = k then 1 else 0)).getChargeInBoundary a)).sum := by
    congr 1
    apply List.map_congr_left
    intro k hk
    rw [hrk k hk]
  rw [e1, hsum _ hnd]
  obtain ⟨s', h1, _, _, _, h2⟩ := uni 1
  have e2 : prescribe (SMap.keys p.dirichletBoundaries)
      (fun b => if b ∈ SMap.keys p.dirichletBoundaries then (1 : 𝕜) else 0) =
      prescribe (SMap.keys p.dirichletBoundaries) (fun _ => 1) := by
    unfold prescribe
    apply List.map_congr_left
    intro b hb; simp only [if_pos hb]
  have := hg (fun b => if b ∈ SMap.keys p.dirichletBoundaries then (1 : 𝕜) else 0)
  rw [e2, h1] at this
  cases this
  exact h2 a

end general

/-- the hypotheses of C58, C59, C60 and C66 hold for the chain with both boundaries prescribed, also after
solving and setting other values -/
example : ExactSolver inverseSolver ∧ ValidBoundary chain ∧ RepresentsConstants chain ∧
    Solver.make noAnalytic chain { dirichletBoundaries := [(1, 0), (2, 0)] } chainRaw = .ok chainBoth ∧
    Regular chainBoth.K (fun i => ∃ a ∈ SMap.keys [((1 : Int), (0 : ℚ)), (2, 0)], OnBoundary chain a i) ∧
    chain.massD.det ≠ 0 ∧
    (∃ s, runOps inverseSolver [.setDirichlet [(1, 0), (2, 1)], .solve] chainBoth = .ok s ∧
      s.sigma = fun _ => 0) := by
  refine ⟨inverseSolver_exact, chain_valid, chain_constants, chainBoth_made, ?_, chain_det, ?_⟩
  · exact chain_regular _ ⟨1, by simp [SMap.keys], (chain_on 1 0).mpr (Or.inl ⟨rfl, rfl⟩)⟩
  · exact ⟨_, rfl, rfl⟩

end Tulip.Props
