import Verif.Proofs.CGSolver
import Verif.Props.Redeclared

/-!
# C84: the iterative linear solver; C63 with it
-/

set_option linter.unusedSectionVars false

namespace Tulip.Props
open Tulip Tulip.Spec Matrix

/-- Both systems are solved with conjugate gradients and symmetric Gauss-Seidel, from the guess given, with at least one
iteration and any tolerances (they may be different from call to call). -/
def UsesPCG {𝕜 : Type} [Field 𝕜] [LinearOrder 𝕜] (P : LinSolver 𝕜) : Prop :=
  ∀ n A b x0, ∃ (maxIter : Nat) (rtol atol : 𝕜), 1 ≤ maxIter ∧ 0 ≤ atol ∧ P n A b x0 = mfemPCG maxIter rtol atol n A b x0

/-- Twice the energy of a potential. -/
def energyOf {𝕜 : Type} [Field 𝕜] (A : Analytic 𝕜) (F : FEM 𝕜) (mats : Materials 𝕜) (b : Bool) (phi : Fin F.n → 𝕜) : 𝕜 :=
  doubleEnergy A F mats b ⟨phi, fun _ => 0, fun _ => 0⟩

section
variable {𝕜 : Type} [Field 𝕜] [LinearOrder 𝕜] [IsStrictOrderedRing 𝕜]

/-- **C84** (the linear solver). For symmetric positive definite matrices: the error in energy is never more than that of
the initial guess; with as many iterations as unknowns the residual, in the norm of the preconditioner, is within the
tolerances, and with zero tolerances the system is solved; that norm vanishes for no residual but 0. -/
theorem C84_linear_solver {n : Nat} {A : Matrix (Fin n) (Fin n) 𝕜} (hA : PD A) {N : Nat} (hN : 1 ≤ N) (rtol : 𝕜) {atol : 𝕜}
    (h0 : 0 ≤ atol) (b x0 : Fin n → 𝕜) :
    (∀ y, A *ᵥ y = b → (y - mfemPCG N rtol atol n A b x0) ⬝ᵥ A *ᵥ (y - mfemPCG N rtol atol n A b x0) ≤
      (y - x0) ⬝ᵥ A *ᵥ (y - x0)) ∧
    (n ≤ N → (b - A *ᵥ mfemPCG N rtol atol n A b x0) ⬝ᵥ gsSmooth A (b - A *ᵥ mfemPCG N rtol atol n A b x0) ≤
      max (((b - A *ᵥ x0) ⬝ᵥ gsSmooth A (b - A *ᵥ x0)) * rtol) atol) ∧
    (n ≤ N → A *ᵥ mfemPCG N 0 0 n A b x0 = b) ∧
    (∀ r : Fin n → 𝕜, r ≠ 0 → 0 < r ⬝ᵥ gsSmooth A r) :=
  ⟨fun _ hy => mfemPCG_energy hA hN rtol h0 hy, fun hn => mfemPCG_residual hA hN hn rtol h0 b x0,
    fun hn => mfemPCG_exact hA hN hn b x0, fun _ hr => gsSmooth_pos hA.1 (PD.diag_pos hA) hr⟩

/-- **C84** (conductors). Whatever the number of iterations, the tolerances, the materials and the uninitialised
storage, and even if the iteration does not converge: the driver is constructed, the stored potential of conductor `i` is
exactly 1 V at its own degrees of freedom and 0 V at those of the other conductors, and E is minus its gradient. -/
theorem C84_conductors (E : Engine 𝕜) (hE : ∀ n A b x0, ∃ (N : Nat) (rtol atol : 𝕜), E.pcg n A b x0 = mfemPCG N rtol atol n A b x0)
    {model : Model 𝕜} {opts : DriverOptions} {ps : List (PEC 𝕜)} (hN : Numbering model.materials ps)
    (hB : Buildable (E.fem model opts) model.materials) (hs : Separate (E.fem model opts) model.materials) :
    ∃ d, (Driver.construct E model opts).1 = .ok d ∧ ∀ (b : Bool) (i : Fin ps.length), ∃ t,
      (d.problem b).solutions[i.1]? = some (some t) ∧
      (∀ p ∈ model.materials.pecs, ∀ k, OnBoundary (E.fem model opts) p.tag k → t.phi k = if p.tag = ps[i].tag then 1 else 0) ∧
      ∀ k, t.e k = -∑ j, (E.fem model opts).grad k j * t.phi j := by
  obtain ⟨d, s0e, s0m, se, sm, hc, _, _, h1, h2⟩ := construct_spec E (opts := opts) hN hB
  refine ⟨d, by rw [hc], fun b i => ?_⟩
  have key : ∀ {b : Bool} {sp : SolvedProblem (E.fem model opts)} {s0 sols}, Solved E model.materials b ps sp s0 sols → ∃ t,
      sp.solutions[i.1]? = some (some t) ∧
      (∀ p ∈ model.materials.pecs, ∀ k, OnBoundary (E.fem model opts) p.tag k → t.phi k = if p.tag = ps[i].tag then 1 else 0) ∧
      ∀ k, t.e k = -∑ j, (E.fem model opts).grad k j * t.phi j := by
    intro b sp s0 sols h
    have hi : i.1 < sols.length := by rw [h.len]; exact i.2
    refine ⟨sols[i.1], by rw [h.stored, List.getElem?_map, List.getElem?_eq_getElem hi]; rfl, ?_⟩
    obtain ⟨ess, phi0, a1, _, a3, a4, a5⟩ := Excited.phi hN hB h.make (h.each i.1 i.2 hi)
    refine ⟨fun p hp k hk => ?_, fun k => congrFun a5 k⟩
    have hmem : k ∈ ess := (a1 k).mpr ⟨p, hp, hk⟩
    obtain ⟨N, rtol, atol, e⟩ := hE (E.fem model opts).n (eliminated s0.K ess)
      (Solver.formRhs s0.K (eliminated s0.K ess) ess phi0 (fun _ => 0)) phi0
    rw [a4, e, mfemPCG_fixed (eliminated_uncoupled hmem) N rtol atol (by unfold Solver.formRhs; rw [if_pos hmem])]
    refine a3 k _ hmem fun q hq ho => ?_
    rw [hs q hq p hp k ho hk]
    rfl
  cases b
  · exact key h1
  · exact key h2

/-- **C84** (energies). For elliptic problems, whatever the number of iterations and the tolerances: the error of the
stored potentials, in energy, is at most that of the initial guess (1 V at the nodes of the conductor, 0 V at all others),
and their energy is between that of the exact solution and that of the guess. -/
theorem C84_energy (E : Engine 𝕜) (hE : UsesPCG E.pcg) {model : Model 𝕜} {opts : DriverOptions} {ps : List (PEC 𝕜)}
    (hN : Numbering model.materials ps) (hB : Buildable (E.fem model opts) model.materials) (hW : WellDeclared model.materials)
    (hs : Separate (E.fem model opts) model.materials) (he : Elliptic E.analytic (E.fem model opts) model.materials) :
    ∃ d, (Driver.construct E model opts).1 = .ok d ∧ ∀ (b : Bool) (i : Fin ps.length), ∃ t,
      (d.problem b).solutions[i.1]? = some (some t) ∧
      ∀ u guess, PrescribedField E.analytic (E.fem model opts) model.materials b (oneVolt ps[i].tag) u →
        (∀ k, OnBoundary (E.fem model opts) ps[i].tag k → guess k = 1) →
        (∀ k, ¬ OnBoundary (E.fem model opts) ps[i].tag k → guess k = 0) →
        energyOf E.analytic (E.fem model opts) model.materials b (u.phi - t.phi) ≤
          energyOf E.analytic (E.fem model opts) model.materials b (u.phi - guess) ∧
        energyOf E.analytic (E.fem model opts) model.materials b u.phi ≤
          energyOf E.analytic (E.fem model opts) model.materials b t.phi ∧
        energyOf E.analytic (E.fem model opts) model.materials b t.phi ≤
          energyOf E.analytic (E.fem model opts) model.materials b guess := by
  obtain ⟨d, s0e, s0m, se, sm, hc, _, _, h1, h2⟩ := construct_spec E (opts := opts) hN hB
  refine ⟨d, by rw [hc], fun b i => ?_⟩
  have key : ∀ {b : Bool} {sp : SolvedProblem (E.fem model opts)} {s0 sols}, Solved E model.materials b ps sp s0 sols → ∃ t,
      sp.solutions[i.1]? = some (some t) ∧
      ∀ u guess, PrescribedField E.analytic (E.fem model opts) model.materials b (oneVolt ps[i].tag) u →
        (∀ k, OnBoundary (E.fem model opts) ps[i].tag k → guess k = 1) →
        (∀ k, ¬ OnBoundary (E.fem model opts) ps[i].tag k → guess k = 0) →
        energyOf E.analytic (E.fem model opts) model.materials b (u.phi - t.phi) ≤
          energyOf E.analytic (E.fem model opts) model.materials b (u.phi - guess) ∧
        energyOf E.analytic (E.fem model opts) model.materials b u.phi ≤
          energyOf E.analytic (E.fem model opts) model.materials b t.phi ∧
        energyOf E.analytic (E.fem model opts) model.materials b t.phi ≤
          energyOf E.analytic (E.fem model opts) model.materials b guess := by
    intro b sp s0 sols h
    have hi : i.1 < sols.length := by rw [h.len]; exact i.2
    refine ⟨sols[i.1], by rw [h.stored, List.getElem?_map, List.getElem?_eq_getElem hi]; rfl, fun u guess hu g1 g0 => ?_⟩
    obtain ⟨ess, phi0, a1, a2, a3, a4, _⟩ := Excited.phi hN hB h.make (h.each i.1 i.2 hi)
    obtain ⟨hK, _⟩ := make_system hB hW h.make
    rw [hK] at a4
    generalize sols[i.1] = t at a4 ⊢
    have hpi : ps[i] ∈ model.materials.pecs := hN.all.mem_iff.mp (List.getElem_mem i.2)
    have val : ∀ k ∈ ess, phi0 k = guess k ∧ u.phi k = phi0 k := fun k hk => by
      obtain ⟨p, hp, ho⟩ := (a1 k).mp hk
      have e0 : phi0 k = oneVolt ps[i].tag p.tag := a3 k _ hk fun q hq hq' => by
        rw [hs q hq p hp k hq' ho]; rfl
      have e1 : u.phi k = oneVolt ps[i].tag p.tag :=
        hu.values k _ ⟨p, hp, ho⟩ fun q hq hq' => by rw [hs q hq p hp k hq' ho]
      refine ⟨?_, e1.trans e0.symm⟩
      rw [e0]
      unfold oneVolt
      by_cases e : p.tag = ps[i].tag
      · rw [if_pos e, g1 k (e ▸ ho)]
      · rw [if_neg e, g0 k fun h => e (hs p hp _ hpi k ho h)]
    have hg : guess = phi0 := funext fun k => by
      by_cases hk : k ∈ ess
      · exact (val k hk).1.symm
      · rw [a2 k hk, g0 k fun h => hk ((a1 k).mpr ⟨_, hpi, h⟩)]
    subst hg
    have eqs : ∀ k, k ∉ ess → (systemMatrix E.analytic (E.fem model opts) model.materials b *ᵥ u.phi) k = 0 := fun k hk => by
      rw [systemMatrix_mulVec]
      exact hu.equations k fun p hp ho => hk ((a1 k).mpr ⟨p, hp, ho⟩)
    have hsol := eliminated_solution (K := systemMatrix E.analytic (E.fem model opts) model.materials b) a2 (fun k hk => (val k hk).2) eqs
    have hPD := he.eliminated_PD b a1
    obtain ⟨N, rtol, atol, n1, n0, e⟩ := hE _ (eliminated (systemMatrix E.analytic (E.fem model opts) model.materials b) ess)
      (Solver.formRhs (systemMatrix E.analytic (E.fem model opts) model.materials b)
        (eliminated (systemMatrix E.analytic (E.fem model opts) model.materials b) ess) ess guess (fun _ => 0)) guess
    rw [e] at a4
    have tval : ∀ k ∈ ess, t.phi k = guess k := fun k hk => by
      rw [a4]
      exact mfemPCG_fixed (eliminated_uncoupled hk) N rtol atol (by unfold Solver.formRhs; rw [if_pos hk])
    have hen := mfemPCG_energy hPD n1 rtol n0 (x0 := guess) hsol
    rw [← a4, eliminated_form_zero fun k hk => by rw [Pi.sub_apply, tval k hk, (val k hk).2, sub_self],
      eliminated_form_zero fun k hk => by rw [Pi.sub_apply, (val k hk).2, sub_self]] at hen
    have form : ∀ v, energyOf E.analytic (E.fem model opts) model.materials b v =
        v ⬝ᵥ systemMatrix E.analytic (E.fem model opts) model.materials b *ᵥ v := fun v => by
      rw [systemMatrix_form]
      exact doubleEnergy_eq _
    have split : ∀ v : Fin (E.fem model opts).n → 𝕜, (∀ k ∈ ess, v k = u.phi k) →
        energyOf E.analytic (E.fem model opts) model.materials b v =
          energyOf E.analytic (E.fem model opts) model.materials b u.phi +
          energyOf E.analytic (E.fem model opts) model.materials b (u.phi - v) := fun v hv => by
      rw [form, form, form]
      have o : (u.phi - v) ⬝ᵥ systemMatrix E.analytic (E.fem model opts) model.materials b *ᵥ u.phi = 0 := by
        refine Finset.sum_eq_zero fun k _ => ?_
        by_cases hk : k ∈ ess
        · rw [Pi.sub_apply, hv k hk, sub_self, zero_mul]
        · rw [eqs k hk, mul_zero]
      have o' : u.phi ⬝ᵥ systemMatrix E.analytic (E.fem model opts) model.materials b *ᵥ (u.phi - v) = 0 := by
        rw [← o, dotProduct_mulVec, ← mulVec_transpose, systemMatrix_symm b, dotProduct_comm]
      have hv' : v = u.phi - (u.phi - v) := (sub_sub_cancel _ _).symm
      calc v ⬝ᵥ _ *ᵥ v = (u.phi - (u.phi - v)) ⬝ᵥ systemMatrix E.analytic (E.fem model opts) model.materials b *ᵥ (u.phi - (u.phi - v)) := by
            rw [← hv']
        _ = _ := by
            generalize u.phi - v = w at o o' ⊢
            rw [mulVec_sub, sub_dotProduct, dotProduct_sub, dotProduct_sub, o, o']
            ring
    rw [form, form]
    refine ⟨hen, ?_, ?_⟩
    · rw [split t.phi fun k hk => (tval k hk).trans (val k hk).2.symm]
      refine le_add_of_nonneg_right ?_
      rw [form]
      exact he.form_nonneg b _
    · rw [split t.phi fun k hk => (tval k hk).trans (val k hk).2.symm, split guess fun k hk => (val k hk).2.symm, form, form, form]
      exact add_le_add_right hen _
  cases b
  · exact key h1
  · exact key h2

/-- **C84** (exact arithmetic). For elliptic problems the assumption of an exact solver, made in other theorems, is met by
conjugate gradients with zero tolerances and as many iterations as unknowns: the driver constructed, and what the
construction writes, is the same as with any exact solver. -/
theorem C84_exact (E : Engine 𝕜) {model : Model 𝕜} {opts : DriverOptions} {ps : List (PEC 𝕜)}
    (hN : Numbering model.materials ps) (hB : Buildable (E.fem model opts) model.materials) (hW : WellDeclared model.materials)
    (he : Elliptic E.analytic (E.fem model opts) model.materials) {N : Nat} (h1 : 1 ≤ N) (h2 : (E.fem model opts).n ≤ N)
    (h3 : (E.fem model opts).nd ≤ N) {P : LinSolver 𝕜} (hP : ExactSolver P) :
    Driver.construct { E with pcg := mfemPCG N 0 0 } model opts = Driver.construct { E with pcg := P } model opts := by
  have key : ∀ b, solveForAllConductors { E with pcg := mfemPCG N 0 0 } (E.fem model opts) model opts b =
      solveForAllConductors { E with pcg := P } (E.fem model opts) model opts b := fun b =>
    solveForAll_congr (E := E) hN hB hW b
      (fun ess hess c x0 => mfemPCG_eq (he.eliminated_PD b hess) h1 h2 hP c x0)
      (fun c x0 => mfemPCG_eq he.massD_PD h1 h3 hP c x0)
  unfold Driver.construct
  refine congrArg _ (funext fun _ => ?_)
  show (solveForAllConductors { E with pcg := mfemPCG N 0 0 } (E.fem model opts) model opts false >>= _) =
    (solveForAllConductors { E with pcg := P } (E.fem model opts) model opts false >>= _)
  rw [key false]
  refine congrArg _ (funext fun _ => ?_)
  show (solveForAllConductors { E with pcg := mfemPCG N 0 0 } (E.fem model opts) model opts true >>= _) =
    (solveForAllConductors { E with pcg := P } (E.fem model opts) model opts true >>= _)
  rw [key true]
  rfl

end

/-! ## C63 with the real tolerances -/

/-- one node, on boundary 1, and two flux functions that are nearly orthogonal -/
def skew : FEM ℚ where
  n := 1
  ne := 1
  nd := 2
  bdrAttrs := [1]
  domAttrs := [1]
  bdrElems := [(1, [0])]
  node := fun _ => (0, 0)
  dom := [{ attr := 1, w := 1, N := fun _ => 1, gradN := fun _ => (1, 0), W := fun _ => (1, 0),
            R := ![(1, 0), (1 / 10000, 1)] }]
  bdr := [{ attr := 1, w := 1, pos := (0, 0), N := fun _ => 1, fl := ![0, 1] }]
  grad := 0

/-- The iteration the code asks for: 500 iterations, relative tolerance 1e-12, absolute tolerance 1e-24. -/
def codePCG : LinSolver ℚ := mfemPCG 500 (1 / 10 ^ 12) (1 / 10 ^ 24)

theorem skew_charge (c : ℚ) (hc : c = 0 ∨ c = 1) : ∃ s r, Solver.make noAnalytic skew { dirichletBoundaries := [(1, 0)] }
    ⟨fun _ => 0, fun _ => 0, fun _ => c⟩ = .ok s ∧ s.solve codePCG = .ok r ∧
    (r.getChargeInBoundary 1 = 0 ↔ c = 0) := by
  rcases hc with rfl | rfl
  · refine ⟨_, _, rfl, rfl, ?_⟩
    decide +kernel
  · refine ⟨_, _, rfl, rfl, ?_⟩
    decide +kernel

/-- **C63 fails** also for the storage D is computed in: with the tolerances of the code, the charge computed for the
same inputs by the first `Solve` depends on what was in that storage (uninitialised in the code): it is 0, the exact value,
for one content and not 0 for another. -/
theorem C63_storage_refuted : ∃ (F : FEM ℚ) (p : SolverInputs ℚ) (raw raw' : SolverSolution F) (s s' r r' : Solver F),
    PD F.massD ∧ Solver.make noAnalytic F p raw = .ok s ∧ Solver.make noAnalytic F p raw' = .ok s' ∧
    s.solve codePCG = .ok r ∧ s'.solve codePCG = .ok r' ∧
    r.getChargeInBoundary 1 = 0 ∧ r'.getChargeInBoundary 1 ≠ 0 := by
  obtain ⟨s, r, h1, h2, h3⟩ := skew_charge 0 (Or.inl rfl)
  obtain ⟨s', r', h1', h2', h3'⟩ := skew_charge 1 (Or.inr rfl)
  refine ⟨skew, _, _, _, s, s', r, r', ⟨?_, ?_⟩, h1, h1', h2, h2', h3.mpr rfl, fun h => one_ne_zero (h3'.mp h)⟩
  · ext i j
    show skew.massD j i = skew.massD i j
    revert i j
    show ∀ i j : Fin 2, _
    intro i j
    fin_cases i <;> fin_cases j <;> decide +kernel
  · intro x hx
    have e : x ⬝ᵥ skew.massD *ᵥ x = (x (0 : Fin 2) + x (1 : Fin 2) / 10000) ^ 2 + x (1 : Fin 2) ^ 2 := by
      have m : ∀ i j : Fin 2, skew.massD i j = (!![1, 1 / 10000; 1 / 10000, 1 + 1 / 10 ^ 8] : Matrix (Fin 2) (Fin 2) ℚ) i j := by
        intro i j
        fin_cases i <;> fin_cases j <;> decide +kernel
      have sum : ∀ f : Fin skew.nd → ℚ, ∑ k, f k = f (0 : Fin 2) + f (1 : Fin 2) := fun f => Fin.sum_univ_two f
      unfold dotProduct mulVec dotProduct
      simp only [sum]
      rw [m 0 0, m 0 1, m 1 0, m 1 1]
      simp
      ring
    rw [e]
    refine lt_of_le_of_ne (add_nonneg (sq_nonneg _) (sq_nonneg _)) fun h => hx ?_
    have h1 : x (1 : Fin 2) = 0 := by nlinarith [sq_nonneg (x (0 : Fin 2) + x (1 : Fin 2) / 10000), sq_nonneg (x (1 : Fin 2))]
    have h0 : x (0 : Fin 2) = 0 := by
      rw [h1] at h
      simpa using h.symm
    funext k
    revert k
    show ∀ k : Fin 2, x k = 0
    intro k
    fin_cases k
    · exact h0
    · exact h1

/-! ## Examples -/

/-- the three conductors on the line with the iteration of the code: all hypotheses of C84 hold -/
example (opts : DriverOptions) : UsesPCG codePCG ∧ Numbering three.materials threePs ∧
    Buildable (({ lineEngine with pcg := codePCG } : Engine ℚ).fem three opts) three.materials ∧
    WellDeclared three.materials ∧ Separate (({ lineEngine with pcg := codePCG } : Engine ℚ).fem three opts) three.materials ∧
    Elliptic lineEngine.analytic (({ lineEngine with pcg := codePCG } : Engine ℚ).fem three opts) three.materials ∧
    (lineEngine.fem three opts).n ≤ 500 ∧ (lineEngine.fem three opts).nd ≤ 500 := by
  refine ⟨fun n A b x0 => ⟨500, _, _, by decide, by decide +kernel, rfl⟩, three_numbering, ?_,
    ⟨by decide +kernel, by decide +kernel, by decide +kernel⟩, ?_, three_elliptic, ?_, ?_⟩
  · exact ⟨line_valid, List.cons_ne_nil _ _, show ∀ q ∈ line.bdr, 1 ≤ q.attr by decide +kernel, by decide +kernel,
      by decide +kernel, by decide +kernel, show ∀ d ∈ three.materials.dielectrics, 1 ≤ d.tag ∧ ∃ a ∈ line.domAttrs, d.tag ≤ a by
        decide +kernel⟩
  · intro p _ q _ k hp hq
    rcases (line_on _ _).mp hp with ⟨e, e'⟩ | ⟨e, e'⟩ | ⟨e, e'⟩
    all_goals rcases (line_on _ _).mp hq with ⟨f, f'⟩ | ⟨f, f'⟩ | ⟨f, f'⟩
    all_goals first | exact e.trans f.symm | (have h := e'.symm.trans f'; cases h)
  · show line.n ≤ 500
    decide
  · show line.nd ≤ 500
    decide

/-- one iteration is not enough for the exact solution, two are: the matrix of C84_linear_solver need not be diagonal -/
example : let A : Matrix (Fin 2) (Fin 2) ℚ := !![2, -1; -1, 2]
    A *ᵥ mfemPCG 1 0 0 2 A ![1, 0] (fun _ => 0) ≠ ![1, 0] ∧ A *ᵥ mfemPCG 2 0 0 2 A ![1, 0] (fun _ => 0) = ![1, 0] := by
  decide +kernel

end Tulip.Props
