import Verif.Proofs.Fields
import Verif.Props.Solver
import Verif.Props.Charge

/-!
# C61–C63, C67: snapshots, averages, independence of history, energy
-/

namespace Tulip.Props
open Tulip Tulip.Spec Matrix

section general
variable {𝕜 : Type _} [Field 𝕜] {F : FEM 𝕜}

/-! ## C61 -/

/-- **C61, what holds.** A solution saved before any sequence of calls and restored after it gives back the
fields, all charges, average potentials and the energy; the charge moments, the centre of charge and the
multipolar coefficients too, if the set of prescribed boundaries is the same as when the solution was saved. -/
theorem C61_snapshot_partial [DecidableEq 𝕜] (A : Analytic 𝕜) (P : LinSolver 𝕜) (s s' : Solver F)
    (ops : List (SolverOp F)) (h : runOps P ops s = .ok s') :
    (s'.setSolution s.getSolution).getSolution = s.getSolution ∧
    (∀ a, (s'.setSolution s.getSolution).getChargeInBoundary a = s.getChargeInBoundary a) ∧
    (s'.setSolution s.getSolution).getTotalCharge = s.getTotalCharge ∧
    (∀ a, (s'.setSolution s.getSolution).getAveragePotentialInDomain a = s.getAveragePotentialInDomain a) ∧
    (∀ a, (s'.setSolution s.getSolution).getAveragePotentialInBoundary a =
      s.getAveragePotentialInBoundary a) ∧
    (s'.setSolution s.getSolution).getTotalEnergy = s.getTotalEnergy ∧
    (SMap.keys s'.params.dirichletBoundaries = SMap.keys s.params.dirichletBoundaries →
      (∀ n d c, (s'.setSolution s.getSolution).getChargeMomentComponent A n d c =
        s.getChargeMomentComponent A n d c) ∧
      (s'.setSolution s.getSolution).getCenterOfCharge A = s.getCenterOfCharge A ∧
      ∀ n, (s'.setSolution s.getSolution).getMultipolarCoefficients A n =
        s.getMultipolarCoefficients A n) := by
  have hset := runOps_setup ops h
  refine ⟨rfl, fun _ => rfl, rfl, fun _ => rfl, fun _ => rfl, ?_, ?_⟩
  · have e : (s'.setSolution s.getSolution).params.domainPermittivities = s.params.domainPermittivities :=
      hset.perm
    unfold Solver.getTotalEnergy
    rw [e]; rfl
  · intro hk
    have hch : (s'.setSolution s.getSolution).chargedBoundaries = s.chargedBoundaries := by
      unfold Solver.chargedBoundaries
      show SMap.keys s'.params.dirichletBoundaries ++ SMap.keys s'.params.neumannBoundaries = _
      rw [hk, hset.neumann]
    have hm : ∀ n d c, (s'.setSolution s.getSolution).getChargeMomentComponent A n d c =
        s.getChargeMomentComponent A n d c := by
      intro n d c
      unfold Solver.getChargeMomentComponent
      rw [hch]; rfl
    have hc : (s'.setSolution s.getSolution).getCenterOfCharge A = s.getCenterOfCharge A := by
      unfold Solver.getCenterOfCharge
      rw [hm, hm]
      show (match s'.params.openBoundaries with | [o] => _ | _ => _) = _
      rw [hset.openB]; rfl
    refine ⟨hm, hc, ?_⟩
    intro n
    unfold Solver.getMultipolarCoefficients
    rw [hc]
    simp only [hm]

/-- **C61 fails** for moments: after changing the prescribed set, a restored solution has another order-0
moment. -/
theorem C61_refuted : ∃ s' : Solver oneFEM,
    runOps (fun _ _ _ x => x) [.setDirichlet []] oneSolver = .ok s' ∧
    (s'.setSolution oneSolver.getSolution).getChargeMomentComponent noAnalytic 0 0 (0, 0) = 0 ∧
    oneSolver.getChargeMomentComponent noAnalytic 0 0 (0, 0) = -1 :=
  ⟨_, rfl, by decide +kernel, by decide +kernel⟩

/-! ## C62 -/

theorem domInt_const (a : Int) (c : 𝕜) :
    F.domInt a (fun _ => c) = F.domInt a (fun _ => 1) * c := by
  unfold FEM.domInt
  rw [Finset.sum_mul]
  exact Finset.sum_congr rfl (fun k _ => by ring)

theorem bdrInt_const (a : Int) (c : 𝕜) :
    F.bdrInt a (fun _ => c) = F.bdrInt a (fun _ => 1) * c := by
  unfold FEM.bdrInt
  rw [Finset.sum_mul]
  exact Finset.sum_congr rfl (fun k _ => by ring)

/-- **C62, averages over a domain or a boundary.** They return `c` for a potential equal to `c` everywhere
and are linear in the potential; with non-negative quadrature weights they lie between any bounds of the
potential on the material. -/
theorem C62_averages [DecidableEq 𝕜] [LinearOrder 𝕜] [IsStrictOrderedRing 𝕜] (hC : RepresentsConstants F)
    (a : Int) :
    (∀ s : Solver F, ∀ c, s.getSolution.phi = (fun _ => c) → domainIntegral F (fun _ => 1) a ≠ 0 →
      s.getAveragePotentialInDomain a = .ok c) ∧
    (∀ s : Solver F, ∀ c, s.getSolution.phi = (fun _ => c) → boundaryIntegral F (fun _ => 1) a ≠ 0 →
      s.getAveragePotentialInBoundary a = .ok c) ∧
    (∀ (s s1 s2 : Solver F) (α β x1 x2 : 𝕜),
      s.getSolution.phi = (fun i => α * s1.getSolution.phi i + β * s2.getSolution.phi i) →
      (s1.getAveragePotentialInDomain a = .ok x1 → s2.getAveragePotentialInDomain a = .ok x2 →
        s.getAveragePotentialInDomain a = .ok (α * x1 + β * x2)) ∧
      (s1.getAveragePotentialInBoundary a = .ok x1 → s2.getAveragePotentialInBoundary a = .ok x2 →
        s.getAveragePotentialInBoundary a = .ok (α * x1 + β * x2))) ∧
    (∀ (s : Solver F) (lo hi x : 𝕜),
      ((∀ q ∈ F.dom, q.attr = a → 0 ≤ q.w ∧ lo ≤ scalarAt q.N s.getSolution.phi ∧
        scalarAt q.N s.getSolution.phi ≤ hi) →
        s.getAveragePotentialInDomain a = .ok x → lo ≤ x ∧ x ≤ hi) ∧
      ((∀ q ∈ F.bdr, q.attr = a → 0 ≤ q.w ∧ lo ≤ scalarAt q.N s.getSolution.phi ∧
        scalarAt q.N s.getSolution.phi ≤ hi) →
        s.getAveragePotentialInBoundary a = .ok x → lo ≤ x ∧ x ≤ hi)) := by
  have key : ∀ (l : List (𝕜 × 𝕜)) (lo hi : 𝕜), (∀ q ∈ l, 0 ≤ q.1 ∧ lo ≤ q.2 ∧ q.2 ≤ hi) →
      0 ≤ (l.map Prod.fst).sum ∧ lo * (l.map Prod.fst).sum ≤ (l.map (fun q => q.1 * q.2)).sum ∧
      (l.map (fun q => q.1 * q.2)).sum ≤ hi * (l.map Prod.fst).sum := by
    intro l lo hi
    induction l with
    | nil => intro _; simp
    | cons q l ih =>
      intro h
      obtain ⟨i1, i2, i3⟩ := ih (fun q hq => h q (List.mem_cons_of_mem _ hq))
      obtain ⟨h1, h2, h3⟩ := h q (by simp)
      simp only [List.map_cons, List.sum_cons]
      have e1 := mul_le_mul_of_nonneg_left h2 h1
      have e2 := mul_le_mul_of_nonneg_left h3 h1
      refine ⟨by linarith, by rw [mul_add, mul_comm lo q.1]; linarith,
        by rw [mul_add, mul_comm hi q.1]; linarith⟩
  have quot : ∀ (S T lo hi x : 𝕜), 0 ≤ T → lo * T ≤ S → S ≤ hi * T → divide S T = .ok x →
      lo ≤ x ∧ x ≤ hi := by
    intro S T lo hi x h0 h1 h2 h3
    unfold divide at h3
    by_cases hT : T = 0
    · rw [if_pos hT] at h3; cases h3
    · rw [if_neg hT] at h3
      cases h3
      have hp : 0 < T := lt_of_le_of_ne h0 (Ne.symm hT)
      exact ⟨(le_div_iff₀ hp).mpr h1, (div_le_iff₀ hp).mpr h2⟩
  refine ⟨?_, ?_, ?_, ?_⟩
  · intro s c hs hne
    unfold Solver.getAveragePotentialInDomain divide
    change s.sol.phi = _ at hs
    rw [← domInt_spec] at hne
    rw [if_neg hne, hs, domInt_const, mul_comm, mul_div_cancel_right₀ _ hne]
  · intro s c hs hne
    unfold Solver.getAveragePotentialInBoundary divide
    change s.sol.phi = _ at hs
    rw [← bdrInt_spec] at hne
    rw [if_neg hne, hs, bdrInt_const, mul_comm, mul_div_cancel_right₀ _ hne]
  · intro s s1 s2 α β x1 x2 hs
    change s.sol.phi = _ at hs
    have aux : ∀ S1 S2 T : 𝕜, divide S1 T = .ok x1 → divide S2 T = .ok x2 →
        divide (α * S1 + β * S2) T = .ok (α * x1 + β * x2) := by
      intro S1 S2 T h1 h2
      unfold divide at *
      by_cases hT : T = 0
      · rw [if_pos hT] at h1; cases h1
      · rw [if_neg hT] at *
        cases h1; cases h2
        congr 1; ring
    constructor
    · intro h1 h2
      unfold Solver.getAveragePotentialInDomain at *
      have : F.domInt a s.sol.phi = α * F.domInt a s1.sol.phi + β * F.domInt a s2.sol.phi := by
        rw [hs]; unfold FEM.domInt Solver.getSolution
        rw [Finset.mul_sum, Finset.mul_sum, ← Finset.sum_add_distrib]
        exact Finset.sum_congr rfl (fun k _ => by ring)
      rw [this]; exact aux _ _ _ h1 h2
    · intro h1 h2
      unfold Solver.getAveragePotentialInBoundary at *
      have : F.bdrInt a s.sol.phi = α * F.bdrInt a s1.sol.phi + β * F.bdrInt a s2.sol.phi := by
        rw [hs]; unfold FEM.bdrInt Solver.getSolution
        rw [Finset.mul_sum, Finset.mul_sum, ← Finset.sum_add_distrib]
        exact Finset.sum_congr rfl (fun k _ => by ring)
      rw [this]; exact aux _ _ _ h1 h2
  · intro s lo hi x
    constructor
    · intro h hx
      unfold Solver.getAveragePotentialInDomain at hx
      have hk := key ((F.dom.filter (fun q => q.attr = a)).map (fun q => (q.w, ∑ k, q.N k * s.sol.phi k))) lo hi
        (by
          intro q hq
          obtain ⟨r, hr, rfl⟩ := List.mem_map.mp hq
          obtain ⟨hr1, hr2⟩ := List.mem_filter.mp hr
          have := h r hr1 (by simpa using hr2)
          have e : ∑ k, r.N k * s.sol.phi k = scalarAt r.N s.getSolution.phi :=
            Finset.sum_congr rfl (fun k _ => mul_comm _ _)
          rw [e]
          exact this)
      rw [List.map_map, List.map_map] at hk
      have hone : F.domInt a (fun _ => 1) =
          ((F.dom.filter (fun q => q.attr = a)).map (Prod.fst ∘ fun q => (q.w, ∑ k, q.N k * s.sol.phi k))).sum := by
        rw [domInt_eq]
        congr 1
        apply List.map_congr_left
        intro q hq
        simp only [Function.comp, domValue, mul_one]
        rw [hC.dom q (List.mem_filter.mp hq).1, mul_one]
      rw [← hone] at hk
      have hnum : F.domInt a s.sol.phi = ((F.dom.filter (fun q => q.attr = a)).map
          ((fun q : 𝕜 × 𝕜 => q.1 * q.2) ∘ fun q => (q.w, ∑ k, q.N k * s.sol.phi k))).sum := by
        rw [domInt_eq]; rfl
      rw [← hnum] at hk
      exact quot _ _ _ _ _ hk.1 hk.2.1 hk.2.2 hx
    · intro h hx
      unfold Solver.getAveragePotentialInBoundary at hx
      have hk := key ((F.bdr.filter (fun q => q.attr = a)).map (fun q => (q.w, ∑ k, q.N k * s.sol.phi k))) lo hi
        (by
          intro q hq
          obtain ⟨r, hr, rfl⟩ := List.mem_map.mp hq
          obtain ⟨hr1, hr2⟩ := List.mem_filter.mp hr
          have := h r hr1 (by simpa using hr2)
          have e : ∑ k, r.N k * s.sol.phi k = scalarAt r.N s.getSolution.phi :=
            Finset.sum_congr rfl (fun k _ => mul_comm _ _)
          rw [e]
          exact this)
      rw [List.map_map, List.map_map] at hk
      have hone : F.bdrInt a (fun _ => 1) =
          ((F.bdr.filter (fun q => q.attr = a)).map (Prod.fst ∘ fun q => (q.w, ∑ k, q.N k * s.sol.phi k))).sum := by
        rw [bdrInt_eq]
        congr 1
        apply List.map_congr_left
        intro q hq
        simp only [Function.comp, bdrValue, mul_one]
        rw [hC.bdr q (List.mem_filter.mp hq).1, mul_one]
      rw [← hone] at hk
      have hnum : F.bdrInt a s.sol.phi = ((F.bdr.filter (fun q => q.attr = a)).map
          ((fun q : 𝕜 × 𝕜 => q.1 * q.2) ∘ fun q => (q.w, ∑ k, q.N k * s.sol.phi k))).sum := by
        rw [bdrInt_eq]; rfl
      rw [← hnum] at hk
      exact quot _ _ _ _ _ hk.1 hk.2.1 hk.2.2 hx

/-- averages on the chain: areas are not zero -/
example : domainIntegral chain (fun _ => 1) 1 = 2 ∧ boundaryIntegral chain (fun _ => 1) 2 = 1 ∧
    ({ chainBoth with sol := ⟨![0, 1, 2], fun _ => 0, fun _ => 0⟩ } : Solver chain).getAveragePotentialInDomain 1 =
      .ok 1 := by
  decide +kernel

/-! ## C63 -/

/-- (C63 in terms of the state.) Two solvers built from the same inputs, over whatever uninitialised storage, and
put through any two histories that keep some boundary prescribed and end with the same surface charges, give
the same fields when the same values are prescribed. -/
theorem history_state (A : Analytic 𝕜) (P : LinSolver 𝕜) (hP : ExactSolver P) (hF : ValidBoundary F)
    (p : SolverInputs 𝕜) (raw1 raw2 : SolverSolution F) (s1 s2 t1 t2 : Solver F)
    (hm1 : Solver.make A F p raw1 = .ok s1) (hm2 : Solver.make A F p raw2 = .ok s2)
    (hne : p.dirichletBoundaries ≠ []) (hpos : ∀ a ∈ SMap.keys p.dirichletBoundaries, 0 < a)
    (hist1 hist2 : List (SolverOp F)) (hh1 : ∀ op ∈ hist1, op.KeepsDirichlet)
    (hh2 : ∀ op ∈ hist2, op.KeepsDirichlet) (hs1 : runOps P hist1 s1 = .ok t1)
    (hs2 : runOps P hist2 s2 = .ok t2) (hsig : t1.sigma = t2.sigma)
    (hreg : Regular s1.K (fun i => ∃ a ∈ SMap.keys p.dirichletBoundaries, OnBoundary F a i))
    (hD : F.massD.det ≠ 0) (ks : List Int) (hks : ks ≠ []) (hkpos : ∀ a ∈ ks, 0 < a) (V : Int → 𝕜) :
    ∃ r1 r2 : Solver F, (t1.setDirichletConditions (prescribe ks V)).solve P = .ok r1 ∧
      (t2.setDirichletConditions (prescribe ks V)).solve P = .ok r2 ∧ r1.getSolution = r2.getSolution := by
  obtain ⟨m1, m2, m3, m4, m5, m6, m7, m8⟩ := make_fields hm1
  obtain ⟨n1, n2, n3, n4, n5, n6, n7, n8⟩ := make_fields hm2
  have heps : s2.eps = s1.eps := by rw [m2] at n2; exact (Outcome.ok.inj n2).symm
  have hK : s2.K = s1.K := by
    by_cases ho : p.openBoundaries = []
    · rw [m7 ho, n7 ho, heps]
    · obtain ⟨k1, e1, f1⟩ := m8 ho
      obtain ⟨k2, e2, f2⟩ := n8 ho
      rw [e1] at e2; cases e2
      rw [f1, f2, heps]
  have hb : F.bdrAttrs ≠ [] := by
    intro h0
    unfold AttrToMarker at m1
    have hl : p.dirichletBoundaries.getAttributesAsArray.length ≠ 0 := by
      unfold AttrToValueMap.getAttributesAsArray SMap.keys; simpa using hne
    rw [if_neg hl, h0] at m1
    cases h : arrayMax p.dirichletBoundaries.getAttributesAsArray with
    | ok m => rw [h] at m1; cases m1
    | _ => rw [h] at m1; cases m1
  obtain ⟨phi0, h1, _⟩ := applyBoundary_ok hF hb ks V hkpos
  have hpne : prescribe ks V ≠ [] := by unfold prescribe; simpa using hks
  obtain ⟨r1, b1, c1, d1, f1, _⟩ := solve_after hP hF hm1 hne hpos hh1 hs1 hreg hD hpne h1
  obtain ⟨r2, b2, c2, d2, f2, _⟩ := solve_after hP hF hm2 hne hpos hh2 hs2 (by rw [hK]; exact hreg) hD hpne h1
  refine ⟨r1, r2, b1, b2, ?_⟩
  rw [hK, ← hsig] at c2
  have hphi := dirichlet_unique hreg c1 c2
  have he : r1.sol.e = r2.sol.e := by rw [d1, d2, hphi]
  have hd : r1.sol.d = r2.sol.d := by
    apply mulVec_injective_of_det hD
    rw [f1, f2, he, heps]
  show (⟨r1.sol.phi, r1.sol.e, r1.sol.d⟩ : SolverSolution F) = ⟨r2.sol.phi, r2.sol.e, r2.sol.d⟩
  rw [hphi, he, hd]

end general

/-- two free nodes (0 and 1) between boundary 1 (node 2) and boundary 2 (node 3): 2 - 0 - 1 - 3 -/
def chain4 : FEM ℚ where
  n := 4
  ne := 1
  nd := 1
  bdrAttrs := [1, 2]
  domAttrs := [1]
  bdrElems := [(1, [2]), (2, [3])]
  node := fun _ => (0, 0)
  dom := [{ attr := 1, w := 1, N := fun _ => 1/4, gradN := ![(1, 0), (0, 0), (-1, 0), (0, 0)],
            W := fun _ => (1, 0), R := fun _ => (1, 0) },
          { attr := 1, w := 1, N := fun _ => 1/4, gradN := ![(-1, 0), (1, 0), (0, 0), (0, 0)],
            W := fun _ => (1, 0), R := fun _ => (1, 0) },
          { attr := 1, w := 1, N := fun _ => 1/4, gradN := ![(0, 0), (-1, 0), (0, 0), (1, 0)],
            W := fun _ => (1, 0), R := fun _ => (1, 0) }]
  bdr := []
  grad := 0

/-- the stiffness matrix of `chain4` -/
def K4 : Matrix (Fin 4) (Fin 4) ℚ := !![2, -1, -1, 0; -1, 2, 0, -1; -1, 0, 1, 0; 0, -1, 0, 1]

theorem chain4_K : chain4.stiffness (fun _ => 1) = K4 := by
  ext i j
  fin_cases i <;> fin_cases j <;> decide +kernel

theorem K4_regular (fixed : Fin 4 → Prop) (h2 : fixed 2) (h3 : fixed 3) (h0 : ¬ fixed 0) (h1 : ¬ fixed 1) :
    Regular K4 fixed := by
  constructor
  · intro u ⟨e1, e2⟩
    have u2 : u 2 = 0 := e1 2 h2
    have u3 : u 3 = 0 := e1 3 h3
    have r0 := e2 0 h0
    have r1 := e2 1 h1
    simp [K4, mulVec, dotProduct, Fin.sum_univ_four] at r0 r1
    have u0 : u 0 = 0 := by linarith
    have u1 : u 1 = 0 := by linarith
    funext i
    fin_cases i
    · exact u0
    · exact u1
    · exact u2
    · exact u3
  · intro i _
    fin_cases i <;> decide +kernel

/-- a solver on it with both boundaries prescribed at construction -/
def s4 : Solver chain4 where
  params := { dirichletBoundaries := [(1, 0), (2, 0)] }
  essBdr := [1, 1]
  eps := fun _ => 1
  K := chain4.stiffness (fun _ => 1)
  elim := none
  sigma := fun _ => 0
  sol := ⟨fun _ => 0, fun _ => 0, fun _ => 0⟩

/-- **C63 fails** when the prescribed set was empty at an earlier `Solve`: the matrix keeps the elimination
of that call. For the same inputs and values, the potential of node 1 is 1/3 without and 0 with an earlier
solve without prescribed boundaries, for every exact linear solver. (This rests on MFEM's caching of the
eliminated matrix.) -/
theorem C63_refuted (P : LinSolver ℚ) (hP : ExactSolver P) :
    Solver.make noAnalytic chain4 { dirichletBoundaries := [(1, 0), (2, 0)] } s4.sol = .ok s4 ∧
    (∃ r : Solver chain4, runOps P [.setDirichlet [(1, 1), (2, 0)], .solve] s4 = .ok r ∧
      r.sol.phi (1 : Fin 4) = 1 / 3) ∧
    (∃ r : Solver chain4, runOps P [.setDirichlet [], .solve, .setDirichlet [(1, 1), (2, 0)], .solve] s4 =
      .ok r ∧ r.sol.phi (1 : Fin 4) = 0) := by
  have hphi0 : chain4.applyBoundary [(1, 1), (2, 0)] (fun _ => 0) =
      .ok (![0, 0, 1, 0] : Fin 4 → ℚ) := by
    unfold FEM.applyBoundary
    have : arrayMax chain4.bdrAttrs = .ok 2 := by decide
    rw [this]
    show (FEM.applyLoop chain4 2 [1, 2] [1, 0] _) = _
    simp only [FEM.applyLoop]
    rw [if_pos (by decide), if_pos (by decide), if_pos (by decide), if_pos (by decide)]
    congr 1
    funext i
    unfold FEM.projectBdr
    have i' : Fin 4 := i
    revert i
    show ∀ i : Fin 4, _
    intro i
    fin_cases i <;> decide +kernel
  have hzero : chain4.surfMass *ᵥ (fun _ => (0 : ℚ)) = fun _ => 0 := by
    funext k; simp [mulVec, dotProduct]
  have hess : chain4.essentialDofs [1, 1] = .ok ([2, 3] : List (Fin 4)) := by decide
  refine ⟨rfl, ?_, ?_⟩
  · obtain ⟨t, h1, h2⟩ := solve_phi (P := P) (s := s4.setDirichletConditions [(1, 1), (2, 0)])
      (ess := ([2, 3] : List (Fin 4))) hphi0 hess
    refine ⟨_, h1, ?_⟩
    show t.phi (1 : Fin 4) = 1 / 3
    have hreg : Regular K4 (· ∈ ([2, 3] : List (Fin 4))) :=
      K4_regular _ (by decide) (by decide) (by decide) (by decide)
    have hsys := hP 4 (eliminated K4 [2, 3])
      (Solver.formRhs K4 (eliminated K4 [2, 3]) [2, 3] ![0, 0, 1, 0] (fun _ => 0)) ![0, 0, 1, 0]
      (eliminated_det hreg)
    have hphi : t.phi = P 4 (eliminated K4 [2, 3])
        (Solver.formRhs K4 (eliminated K4 [2, 3]) [2, 3] ![0, 0, 1, 0] (fun _ => 0)) ![0, 0, 1, 0] := by
      rw [h2]
      exact congrArg₂ (fun (K : Matrix (Fin 4) (Fin 4) ℚ) (b : Fin 4 → ℚ) => P 4 (eliminated K [2, 3])
        (Solver.formRhs K (eliminated K [2, 3]) [2, 3] ![0, 0, 1, 0] b) ![0, 0, 1, 0]) chain4_K hzero
    have hsol := dirichlet_of_system hreg hsys
    rw [← hphi] at hsol
    have v2 := hsol.1 2 (by decide)
    have v3 := hsol.1 3 (by decide)
    have r0 := hsol.2 0 (by decide)
    have r1 := hsol.2 1 (by decide)
    simp [K4, mulVec, dotProduct, Fin.sum_univ_four] at r0 r1 v2 v3
    linarith
  · have hphi1 : chain4.applyBoundary [] (fun _ => 0) = .ok (fun _ : Fin 4 => (0 : ℚ)) := rfl
    have hess1 : (s4.setDirichletConditions []).essTdofs = .ok ([0] : List (Fin 4)) := rfl
    obtain ⟨t1, g1, -⟩ := solve_phi (P := P) (s := s4.setDirichletConditions [])
      (ess := ([0] : List (Fin 4))) hphi1 hess1
    let s1 : Solver chain4 := { s4 with
      params := { s4.params with dirichletBoundaries := [(1, 1), (2, 0)] }, elim := some ([0] : List (Fin 4)),
      sol := t1 }
    obtain ⟨t, h1, h2⟩ := solve_phi (P := P) (s := s1) (ess := ([2, 3] : List (Fin 4))) hphi0 hess
    refine ⟨{ s1 with elim := some ([0] : List (Fin 4)), sol := t }, ?_, ?_⟩
    · have hr : runOps P [.setDirichlet [], .solve, .setDirichlet [(1, 1), (2, 0)], .solve] s4 =
          (do let u ← (s4.setDirichletConditions []).solve P
              let w ← (u.setDirichletConditions [(1, 1), (2, 0)]).solve P
              pure w) := rfl
      rw [hr, g1]
      show (s1.solve P >>= fun w => pure w) = _
      rw [h1]
      rfl
    · show t.phi (1 : Fin 4) = 0
      have hreg : Regular K4 (· ∈ ([0] : List (Fin 4))) := by
        constructor
        · intro u ⟨e1, e2⟩
          have u0 : u 0 = 0 := e1 0 (by decide)
          have r1 := e2 1 (by decide)
          have r2 := e2 2 (by decide)
          have r3 := e2 3 (by decide)
          simp [K4, mulVec, dotProduct, Fin.sum_univ_four] at r1 r2 r3
          have u1 : u 1 = 0 := by linarith
          have u2 : u 2 = 0 := by linarith
          have u3 : u 3 = 0 := by linarith
          funext i
          fin_cases i
          · exact u0
          · exact u1
          · exact u2
          · exact u3
        · intro i _
          fin_cases i <;> decide +kernel
      have hsys := hP 4 (eliminated K4 [0])
        (Solver.formRhs K4 (eliminated K4 [0]) [2, 3] ![0, 0, 1, 0] (fun _ => 0)) ![0, 0, 1, 0]
        (eliminated_det hreg)
      have hphi : t.phi = P 4 (eliminated K4 [0])
          (Solver.formRhs K4 (eliminated K4 [0]) [2, 3] ![0, 0, 1, 0] (fun _ => 0)) ![0, 0, 1, 0] := by
        rw [h2]
        exact congrArg₂ (fun (K : Matrix (Fin 4) (Fin 4) ℚ) (b : Fin 4 → ℚ) => P 4 (eliminated K [0])
          (Solver.formRhs K (eliminated K [0]) [2, 3] ![0, 0, 1, 0] b) ![0, 0, 1, 0]) chain4_K hzero
      rw [← hphi] at hsys
      have r1 := congrFun hsys 1
      have r3 := congrFun hsys 3
      simp [K4, eliminated, Solver.formRhs, mulVec, dotProduct, Fin.sum_univ_four] at r1 r3
      linarith

end Tulip.Props
