import Verif.Proofs.Fields
import Verif.Props.Energy
import Verif.Props.SolverHistory

/-!
# C58–C60, C63, C66, C67, C69: fields computed by the solver, in terms of the specification `Spec/Fields.lean`
-/

namespace Tulip.Props
open Tulip Tulip.Spec Matrix

section general
variable {𝕜 : Type _} [Field 𝕜] {F : FEM 𝕜}

theorem IsField.unique {A : Analytic 𝕜} {p : SolverInputs 𝕜} (hR : Regularly A F p)
    {ch vs : List (Int × (𝕜 × 𝕜 → 𝕜))} {t u : SolverSolution F} (ht : IsField A F p ch vs t)
    (hu : IsField A F p ch vs u) {raw : SolverSolution F} {s0 : Solver F} (hm : Solver.make A F p raw = .ok s0) :
    t = u := by
  obtain ⟨_, hK⟩ := make_weak hR.points (bdrAttrs_ne hm hR.some_) hR.opens hR.sorted hm
  have hphi : t.phi = u.phi := by
    refine dirichlet_unique (hR.regular hm) (g := imposed F vs) (b := surfaceTerm F (imposed F ch)) ?_ ?_
    · exact ⟨fun i hi => ht.values i hi, fun i hi => by rw [hK]; exact ht.equations i hi⟩
    · exact ⟨fun i hi => hu.values i hi, fun i hi => by rw [hK]; exact hu.equations i hi⟩
  have he : t.e = u.e := by
    funext k
    rw [ht.e, hu.e, hphi]
  have hd : t.d = u.d := by
    apply mulVec_injective_of_det (projectionUnique_iff.mp hR.projection)
    rw [(displacement_iff _ _ _).mp ht.d, (displacement_iff _ _ _).mp hu.d, he]
  cases t; cases u; simp_all

/-- **C66.** After any history of calls that keeps some boundary prescribed, `Solve` with the values `V` on the
boundaries `ks` succeeds and leaves the field of the discrete problem with these values, the surface charges
prescribed so far, the permittivities and open boundaries of the inputs; no other field solves it. -/
theorem C66_discrete_problem (A : Analytic 𝕜) (P : LinSolver 𝕜) (hP : ExactSolver P) (p : SolverInputs 𝕜)
    (hR : Regularly A F p) (hist : List (SolverOp F)) (s : Solver F) (hs : Reaches A P p hist s) (ks : List Int)
    (hks : ks ≠ []) (hkpos : ∀ a ∈ ks, 0 < a) (V : Int → 𝕜) :
    ∃ s' : Solver F, (s.setDirichletConditions (prescribe ks V)).solve P = .ok s' ∧
      IsField A F p (surfaceCharges p hist) (constants (prescribe ks V)) s'.getSolution ∧
      ∀ t, IsField A F p (surfaceCharges p hist) (constants (prescribe ks V)) t → t = s'.getSolution := by
  obtain ⟨raw, s0, hm, hrun, hh⟩ := hs
  have hb := bdrAttrs_ne hm hR.some_
  obtain ⟨heps, hK⟩ := make_weak hR.points hb hR.opens hR.sorted hm
  obtain ⟨phi0, h1, -⟩ := applyBoundary_ok hR.boundary hb ks V hkpos
  obtain ⟨s', e1, e2, e3, e4, -, -⟩ := solve_after hP hR.boundary hm hR.some_ hR.positive hh hrun (hR.regular hm)
    (projectionUnique_iff.mp hR.projection) (v := prescribe ks V) (by unfold prescribe; simpa using hks) h1
  have hf : IsField A F p (surfaceCharges p hist) (constants (prescribe ks V)) s'.getSolution := by
    refine ⟨?_, ?_, ?_, ?_⟩
    · intro i hi
      show s'.sol.phi i = _
      rw [e2.1 i hi, applyBoundary_imposed hR.boundary h1]
      rfl
    · intro i hi
      show weakForm A F _ _ s'.sol.phi i = _
      rw [← hK, e2.2 i hi, surfMass_mulVec, reached_sigma hR.boundary hm hrun]
    · intro k
      show s'.sol.e k = _
      rw [e3]
      rfl
    · rw [displacement_iff, ← heps]
      exact e4
  exact ⟨s', e1, hf, fun t ht => IsField.unique hR ht hf hm⟩

/-- **C66, surface charges.** On a solver put through any calls, prescribing a surface charge on a boundary of the mesh
succeeds, does not touch the fields held, and the next solve leaves the field with that charge density on that boundary
(and the earlier ones on the others); a boundary number outside `1 … max` is undefined behaviour. -/
theorem C66_surface_charge (A : Analytic 𝕜) (P : LinSolver 𝕜) (hP : ExactSolver P) (p : SolverInputs 𝕜)
    (hR : Regularly A F p) (hist : List (SolverOp F)) (s : Solver F) (hs : Reaches A P p hist s) (a : Int)
    (f : 𝕜 × 𝕜 → 𝕜) :
    (a ∈ F.bdrAttrs → ∃ s1 : Solver F, s.setNeumannCondition a f = .ok s1 ∧ s1.getSolution = s.getSolution ∧
      ∀ (ks : List Int) (_ : ks ≠ []) (_ : ∀ b ∈ ks, 0 < b) (V : Int → 𝕜),
        ∃ s' : Solver F, (s1.setDirichletConditions (prescribe ks V)).solve P = .ok s' ∧
          IsField A F p (surfaceCharges p hist ++ [(a, f)]) (constants (prescribe ks V)) s'.getSolution) ∧
    ((a < 1 ∨ ∀ b ∈ F.bdrAttrs, b < a) → s.setNeumannCondition a f = .ub) := by
  obtain ⟨raw, s0, hm, hrun, hh⟩ := hs
  obtain ⟨m, e, hmem, hmax⟩ := arrayMax_spec (bdrAttrs_ne hm hR.some_)
  constructor
  · intro ha
    have h1 : s.setNeumannCondition a f = .ok { s with sigma := F.projectBdr f a s.sigma } := by
      unfold Solver.setNeumannCondition
      rw [e]
      simp only [Outcome.ok_bind]
      rw [if_pos ⟨hR.boundary.2 a ha, hmax a ha⟩]
    refine ⟨_, h1, rfl, ?_⟩
    intro ks hks hk V
    have hs' : Reaches A P p (hist ++ [.setNeumann a f]) { s with sigma := F.projectBdr f a s.sigma } := by
      refine ⟨raw, s0, hm, ?_, ?_⟩
      · rw [runOps_append P _ _ hrun]
        show (s.setNeumannCondition a f >>= fun s => runOps P [] s) = _
        rw [h1]; rfl
      · intro op hop
        rcases List.mem_append.mp hop with h | h
        · exact hh op h
        · rw [List.mem_singleton.mp h]; trivial
    obtain ⟨s', g1, g2, -⟩ := C66_discrete_problem A P hP p hR _ _ hs' ks hks hk V
    refine ⟨s', g1, ?_⟩
    have : surfaceCharges p (hist ++ [.setNeumann a f]) = surfaceCharges p hist ++ [(a, f)] := by
      unfold surfaceCharges
      rw [List.filterMap_append, List.append_assoc]
      rfl
    rw [← this]; exact g2
  · intro ha
    unfold Solver.setNeumannCondition
    rw [e]
    simp only [Outcome.ok_bind]
    rw [if_neg]
    rintro ⟨h1, h2⟩
    rcases ha with h | h
    · omega
    · have := h m hmem; omega

theorem imposed_none {l : List (Int × (𝕜 × 𝕜 → 𝕜))} {i : Fin F.n} (h : ∀ c ∈ l, ¬ OnBoundary F c.1 i) :
    imposed F l i = 0 := by
  unfold imposed
  rw [List.find?_eq_none.mpr (fun c hc => by simpa using h c (List.mem_reverse.mp hc))]

theorem imposed_const {ks : List Int} {V : Int → 𝕜} {a : Int} {i : Fin F.n} (ha : a ∈ ks) (hon : OnBoundary F a i)
    (hall : ∀ b ∈ ks, OnBoundary F b i → V b = V a) : imposed F (constants (prescribe ks V)) i = V a := by
  unfold imposed
  cases h : List.find? _ _ with
  | none =>
    have := List.find?_eq_none.mp h (a, fun _ => V a) (by simp [constants, prescribe, ha])
    exact absurd hon (by simpa using this)
  | some c =>
    have h1 := List.find?_some h
    have h2 := List.mem_reverse.mp (List.mem_of_find?_eq_some h)
    simp only [constants, prescribe, List.map_map, List.mem_map, Function.comp] at h2
    obtain ⟨b, hb, rfl⟩ := h2
    exact hall b hb (by simpa using h1)

/-- **C58, what holds.** After any history of calls that keeps some boundary prescribed, prescribing values on
boundaries that were all prescribed at construction and solving gives the potential those values on their degrees of
freedom (if shared with another boundary of the set: when the values agree). Boundaries prescribed at construction
and left out are silently held at 0. -/
theorem C58_attained_partial (A : Analytic 𝕜) (P : LinSolver 𝕜) (hP : ExactSolver P) (p : SolverInputs 𝕜)
    (hR : Regularly A F p) (hist : List (SolverOp F)) (s : Solver F) (hs : Reaches A P p hist s) (ks : List Int)
    (hks : ks ≠ []) (hsub : ∀ a ∈ ks, a ∈ SMap.keys p.dirichletBoundaries) (V : Int → 𝕜) :
    ∃ s' : Solver F, (s.setDirichletConditions (prescribe ks V)).solve P = .ok s' ∧
      (∀ a ∈ ks, ∀ i, OnBoundary F a i → (∀ b ∈ ks, OnBoundary F b i → V b = V a) →
        s'.getSolution.phi i = V a) ∧
      (∀ a ∈ SMap.keys p.dirichletBoundaries, ∀ i, OnBoundary F a i → (∀ b ∈ ks, ¬ OnBoundary F b i) →
        s'.getSolution.phi i = 0) := by
  obtain ⟨s', e1, e2, -⟩ := C66_discrete_problem A P hP p hR hist s hs ks hks
    (fun a ha => hR.positive a (hsub a ha)) V
  refine ⟨s', e1, ?_, ?_⟩
  · intro a ha i hon hall
    rw [e2.values i ⟨a, hsub a ha, hon⟩, imposed_const ha hon hall]
  · intro a ha i hon hno
    rw [e2.values i ⟨a, ha, hon⟩, imposed_none]
    intro c hc
    simp only [constants, prescribe, List.map_map, List.mem_map, Function.comp] at hc
    obtain ⟨b, hb, rfl⟩ := hc
    exact hno b hb

/-- **C58, exact.** Whatever is prescribed, `Solve` only takes the values on the degrees of freedom of boundaries that were prescribed at construction:
two prescriptions give the same field if and only if they agree there. -/
theorem C58_exact_partial (A : Analytic 𝕜) (P : LinSolver 𝕜) (hP : ExactSolver P) (p : SolverInputs 𝕜)
    (hR : Regularly A F p) (hist : List (SolverOp F)) (s : Solver F) (hs : Reaches A P p hist s) (ks ks' : List Int)
    (hks : ks ≠ []) (hks' : ks' ≠ []) (hpos : ∀ a ∈ ks, 0 < a) (hpos' : ∀ a ∈ ks', 0 < a) (V V' : Int → 𝕜) :
    ∃ r r' : Solver F, (s.setDirichletConditions (prescribe ks V)).solve P = .ok r ∧
      (s.setDirichletConditions (prescribe ks' V')).solve P = .ok r' ∧
      (r.getSolution = r'.getSolution ↔ ∀ i, Prescribed F p i →
        imposed F (constants (prescribe ks V)) i = imposed F (constants (prescribe ks' V')) i) := by
  obtain ⟨r, a1, b1, -⟩ := C66_discrete_problem A P hP p hR hist s hs ks hks hpos V
  obtain ⟨r', a2, b2, c2⟩ := C66_discrete_problem A P hP p hR hist s hs ks' hks' hpos' V'
  refine ⟨r, r', a1, a2, fun h i hi => ?_, fun h => c2 _ ⟨fun i hi => ?_, b1.equations, b1.e, b1.d⟩⟩
  · rw [← b1.values i hi, ← b2.values i hi, h]
  · rw [b1.values i hi, h i hi]

theorem imposed_append {l l' : List (Int × (𝕜 × 𝕜 → 𝕜))} {i : Fin F.n} (h : ∀ c ∈ l', ¬ OnBoundary F c.1 i) :
    imposed F (l ++ l') i = imposed F l i := by
  unfold imposed
  rw [List.reverse_append, List.find?_append, List.find?_eq_none.mpr (fun c hc => by simpa using h c (List.mem_reverse.mp hc)), Option.none_or]

/-- **C58, late boundaries.** Values prescribed on boundaries that have no degree of freedom in common with those prescribed at construction are ignored. -/
theorem C58_ignored_partial (A : Analytic 𝕜) (P : LinSolver 𝕜) (hP : ExactSolver P) (p : SolverInputs 𝕜)
    (hR : Regularly A F p) (hist : List (SolverOp F)) (s : Solver F) (hs : Reaches A P p hist s) (ks late : List Int)
    (hks : ks ≠ []) (hpos : ∀ a ∈ ks, 0 < a) (hpos' : ∀ a ∈ late, 0 < a)
    (hlate : ∀ a ∈ late, ∀ i, OnBoundary F a i → ¬ Prescribed F p i) (V : Int → 𝕜) :
    ∃ r r' : Solver F, (s.setDirichletConditions (prescribe ks V)).solve P = .ok r ∧
      (s.setDirichletConditions (prescribe (ks ++ late) V)).solve P = .ok r' ∧ r'.getSolution = r.getSolution := by
  obtain ⟨r, r', a1, a2, h⟩ := C58_exact_partial A P hP p hR hist s hs ks (ks ++ late) hks (by simp [hks]) hpos
    (fun a ha => (List.mem_append.mp ha).elim (hpos a) (hpos' a)) V V
  refine ⟨r, r', a1, a2, (h.mpr fun i hi => ?_).symm⟩
  have : constants (prescribe (ks ++ late) V) = constants (prescribe ks V) ++ constants (prescribe late V) := by
    simp [constants, prescribe]
  rw [this, imposed_append]
  intro c hc
  simp only [constants, prescribe, List.map_map, List.mem_map, Function.comp] at hc
  obtain ⟨b, hb, rfl⟩ := hc
  exact fun hon => hlate b hb i hon hi

/-- **C69.** In any state, the charge of a boundary is minus the outward flux of D through it; the total charge is
the outward flux through all boundary elements; average potentials are integrals of the potential divided by the
integral of 1, and not finite where that is 0. -/
theorem C69_charges [DecidableEq 𝕜] (s : Solver F) :
    (∀ a, s.getChargeInBoundary a = -outwardFlux F s.getSolution.d a) ∧
    s.getTotalCharge = (F.bdr.map (fun q => ∑ k, s.getSolution.d k * q.fl k)).sum ∧
    (∀ a, s.getAveragePotentialInDomain a =
      if domainIntegral F (fun _ => 1) a = 0 then .nonfinite
      else .ok (domainIntegral F s.getSolution.phi a / domainIntegral F (fun _ => 1) a)) ∧
    (∀ a, s.getAveragePotentialInBoundary a =
      if boundaryIntegral F (fun _ => 1) a = 0 then .nonfinite
      else .ok (boundaryIntegral F s.getSolution.phi a / boundaryIntegral F (fun _ => 1) a)) := by
  refine ⟨fun a => flux_neg_one a _, ?_, fun a => ?_, fun a => ?_⟩
  · unfold Solver.getTotalCharge
    rw [flux_eq, List.filter_eq_self.mpr (fun _ _ => rfl)]
    congr 1
    apply List.map_congr_left
    intro q _
    rw [one_mul]
    exact Finset.sum_congr rfl (fun k _ => mul_comm _ _)
  · unfold Solver.getAveragePotentialInDomain divide
    rw [domInt_spec, domInt_spec]
    rfl
  · unfold Solver.getAveragePotentialInBoundary divide
    rw [bdrInt_spec, bdrInt_spec]
    rfl

/-- No surface charge was prescribed, or only zero. -/
theorem sigma_zero {A : Analytic 𝕜} {P : LinSolver 𝕜} {p : SolverInputs 𝕜} (hF : ValidBoundary F)
    {hist : List (SolverOp F)} {raw : SolverSolution F} {s0 s : Solver F} (hm : Solver.make A F p raw = .ok s0)
    (hrun : runOps P hist s0 = .ok s) (hq : ∀ i, imposed F (surfaceCharges p hist) i = 0) :
    s.sigma = fun _ => 0 := by
  rw [reached_sigma hF hm hrun]
  funext i
  exact hq i

/-- **C59.** Without surface charges the fields and the charges depend linearly on the prescribed values, after any
history. -/
theorem C59_superposition (A : Analytic 𝕜) (P : LinSolver 𝕜) (hP : ExactSolver P) (p : SolverInputs 𝕜)
    (hR : Regularly A F p) (hist : List (SolverOp F)) (s : Solver F) (hs : Reaches A P p hist s)
    (hq : ∀ i, imposed F (surfaceCharges p hist) i = 0) (ks : List Int)
    (hks : ks ≠ []) (hkpos : ∀ a ∈ ks, 0 < a) (V1 V2 : Int → 𝕜) (α β : 𝕜) :
    ∃ s1 s2 s' : Solver F, (s.setDirichletConditions (prescribe ks V1)).solve P = .ok s1 ∧
      (s.setDirichletConditions (prescribe ks V2)).solve P = .ok s2 ∧
      (s.setDirichletConditions (prescribe ks (fun a => α * V1 a + β * V2 a))).solve P = .ok s' ∧
      (∀ i, s'.getSolution.phi i = α * s1.getSolution.phi i + β * s2.getSolution.phi i) ∧
      (∀ i, s'.getSolution.e i = α * s1.getSolution.e i + β * s2.getSolution.e i) ∧
      (∀ i, s'.getSolution.d i = α * s1.getSolution.d i + β * s2.getSolution.d i) ∧
      (∀ a, s'.getChargeInBoundary a = α * s1.getChargeInBoundary a + β * s2.getChargeInBoundary a) ∧
      s'.getTotalCharge = α * s1.getTotalCharge + β * s2.getTotalCharge ∧
      (∀ n d c, s'.getChargeMomentComponent A n d c =
        α * s1.getChargeMomentComponent A n d c + β * s2.getChargeMomentComponent A n d c) := by
  obtain ⟨raw, s0, hm, hrun, hh⟩ := hs
  exact superposition_state A P hP hR.boundary p raw s0 s hm hR.some_ hR.positive hist hh hrun
    (sigma_zero hR.boundary hm hrun hq) (hR.regular hm) (projectionUnique_iff.mp hR.projection) ks hks hkpos V1 V2 α β

/-- **C60.** In a problem without open boundary and surface charge, prescribing the same value on every boundary
prescribed at construction gives that constant potential everywhere, zero E and D, and zero charges. Consequently the
charges induced on any boundary by exciting each prescribed boundary with one volt add up to zero. -/
theorem C60_uniform (A : Analytic 𝕜) (P : LinSolver 𝕜) (hP : ExactSolver P) (hC : RepresentsConstants F)
    (p : SolverInputs 𝕜) (hR : Regularly A F p) (hopen : p.openBoundaries = []) (hist : List (SolverOp F))
    (s : Solver F) (hs : Reaches A P p hist s) (hq : ∀ i, imposed F (surfaceCharges p hist) i = 0) :
    (∀ c : 𝕜, ∃ s' : Solver F,
      (s.setDirichletConditions (prescribe (SMap.keys p.dirichletBoundaries) (fun _ => c))).solve P = .ok s' ∧
      (∀ i, s'.getSolution.phi i = c) ∧ (∀ i, s'.getSolution.e i = 0) ∧ (∀ i, s'.getSolution.d i = 0) ∧
      ∀ a, s'.getChargeInBoundary a = 0) ∧
    (∀ r : Int → Solver F, (SMap.keys p.dirichletBoundaries).Nodup →
      (∀ k ∈ SMap.keys p.dirichletBoundaries,
        (s.setDirichletConditions (prescribe (SMap.keys p.dirichletBoundaries)
          (fun a => if a = k then 1 else 0))).solve P = .ok (r k)) →
      ∀ a, ((SMap.keys p.dirichletBoundaries).map (fun k => (r k).getChargeInBoundary a)).sum = 0) := by
  obtain ⟨raw, s0, hm, hrun, hh⟩ := hs
  exact uniform_state A P hP hR.boundary hC p raw s0 s hm hR.some_ hR.positive hopen hist hh hrun
    (sigma_zero hR.boundary hm hrun hq) (hR.regular hm) (projectionUnique_iff.mp hR.projection)

/-- **C63, what holds.** Two solvers built from the same inputs, over whatever uninitialised storage, and put through
any two histories that keep some boundary prescribed and impose the same surface charges, give the same fields when
the same values are prescribed. -/
theorem C63_history_partial (A : Analytic 𝕜) (P : LinSolver 𝕜) (hP : ExactSolver P) (p : SolverInputs 𝕜)
    (hR : Regularly A F p) (hist1 hist2 : List (SolverOp F)) (s1 s2 : Solver F) (hs1 : Reaches A P p hist1 s1)
    (hs2 : Reaches A P p hist2 s2)
    (hq : ∀ i, imposed F (surfaceCharges p hist1) i = imposed F (surfaceCharges p hist2) i) (ks : List Int)
    (hks : ks ≠ []) (hkpos : ∀ a ∈ ks, 0 < a) (V : Int → 𝕜) :
    ∃ r1 r2 : Solver F, (s1.setDirichletConditions (prescribe ks V)).solve P = .ok r1 ∧
      (s2.setDirichletConditions (prescribe ks V)).solve P = .ok r2 ∧ r1.getSolution = r2.getSolution := by
  obtain ⟨r1, a1, b1, -⟩ := C66_discrete_problem A P hP p hR hist1 s1 hs1 ks hks hkpos V
  obtain ⟨r2, a2, b2, c2⟩ := C66_discrete_problem A P hP p hR hist2 s2 hs2 ks hks hkpos V
  refine ⟨r1, r2, a1, a2, c2 _ ⟨b1.values, ?_, b1.e, b1.d⟩⟩
  intro i hi
  rw [b1.equations i hi, funext hq]

/-- **C67.** For a closed problem without surface charges, with non-negative quadrature weights and permittivities:
the energy reported after a solve is one half of the integral of permittivity times the square of the gradient of the
potential; it is not negative; and no field derived from a potential with the same values on the prescribed
boundaries has less energy. -/
theorem C67_energy [LinearOrder 𝕜] [IsStrictOrderedRing 𝕜] (A : Analytic 𝕜) (P : LinSolver 𝕜)
    (hP : ExactSolver P) (hG : ExactGradient F) (hdom : F.domAttrs ≠ []) (p : SolverInputs 𝕜)
    (hR : Regularly A F p) (hclosed : p.openBoundaries = [])
    (hw : ∀ q ∈ F.dom, 0 ≤ q.w ∧ 0 ≤ epsOf p.domainPermittivities q.attr) (hist : List (SolverOp F))
    (s : Solver F) (hs : Reaches A P p hist s) (hq : ∀ i, imposed F (surfaceCharges p hist) i = 0)
    (ks : List Int) (hks : ks ≠ []) (hkpos : ∀ a ∈ ks, 0 < a) (V : Int → 𝕜) :
    ∃ (s' : Solver F) (W : 𝕜), (s.setDirichletConditions (prescribe ks V)).solve P = .ok s' ∧
      s'.getTotalEnergy = .ok W ∧
      W = 2⁻¹ * (F.dom.map (fun q => q.w * epsOf p.domainPermittivities q.attr *
        ((vectorAt q.gradN s'.getSolution.phi).1 ^ 2 + (vectorAt q.gradN s'.getSolution.phi).2 ^ 2))).sum ∧
      0 ≤ W ∧
      ∀ t : SolverSolution F,
        (∀ i, Prescribed F p i → t.phi i = s'.getSolution.phi i) →
        (∀ k, t.e k = -∑ i, F.grad k i * t.phi i) →
        ∃ W', (s'.setSolution t).getTotalEnergy = .ok W' ∧ W ≤ W' := by
  obtain ⟨raw, s0, hm, hrun, hh⟩ := hs
  obtain ⟨heps, -⟩ := make_weak hR.points (bdrAttrs_ne hm hR.some_) hR.opens hR.sorted hm
  obtain ⟨s', W, h1, h2, h3, h4, h5⟩ := energy_state A P hP hR.boundary hG hdom p hclosed raw s0 s hm
    (by rw [heps]; exact hw) hR.some_ hR.positive hist hh hrun (sigma_zero hR.boundary hm hrun hq) (hR.regular hm)
    (projectionUnique_iff.mp hR.projection) ks hks hkpos V
  refine ⟨s', W, h1, h2, ?_, h4, ?_⟩
  · rw [h3, heps]
    rfl
  · intro t ht hte
    exact h5 t (fun a ha i hon => ht i ⟨a, ha, hon⟩) (funext hte)

end general

/-! ## The chain with both boundaries prescribed -/

theorem chain_regularly : Regularly noAnalytic chain { dirichletBoundaries := [(1, 0), (2, 0)] } := by
  have hreg : Regular chainBoth.K
      (fun i => ∃ a ∈ SMap.keys [((1 : Int), (0 : ℚ)), (2, 0)], OnBoundary chain a i) :=
    chain_regular _ ⟨1, by simp [SMap.keys], (chain_on 1 0).mpr (Or.inl ⟨rfl, rfl⟩)⟩
  have hpts : ∀ q ∈ chain.bdr, 1 ≤ q.attr := by
    intro q hq
    rcases List.mem_cons.mp hq with rfl | hq
    · decide
    · rcases List.mem_cons.mp hq with rfl | hq
      · decide
      · cases hq
  obtain ⟨_, hK⟩ := make_weak hpts (by decide) (by intro a h; cases h)
    (show SMap.Sorted ([] : AttrToValueMap ℚ) from List.Pairwise.nil) chainBoth_made
  refine ⟨chain_valid, hpts, by simp, by simp [SMap.keys], (by intro a h; cases h), List.Pairwise.nil, ?_, ?_, ?_⟩
  · intro u h1 h2 i
    have := hreg.1 u ⟨h1, fun i hi => by rw [hK]; exact h2 i hi⟩
    rw [this]
  · intro i hi h0
    apply hreg.2 i hi
    have := hK (fun k => if k = i then 1 else 0) i
    rw [h0] at this
    simpa [mulVec, dotProduct] using this
  · exact projectionUnique_iff.mpr chain_det

/-- the chain after a solve with 1 V on boundary 2 -/
theorem chain_reaches : ∃ s, Reaches noAnalytic inverseSolver { dirichletBoundaries := [(1, 0), (2, 0)] }
    [.setDirichlet [(1, 0), (2, 1)], .solve] (s : Solver chain) := by
  refine ⟨_, chainRaw, chainBoth, chainBoth_made, rfl, ?_⟩
  intro op hop
  rcases List.mem_cons.mp hop with rfl | hop
  · show ([((1 : Int), (0 : ℚ)), (2, 1)] : AttrToValueMap ℚ) ≠ []
    simp
  · rcases List.mem_cons.mp hop with rfl | hop
    · trivial
    · cases hop

/-- the hypotheses of C58, C59, C60, C63, C66 and C67 hold for the chain, also after solving and setting other
values -/
example : ExactSolver inverseSolver ∧ RepresentsConstants chain ∧ ExactGradient chain ∧
    Regularly noAnalytic chain { dirichletBoundaries := [(1, 0), (2, 0)] } ∧
    (∃ s, Reaches noAnalytic inverseSolver { dirichletBoundaries := [(1, 0), (2, 0)] }
      [.setDirichlet [(1, 0), (2, 1)], .solve] (s : Solver chain)) ∧
    (∀ i, imposed chain (surfaceCharges { dirichletBoundaries := [(1, 0), (2, 0)] }
      ([.setDirichlet [(1, 0), (2, 1)], .solve] : List (SolverOp chain))) i = 0) :=
  ⟨inverseSolver_exact, chain_constants, chain_gradient, chain_regularly, chain_reaches, fun _ => rfl⟩

/-- C66 with a surface charge: boundary 2 of the chain exists, boundary 3 does not -/
example : (2 : Int) ∈ chain.bdrAttrs ∧ ∀ b ∈ chain.bdrAttrs, b < 3 := by decide

/-- C69 on a field with unit flux -/
example : oneSolver.getChargeInBoundary 1 = -1 ∧ outwardFlux oneFEM oneSolver.getSolution.d 1 = 1 := by
  decide +kernel

/-- **C58 fails** for boundaries that were not prescribed at construction: with boundary 1 prescribed at construction
and 0 V and 1 V prescribed on boundaries 1 and 2 afterwards, every exact solver leaves boundary 2 at 0 V. -/
theorem C58_refuted : Regularly noAnalytic chain { dirichletBoundaries := [(1, 0)] } ∧
    ∃ raw s0, Solver.make noAnalytic chain { dirichletBoundaries := [(1, 0)] } raw = .ok s0 ∧
    ∀ P, ExactSolver P → ∃ s', (s0.setDirichletConditions [(1, 0), (2, 1)]).solve P = .ok s' ∧
      OnBoundary chain 2 (2 : Fin 3) ∧ s'.getSolution.phi (2 : Fin 3) = 0 := by
  obtain ⟨s0, hm, hreg, hP⟩ := late_boundary_state
  refine ⟨?_, chainRaw, s0, hm, hP⟩
  have hfix : ∀ i, Prescribed chain { dirichletBoundaries := [(1, 0)] } i ↔ OnBoundary chain 1 i := by
    intro i
    simp [Prescribed, SMap.keys]
  obtain ⟨_, hK⟩ := make_weak chain_regularly.points (by decide) (by intro a h; cases h)
    (show SMap.Sorted ([] : AttrToValueMap ℚ) from List.Pairwise.nil) hm
  refine ⟨chain_valid, chain_regularly.points, by simp, by simp [SMap.keys], (by intro a h; cases h),
    List.Pairwise.nil, ?_, ?_, chain_regularly.projection⟩
  · intro u h1 h2 i
    have := hreg.1 u ⟨fun i hi => h1 i ((hfix i).mpr hi), fun i hi => by
      rw [hK]; exact h2 i (fun h => hi ((hfix i).mp h))⟩
    rw [this]
  · intro i hi h0
    apply hreg.2 i ((hfix i).mp hi)
    have := hK (fun k => if k = i then 1 else 0) i
    rw [h0] at this
    simpa [mulVec, dotProduct] using this

/-- The hypotheses of C58_exact_partial and C58_ignored_partial hold for the chain with boundary 1 prescribed at construction, and 2 late. -/
example : Regularly noAnalytic chain { dirichletBoundaries := [(1, 0)] } ∧
    (∃ s, Reaches noAnalytic inverseSolver { dirichletBoundaries := [(1, 0)] } [] (s : Solver chain)) ∧
    (∃ i, OnBoundary chain 2 i) ∧ ∀ i, OnBoundary chain 2 i → ¬ Prescribed chain { dirichletBoundaries := [((1 : Int), (0 : ℚ))] } i := by
  obtain ⟨hR, raw, s0, hm, h⟩ := C58_refuted
  obtain ⟨-, -, hon, -⟩ := h _ inverseSolver_exact
  refine ⟨hR, ⟨s0, raw, s0, hm, rfl, by intro op hop; cases hop⟩, ⟨_, hon⟩, ?_⟩
  intro i h2 h1
  have : OnBoundary chain 1 i := by simpa [Prescribed, SMap.keys] using h1
  clear h1
  revert i
  unfold OnBoundary
  decide +kernel

end Tulip.Props
