import Verif.Proofs.Solver

/-!
# Histories of calls on a solver
-/

namespace Tulip
open Matrix Spec
variable {𝕜 : Type _} [Field 𝕜] {F : FEM 𝕜}

/-- What one `Solve` does when the eliminated list is the current one. -/
theorem solve_spec {P : LinSolver 𝕜} (hP : ExactSolver P) {s : Solver F} {phi0 : Fin F.n → 𝕜}
    {ess : List (Fin F.n)} (h1 : F.applyBoundary s.params.dirichletBoundaries (fun _ => 0) = .ok phi0)
    (h2 : s.essTdofs = .ok ess) (h3 : s.elim = none ∨ s.elim = some ess)
    (hreg : Regular s.K (· ∈ ess)) (hD : F.massD.det ≠ 0) :
    ∃ t : SolverSolution F, s.solve P = .ok { s with elim := some ess, sol := t } ∧
      DirichletSolution s.K (· ∈ ess) phi0 (F.surfMass *ᵥ s.sigma) t.phi ∧
      t.e = (fun i => -(F.grad *ᵥ t.phi) i) ∧ F.massD *ᵥ t.d = F.mixed s.eps *ᵥ t.e := by
  have hel : s.elim.getD ess = ess := by rcases h3 with h | h <;> rw [h] <;> rfl
  let phi := P F.n (eliminated s.K ess)
    (Solver.formRhs s.K (eliminated s.K ess) ess phi0 (F.surfMass *ᵥ s.sigma)) phi0
  let e : Fin F.ne → 𝕜 := fun i => -(F.grad *ᵥ phi) i
  refine ⟨⟨phi, e, P F.nd F.massD (F.mixed s.eps *ᵥ e) s.sol.d⟩, ?_, ?_, rfl, ?_⟩
  · unfold Solver.solve
    rw [h1, h2]
    simp only [Outcome.ok_bind, hel]
    rfl
  · apply dirichlet_of_system hreg
    exact hP _ _ _ _ (eliminated_det hreg)
  · exact hP _ _ _ _ hD

/-- The potential `Solve` computes, whatever was eliminated before. -/
theorem solve_phi {P : LinSolver 𝕜} {s : Solver F} {phi0 : Fin F.n → 𝕜} {ess : List (Fin F.n)}
    (h1 : F.applyBoundary s.params.dirichletBoundaries (fun _ => 0) = .ok phi0)
    (h2 : s.essTdofs = .ok ess) :
    ∃ t : SolverSolution F, s.solve P = .ok { s with elim := some (s.elim.getD ess), sol := t } ∧
      t.phi = P F.n (eliminated s.K (s.elim.getD ess))
        (Solver.formRhs s.K (eliminated s.K (s.elim.getD ess)) ess phi0 (F.surfMass *ᵥ s.sigma)) phi0 := by
  unfold Solver.solve
  rw [h1, h2]
  exact ⟨_, rfl, rfl⟩

theorem marked_iff {mk : List Int} {attrs : List Int}
    (h : ∀ k, mk.getD k 0 = if ((k : Int) + 1) ∈ attrs then 1 else 0) {a : Int} (ha : 1 ≤ a) :
    FEM.marked mk a ↔ a ∈ attrs := by
  unfold FEM.marked
  rw [h]
  have : (((a - 1).toNat : Nat) : Int) + 1 = a := by omega
  rw [this]
  split <;> simp_all

/-- The essential degrees of freedom are those on the boundaries prescribed at construction. -/
theorem essentialDofs_ok (hF : ValidBoundary F) {attrs : List Int} (ha : attrs ≠ [])
    (hpos : ∀ a ∈ attrs, 0 < a) {mk : List Int} (hmk : AttrToMarker F.bdrAttrs attrs = .ok mk) :
    ∃ ess, F.essentialDofs mk = .ok ess ∧ ∀ i, i ∈ ess ↔ ∃ a ∈ attrs, OnBoundary F a i := by
  have hb : F.bdrAttrs ≠ [] := by
    intro h0
    unfold AttrToMarker at hmk
    have hl : attrs.length ≠ 0 := by simpa using ha
    rw [if_neg hl, h0] at hmk
    cases h : arrayMax attrs with
    | ok m => rw [h] at hmk; cases hmk
    | _ => rw [h] at hmk; cases hmk
  obtain ⟨mk', e1, e2, e3, e4, _⟩ := AttrToMarker_ok hb ha hpos
  rw [hmk] at e1; cases e1
  unfold FEM.essentialDofs
  rw [if_pos]
  · refine ⟨_, rfl, ?_⟩
    intro i
    simp only [List.mem_flatMap, List.mem_filter, decide_eq_true_eq]
    constructor
    · rintro ⟨b, ⟨h1, h2⟩, h3⟩
      exact ⟨b.1, (marked_iff e4 (hF.2 _ (hF.1 b h1))).mp h2, b, h1, rfl, h3⟩
    · rintro ⟨a, h1, b, h2, rfl, h3⟩
      exact ⟨b, ⟨h2, (marked_iff e4 (hF.2 _ (hF.1 b h2))).mpr h1⟩, h3⟩
  · rw [List.all_eq_true]
    intro b hb
    have h1 := hF.2 _ (hF.1 b hb)
    have h2 := e3 _ (hF.1 b hb)
    simp only [decide_eq_true_eq]
    omega

/-- What is known about a constructed solver. -/
theorem make_fields {A : Analytic 𝕜} {p : SolverInputs 𝕜} {raw : SolverSolution F} {s : Solver F}
    (h : Solver.make A F p raw = .ok s) :
    AttrToMarker F.bdrAttrs p.dirichletBoundaries.getAttributesAsArray = .ok s.essBdr ∧
    F.permittivity p.domainPermittivities = .ok s.eps ∧ s.params = p ∧ s.elim = none ∧ s.sol = raw ∧
    F.applyBoundary p.neumannBoundaries (fun _ => 0) = .ok s.sigma ∧
    (p.openBoundaries = [] → s.K = F.stiffness s.eps) ∧
    (p.openBoundaries ≠ [] → ∃ mk, AttrToMarker F.bdrAttrs p.openBoundaries = .ok mk ∧
      s.K = F.stiffness s.eps + F.openMass A mk) := by
  unfold Solver.make at h
  obtain ⟨ess, e1, h⟩ := Outcome.bind_eq_ok.mp h
  obtain ⟨eps, e2, h⟩ := Outcome.bind_eq_ok.mp h
  obtain ⟨K, e3, h⟩ := Outcome.bind_eq_ok.mp h
  obtain ⟨sg, e4, h⟩ := Outcome.bind_eq_ok.mp h
  cases h
  refine ⟨e1, e2, rfl, rfl, rfl, e4, ?_, ?_⟩
  · intro h0
    rw [h0] at e3
    simpa using e3.symm
  · intro h0
    have : p.openBoundaries.length ≠ 0 := by simpa using h0
    rw [if_neg this] at e3
    obtain ⟨mk, e5, h⟩ := Outcome.bind_eq_ok.mp e3
    cases h
    exact ⟨mk, e5, rfl⟩

/-- Parts of a solver that no call changes. -/
structure SameSetup (s0 s : Solver F) : Prop where
  essBdr : s.essBdr = s0.essBdr
  eps : s.eps = s0.eps
  K : s.K = s0.K
  neumann : s.params.neumannBoundaries = s0.params.neumannBoundaries
  openB : s.params.openBoundaries = s0.params.openBoundaries
  perm : s.params.domainPermittivities = s0.params.domainPermittivities

theorem SameSetup.refl (s : Solver F) : SameSetup s s := ⟨rfl, rfl, rfl, rfl, rfl, rfl⟩

theorem SameSetup.trans {a b c : Solver F} (h1 : SameSetup a b) (h2 : SameSetup b c) : SameSetup a c :=
  ⟨h2.1.trans h1.1, h2.2.trans h1.2, h2.3.trans h1.3, h2.4.trans h1.4, h2.5.trans h1.5, h2.6.trans h1.6⟩

theorem solve_setup {P : LinSolver 𝕜} {s s' : Solver F} (h : s.solve P = .ok s') : SameSetup s s' ∧
    s'.params = s.params ∧ s'.sigma = s.sigma ∧
    ∃ ess, s.essTdofs = .ok ess ∧ s'.elim = some (s.elim.getD ess) := by
  unfold Solver.solve at h
  obtain ⟨_, _, h⟩ := Outcome.bind_eq_ok.mp h
  obtain ⟨ess, e, h⟩ := Outcome.bind_eq_ok.mp h
  cases h
  exact ⟨⟨rfl, rfl, rfl, rfl, rfl, rfl⟩, rfl, rfl, ess, e, rfl⟩

theorem op_setup {P : LinSolver 𝕜} {s s' : Solver F} {op : SolverOp F} (h : op.apply P s = .ok s') :
    SameSetup s s' := by
  cases op with
  | setDirichlet v => cases h; exact ⟨rfl, rfl, rfl, rfl, rfl, rfl⟩
  | setNeumann a f =>
    unfold SolverOp.apply Solver.setNeumannCondition at h
    obtain ⟨m, _, h⟩ := Outcome.bind_eq_ok.mp h
    split at h
    · cases h; exact ⟨rfl, rfl, rfl, rfl, rfl, rfl⟩
    · cases h
  | solve => exact (solve_setup h).1
  | setSolution t => cases h; exact ⟨rfl, rfl, rfl, rfl, rfl, rfl⟩

theorem runOps_setup {P : LinSolver 𝕜} : ∀ (ops : List (SolverOp F)) {s s' : Solver F},
    runOps P ops s = .ok s' → SameSetup s s' := by
  intro ops
  induction ops with
  | nil => intro s s' h; cases h; exact .refl _
  | cons op ops ih =>
    intro s s' h
    obtain ⟨t, h1, h2⟩ := Outcome.bind_eq_ok.mp h
    exact (op_setup h1).trans (ih h2)

/-- As long as some boundary is prescribed at each `Solve`, the eliminated list is the one of the
construction. -/
theorem op_elim {P : LinSolver 𝕜} {s s' : Solver F} {op : SolverOp F} (h : op.apply P s = .ok s')
    (hk : op.KeepsDirichlet) {ess : List (Fin F.n)} (he : F.essentialDofs s.essBdr = .ok ess)
    (hd : s.params.dirichletBoundaries ≠ []) (hel : s.elim = none ∨ s.elim = some ess) :
    s'.params.dirichletBoundaries ≠ [] ∧ (s'.elim = none ∨ s'.elim = some ess) := by
  cases op with
  | setDirichlet v => cases h; exact ⟨hk, hel⟩
  | setNeumann a f =>
    unfold SolverOp.apply Solver.setNeumannCondition at h
    obtain ⟨m, _, h⟩ := Outcome.bind_eq_ok.mp h
    split at h
    · cases h; exact ⟨hd, hel⟩
    · cases h
  | solve =>
    obtain ⟨_, h2, _, ess', h3, h4⟩ := solve_setup h
    refine ⟨by rw [h2]; exact hd, Or.inr ?_⟩
    unfold Solver.essTdofs AttrToValueMap.getAttributesAsArray SMap.keys at h3
    rw [if_pos (by rw [List.length_map]; exact List.length_pos_of_ne_nil hd), he] at h3
    cases h3
    rw [h4]
    rcases hel with h | h <;> rw [h] <;> rfl
  | setSolution t => cases h; exact ⟨hd, hel⟩

theorem runOps_elim {P : LinSolver 𝕜} : ∀ (ops : List (SolverOp F)) {s s' : Solver F},
    runOps P ops s = .ok s' → (∀ op ∈ ops, op.KeepsDirichlet) → ∀ {ess : List (Fin F.n)},
    F.essentialDofs s.essBdr = .ok ess → s.params.dirichletBoundaries ≠ [] →
    (s.elim = none ∨ s.elim = some ess) →
    s'.params.dirichletBoundaries ≠ [] ∧ (s'.elim = none ∨ s'.elim = some ess) := by
  intro ops
  induction ops with
  | nil => intro s s' h _ ess _ hd hel; cases h; exact ⟨hd, hel⟩
  | cons op ops ih =>
    intro s s' h hk ess he hd hel
    obtain ⟨t, h1, h2⟩ := Outcome.bind_eq_ok.mp h
    obtain ⟨hd', hel'⟩ := op_elim h1 (hk op (by simp)) he hd hel
    refine ih h2 (fun o ho => hk o (List.mem_cons_of_mem _ ho)) ?_ hd' hel'
    rw [(op_setup h1).essBdr]; exact he

/-- `Solve` after any history that keeps boundaries prescribed: it solves the discrete problem whose fixed
degrees of freedom are those of the boundaries prescribed at construction. -/
theorem solve_after {A : Analytic 𝕜} {P : LinSolver 𝕜} (hP : ExactSolver P) (hF : ValidBoundary F)
    {p : SolverInputs 𝕜} {raw : SolverSolution F} {s0 s : Solver F}
    (hmake : Solver.make A F p raw = .ok s0) (hne : p.dirichletBoundaries ≠ [])
    (hpos : ∀ a ∈ SMap.keys p.dirichletBoundaries, 0 < a) {hist : List (SolverOp F)}
    (hh : ∀ op ∈ hist, op.KeepsDirichlet) (hs : runOps P hist s0 = .ok s)
    (hreg : Regular s0.K (fun i => ∃ a ∈ SMap.keys p.dirichletBoundaries, OnBoundary F a i))
    (hD : F.massD.det ≠ 0) {v : AttrToValueMap 𝕜} (hv : v ≠ []) {phi0 : Fin F.n → 𝕜}
    (hphi : F.applyBoundary v (fun _ => 0) = .ok phi0) :
    ∃ s' : Solver F, (s.setDirichletConditions v).solve P = .ok s' ∧
      DirichletSolution s0.K (fun i => ∃ a ∈ SMap.keys p.dirichletBoundaries, OnBoundary F a i) phi0
        (F.surfMass *ᵥ s.sigma) s'.sol.phi ∧
      s'.sol.e = (fun i => -(F.grad *ᵥ s'.sol.phi) i) ∧
      F.massD *ᵥ s'.sol.d = F.mixed s0.eps *ᵥ s'.sol.e ∧ SameSetup s0 s' ∧
      s'.params.dirichletBoundaries = v := by
  obtain ⟨m1, m2, m3, m4, m5, m6, _⟩ := make_fields hmake
  have hset := runOps_setup hist hs
  have hane : p.dirichletBoundaries.getAttributesAsArray ≠ [] := by
    unfold AttrToValueMap.getAttributesAsArray SMap.keys; simpa using hne
  obtain ⟨ess, he, hess⟩ := essentialDofs_ok hF hane hpos m1
  obtain ⟨_, hel⟩ := runOps_elim hist hs hh he (by rw [m3]; exact hne) (Or.inl m4)
  have hfix : (fun i => i ∈ ess) =
      fun i => ∃ a ∈ SMap.keys p.dirichletBoundaries, OnBoundary F a i := by
    funext i; exact propext (hess i)
  have hK : (s.setDirichletConditions v).K = s0.K := hset.K
  have := solve_spec hP (s := s.setDirichletConditions v) (phi0 := phi0) (ess := ess) hphi (by
    unfold Solver.essTdofs
    rw [if_pos]
    · show F.essentialDofs s.essBdr = _
      rw [hset.essBdr]; exact he
    · show 0 < (AttrToValueMap.getAttributesAsArray v).length
      unfold AttrToValueMap.getAttributesAsArray SMap.keys
      rw [List.length_map]; exact List.length_pos_of_ne_nil hv) hel (by
      rw [hK, hfix]; exact hreg) hD
  obtain ⟨t, h1, h2, h3, h4⟩ := this
  refine ⟨_, h1, ?_, h3, ?_, ?_, rfl⟩
  · rw [hK, hfix] at h2; exact h2
  · show F.massD *ᵥ t.d = F.mixed s0.eps *ᵥ t.e
    rw [h4]
    show F.mixed s.eps *ᵥ t.e = _
    rw [hset.eps]
  · exact ⟨hset.essBdr, hset.eps, hset.K, hset.neumann, hset.openB, hset.perm⟩

/-- Boundary values of a prescribed set of positive attributes. -/
theorem applyBoundary_ok (hF : ValidBoundary F) (hb : F.bdrAttrs ≠ []) (ks : List Int) (V : Int → 𝕜)
    (hpos : ∀ a ∈ ks, 0 < a) : ∃ phi0, F.applyBoundary (prescribe ks V) (fun _ => 0) = .ok phi0 ∧
      (∀ i, (∀ a ∈ ks, ¬ OnBoundary F a i) → phi0 i = 0) ∧
      (∀ i c, (∃ a ∈ ks, OnBoundary F a i) → (∀ a ∈ ks, OnBoundary F a i → V a = c) → phi0 i = c) := by
  obtain ⟨m, e, hm, hle⟩ := arrayMax_spec hb
  unfold FEM.applyBoundary
  rw [prescribe_keys, prescribe_vals]
  split
  · next h =>
    have : ks = [] := by simpa using h
    subst this
    refine ⟨_, rfl, fun _ _ => rfl, ?_⟩
    rintro i c ⟨a, ha, _⟩; cases ha
  · rw [e]
    obtain ⟨r, h1, h2, h3⟩ := applyLoop_ok (F := F) m V ks (fun _ => 0) (fun a ha => hpos a ha)
    refine ⟨r, h1, fun i hi => h2 i (fun a ha _ => hi a ha), ?_⟩
    rintro i c ⟨a, ha, hon⟩ hc
    refine h3 i c (fun b hb _ hon' => hc b hb hon') ⟨a, ha, ?_, hon⟩
    obtain ⟨b, hb, rfl, _⟩ := hon
    exact hle _ (hF.1 b hb)

theorem runOps_append (P : LinSolver 𝕜) : ∀ (a b : List (SolverOp F)) {s t : Solver F},
    runOps P a s = .ok t → runOps P (a ++ b) s = runOps P b t := by
  intro a
  induction a with
  | nil => intro b s t h; cases h; rfl
  | cons op a ih =>
    intro b s t h
    obtain ⟨u, h1, h2⟩ := Outcome.bind_eq_ok.mp h
    show (op.apply P s >>= fun s => runOps P (a ++ b) s) = _
    rw [h1, Outcome.ok_bind, ih b h2]

end Tulip
