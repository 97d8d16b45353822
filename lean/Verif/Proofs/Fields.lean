import Verif.Proofs.Flux
import Verif.Spec.Fields

/-!
# The solver's matrices and the weak form of the specification
-/

namespace Tulip
open Matrix Spec
variable {𝕜 : Type _} [Field 𝕜] {F : FEM 𝕜}

theorem mulVec_vector {α : Type _} {n m : Nat} (L : List α) (c : α → 𝕜) (B : α → Fin n → 𝕜 × 𝕜)
    (C : α → Fin m → 𝕜 × 𝕜) (v : Fin m → 𝕜) (i : Fin n) :
    ((Matrix.of fun i j => (L.map (fun q => c q * dot2 (B q i) (C q j))).sum : Matrix (Fin n) (Fin m) 𝕜) *ᵥ v) i =
      (L.map (fun q => c q * inner2 (B q i) (vectorAt (C q) v))).sum := by
  simp only [mulVec, dotProduct, Matrix.of_apply]
  rw [sum_list_sum L (fun q j => c q * dot2 (B q i) (C q j))]
  congr 1
  apply List.map_congr_left
  intro q _
  unfold inner2 vectorAt dot2
  simp only
  rw [Finset.mul_sum, Finset.mul_sum, ← Finset.sum_add_distrib, Finset.mul_sum]
  exact Finset.sum_congr rfl (fun j _ => by ring)

theorem mulVec_scalar {α : Type _} {n m : Nat} (L : List α) (c : α → 𝕜) (B : α → Fin n → 𝕜)
    (C : α → Fin m → 𝕜) (v : Fin m → 𝕜) (i : Fin n) :
    ((Matrix.of fun i j => (L.map (fun q => c q * (B q i * C q j))).sum : Matrix (Fin n) (Fin m) 𝕜) *ᵥ v) i =
      (L.map (fun q => c q * (B q i * scalarAt (C q) v))).sum := by
  simp only [mulVec, dotProduct, Matrix.of_apply]
  rw [sum_list_sum L (fun q j => c q * (B q i * C q j))]
  congr 1
  apply List.map_congr_left
  intro q _
  unfold scalarAt
  rw [Finset.mul_sum, Finset.mul_sum]
  exact Finset.sum_congr rfl (fun j _ => by ring)

theorem stiffness_mulVec (eps : Int → 𝕜) (u : Fin F.n → 𝕜) (i : Fin F.n) : (F.stiffness eps *ᵥ u) i =
    (F.dom.map (fun q => q.w * eps q.attr * inner2 (q.gradN i) (vectorAt q.gradN u))).sum :=
  mulVec_vector F.dom (fun q => q.w * eps q.attr) (fun q => q.gradN) (fun q => q.gradN) u i

theorem surfMass_mulVec (u : Fin F.n → 𝕜) (i : Fin F.n) : (F.surfMass *ᵥ u) i = surfaceTerm F u i :=
  mulVec_scalar F.bdr (fun q => q.w) (fun q => q.N) (fun q => q.N) u i

theorem massD_mulVec (d : Fin F.nd → 𝕜) (k : Fin F.nd) : (F.massD *ᵥ d) k =
    (F.dom.map (fun q => q.w * inner2 (q.R k) (vectorAt q.R d))).sum :=
  mulVec_vector F.dom (fun q => q.w) (fun q => q.R) (fun q => q.R) d k

theorem mixed_mulVec (eps : Int → 𝕜) (e : Fin F.ne → 𝕜) (k : Fin F.nd) : (F.mixed eps *ᵥ e) k =
    (F.dom.map (fun q => q.w * eps q.attr * inner2 (q.R k) (vectorAt q.W e))).sum :=
  mulVec_vector F.dom (fun q => q.w * eps q.attr) (fun q => q.R) (fun q => q.W) e k

theorem displacement_iff (eps : Int → 𝕜) (e : Fin F.ne → 𝕜) (d : Fin F.nd → 𝕜) :
    Displacement F eps e d ↔ F.massD *ᵥ d = F.mixed eps *ᵥ e := by
  constructor
  · intro h
    funext k
    rw [massD_mulVec, mixed_mulVec]
    exact h k
  · intro h k
    rw [← massD_mulVec, ← mixed_mulVec, h]

theorem projectionUnique_iff : ProjectionUnique F ↔ F.massD.det ≠ 0 := by
  constructor
  · intro h h0
    obtain ⟨d, hd, hz⟩ := Matrix.exists_mulVec_eq_zero_iff.mpr h0
    apply hd
    funext k
    exact h d (fun k => by rw [← massD_mulVec, hz]; rfl) k
  · intro h d hz
    have : d = fun _ => 0 := by
      apply mulVec_injective_of_det h
      funext k
      rw [massD_mulVec, hz k]
      simp [mulVec, dotProduct]
    intro k
    rw [this]

theorem flux_neg_one (attr : Int) (d : Fin F.nd → 𝕜) :
    F.flux (fun a => a = attr) (fun _ => -1) d = -outwardFlux F d attr := by
  rw [flux_eq]
  unfold outwardFlux
  rw [List.sum_map_mul_left]
  have : (F.bdr.filter (fun q => q.attr = attr)).map (fun q => pointFlux q d) =
      (F.bdr.filter (fun q => q.attr = attr)).map (fun q => scalarAt q.fl d) := by
    apply List.map_congr_left
    intro q _
    unfold pointFlux scalarAt
    exact Finset.sum_congr rfl (fun k _ => mul_comm _ _)
  rw [this]
  ring

theorem domInt_spec (a : Int) (u : Fin F.n → 𝕜) : F.domInt a u = domainIntegral F u a := by
  rw [domInt_eq]
  unfold domainIntegral domValue scalarAt
  congr 1
  apply List.map_congr_left
  intro q _
  congr 1
  exact Finset.sum_congr rfl (fun k _ => mul_comm _ _)

theorem bdrInt_spec (a : Int) (u : Fin F.n → 𝕜) : F.bdrInt a u = boundaryIntegral F u a := by
  rw [bdrInt_eq]
  unfold boundaryIntegral bdrValue scalarAt
  congr 1
  apply List.map_congr_left
  intro q _
  congr 1
  exact Finset.sum_congr rfl (fun k _ => mul_comm _ _)

/-- Permittivities from a sorted map. -/
theorem epsLoop_sorted (maxAttr : Int) : ∀ (m : List (Int × 𝕜)) (eps e : Int → 𝕜), SMap.Sorted m →
    (∀ a ∈ SMap.keys m, eps a = 1) → epsLoop maxAttr m eps = .ok e →
    ∀ a, e a = (SMap.find? m a).getD (eps a)
  | [], eps, e, _, _, h, a => by cases h; rfl
  | (k, v) :: t, eps, e, hs, h1, h, a => by
    rw [epsLoop] at h
    split at h
    · obtain ⟨hlt, ht⟩ := List.pairwise_cons.mp hs
      have hne : ∀ b ∈ SMap.keys t, b ≠ k := by
        intro b hb e
        obtain ⟨x, hx, rfl⟩ := List.mem_map.mp hb
        have := hlt x hx
        simp only at this
        omega
      rw [epsLoop_sorted maxAttr t _ e ht (fun b hb => by
        simp only [if_neg (hne b hb)]
        exact h1 b (List.mem_cons_of_mem _ hb)) h a, SMap.find?_cons]
      have hk : eps k = 1 := h1 k List.mem_cons_self
      by_cases e1 : k = a
      · subst e1
        rw [if_pos rfl, SMap.find?_eq_none_iff.mpr (fun hb => hne _ hb rfl)]
        simp [hk]
      · simp [e1, Ne.symm e1]
    · cases h

theorem permittivity_sorted {m : AttrToValueMap 𝕜} (hs : SMap.Sorted m) {eps : Int → 𝕜}
    (h : F.permittivity m = .ok eps) : eps = epsOf m := by
  funext a
  unfold FEM.permittivity at h
  split at h
  · next h0 =>
    cases h
    rw [List.length_eq_zero_iff.mp h0]
    rfl
  · obtain ⟨mx, _, h⟩ := Outcome.bind_eq_ok.mp h
    rw [epsLoop_sorted mx _ _ eps hs (fun _ _ => rfl) h a]
    rfl

/-- The matrix assembled by the constructor is the weak form. -/
theorem make_weak {A : Analytic 𝕜} {p : SolverInputs 𝕜} {raw : SolverSolution F} {s0 : Solver F}
    (hpts : ∀ q ∈ F.bdr, 1 ≤ q.attr) (hb : F.bdrAttrs ≠ []) (hop : ∀ a ∈ p.openBoundaries, 0 < a)
    (hs : SMap.Sorted p.domainPermittivities) (h : Solver.make A F p raw = .ok s0) :
    s0.eps = epsOf p.domainPermittivities ∧
    ∀ u i, (s0.K *ᵥ u) i = weakForm A F (epsOf p.domainPermittivities) p.openBoundaries u i := by
  obtain ⟨_, m2, _, _, _, _, m7, m8⟩ := make_fields h
  have he := permittivity_sorted hs m2
  refine ⟨he, ?_⟩
  intro u i
  by_cases h0 : p.openBoundaries = []
  · rw [m7 h0, he, stiffness_mulVec]
    unfold weakForm
    simp [h0]
  · obtain ⟨mk, e1, e2⟩ := m8 h0
    obtain ⟨mk', e3, _, _, e4, _⟩ := AttrToMarker_ok hb h0 hop
    rw [e3] at e1
    cases e1
    rw [e2, he, add_mulVec, Pi.add_apply, stiffness_mulVec]
    unfold weakForm
    congr 1
    have hf : F.bdr.filter (fun q => decide (FEM.marked mk q.attr)) =
        F.bdr.filter (fun q => decide (q.attr ∈ p.openBoundaries)) := by
      apply List.filter_congr
      intro q hq
      rw [Bool.eq_iff_iff, decide_eq_true_iff, decide_eq_true_iff, marked_iff e4 (hpts q hq)]
    rw [← hf]
    exact mulVec_scalar (F.bdr.filter (fun q => decide (FEM.marked mk q.attr))) (fun q => q.w * A.abc q.pos)
      (fun q => q.N) (fun q => q.N) u i

theorem bdrAttrs_ne {A : Analytic 𝕜} {p : SolverInputs 𝕜} {raw : SolverSolution F} {s0 : Solver F}
    (h : Solver.make A F p raw = .ok s0) (hne : p.dirichletBoundaries ≠ []) : F.bdrAttrs ≠ [] := by
  obtain ⟨m1, _⟩ := make_fields h
  intro h0
  unfold AttrToMarker at m1
  have hl : p.dirichletBoundaries.getAttributesAsArray.length ≠ 0 := by
    unfold AttrToValueMap.getAttributesAsArray SMap.keys; simpa using hne
  rw [if_neg hl, h0] at m1
  cases h : arrayMax p.dirichletBoundaries.getAttributesAsArray with
  | ok m => rw [h] at m1; cases m1
  | _ => rw [h] at m1; cases m1

theorem Spec.Regularly.regular {A : Analytic 𝕜} {p : SolverInputs 𝕜} (hR : Regularly A F p)
    {raw : SolverSolution F} {s0 : Solver F} (h : Solver.make A F p raw = .ok s0) :
    Regular s0.K (fun i => ∃ a ∈ SMap.keys p.dirichletBoundaries, OnBoundary F a i) := by
  obtain ⟨_, hK⟩ := make_weak hR.points (bdrAttrs_ne h hR.some_) hR.opens hR.sorted h
  constructor
  · intro u hu
    funext i
    refine hR.unique u hu.1 (fun i hi => ?_) i
    rw [← hK]
    exact hu.2 i hi
  · intro i hi h0
    apply hR.diagonal i hi
    rw [← hK]
    simp [mulVec, dotProduct, h0]

/-! ## Imposed values -/

open Classical in
/-- Value after a list of prescriptions, from a given start. -/
noncomputable def imposedFrom (F : FEM 𝕜) (g : Fin F.n → 𝕜) (l : List (Int × (𝕜 × 𝕜 → 𝕜))) (i : Fin F.n) : 𝕜 :=
  match l.reverse.find? (fun c => OnBoundary F c.1 i) with
  | some c => c.2 (F.node i)
  | none => g i

theorem imposedFrom_nil (g : Fin F.n → 𝕜) : imposedFrom F g [] = g := rfl

theorem imposedFrom_cons (g : Fin F.n → 𝕜) (c : Int × (𝕜 × 𝕜 → 𝕜)) (l : List (Int × (𝕜 × 𝕜 → 𝕜))) :
    imposedFrom F g (c :: l) = imposedFrom F (F.projectBdr c.2 c.1 g) l := by
  funext i
  unfold imposedFrom
  rw [List.reverse_cons, List.find?_append]
  cases l.reverse.find? _ with
  | some d => rfl
  | none =>
    rw [Option.none_or]
    unfold FEM.projectBdr
    by_cases h : OnBoundary F c.1 i
    · rw [if_pos (mem_bdrDofs.mpr h)]
      simp [h]
    · rw [if_neg (fun h' => h (mem_bdrDofs.mp h'))]
      simp [h]

theorem imposed_eq (l : List (Int × (𝕜 × 𝕜 → 𝕜))) : imposed F l = imposedFrom F (fun _ => 0) l := rfl

theorem projectBdr_absent {c : 𝕜 × 𝕜 → 𝕜} {a : Int} (h : ∀ i, ¬ OnBoundary F a i) (g : Fin F.n → 𝕜) :
    F.projectBdr c a g = g := by
  funext i
  unfold FEM.projectBdr
  rw [if_neg (fun h' => h i (mem_bdrDofs.mp h'))]

theorem applyLoop_imposed (mx : Int) (hmx : ∀ a i, OnBoundary F a i → a ≤ mx) : ∀ (m : List (Int × 𝕜))
    (g r : Fin F.n → 𝕜), F.applyLoop mx (SMap.keys m) (SMap.vals m) g = .ok r → r = imposedFrom F g (constants m)
  | [], g, r, h => by cases h; rfl
  | (a, v) :: t, g, r, h => by
    change F.applyLoop mx (a :: SMap.keys t) (v :: SMap.vals t) g = .ok r at h
    rw [FEM.applyLoop] at h
    show r = imposedFrom F g ((a, fun _ => v) :: constants t)
    rw [imposedFrom_cons]
    split at h
    · split at h
      · exact applyLoop_imposed mx hmx t _ r h
      · cases h
    · next hgt =>
      rw [projectBdr_absent (fun i hi => hgt (hmx a i hi))]
      exact applyLoop_imposed mx hmx t _ r h

theorem applyBoundary_imposed (hF : ValidBoundary F) {m : AttrToValueMap 𝕜} {g r : Fin F.n → 𝕜}
    (h : F.applyBoundary m g = .ok r) : r = imposedFrom F g (constants m) := by
  unfold FEM.applyBoundary at h
  split at h
  · next h0 =>
    have : m = [] := by
      unfold AttrToValueMap.getAttributesAsArray SMap.keys at h0
      simpa using h0
    subst this
    cases h
    rfl
  · obtain ⟨mx, e, h⟩ := Outcome.bind_eq_ok.mp h
    refine applyLoop_imposed mx ?_ m g r h
    rintro a i ⟨b, hb, rfl, _⟩
    exact (arrayMax_ok e).2 _ (hF.1 b hb)

theorem runOps_sigma {P : LinSolver 𝕜} : ∀ (hist : List (SolverOp F)) {s s' : Solver F},
    runOps P hist s = .ok s' → s'.sigma = imposedFrom F s.sigma (hist.filterMap (fun
      | .setNeumann a f => some (a, f)
      | _ => none))
  | [], s, s', h => by cases h; rfl
  | op :: ops, s, s', h => by
    obtain ⟨t, h1, h2⟩ := Outcome.bind_eq_ok.mp h
    rw [runOps_sigma ops h2]
    cases op with
    | setDirichlet v => cases h1; rfl
    | setSolution v => cases h1; rfl
    | solve => rw [(solve_setup h1).2.2.1]; rfl
    | setNeumann a f =>
      simp only [List.filterMap_cons]
      rw [imposedFrom_cons]
      unfold SolverOp.apply Solver.setNeumannCondition at h1
      obtain ⟨m, _, h1⟩ := Outcome.bind_eq_ok.mp h1
      split at h1
      · cases h1; rfl
      · cases h1

theorem imposedFrom_append (g : Fin F.n → 𝕜) : ∀ (l m : List (Int × (𝕜 × 𝕜 → 𝕜))),
    imposedFrom F g (l ++ m) = imposedFrom F (imposedFrom F g l) m
  | [], m => rfl
  | c :: l, m => by
    rw [List.cons_append, imposedFrom_cons, imposedFrom_append _ l m, ← imposedFrom_cons]

theorem reached_sigma {A : Analytic 𝕜} {P : LinSolver 𝕜} (hF : ValidBoundary F) {p : SolverInputs 𝕜}
    {raw : SolverSolution F} {s0 s : Solver F} {hist : List (SolverOp F)}
    (hm : Solver.make A F p raw = .ok s0) (hs : runOps P hist s0 = .ok s) :
    s.sigma = imposed F (surfaceCharges p hist) := by
  obtain ⟨_, _, _, _, _, m6, _⟩ := make_fields hm
  rw [runOps_sigma hist hs, applyBoundary_imposed hF m6, ← imposedFrom_append]
  rfl

end Tulip
