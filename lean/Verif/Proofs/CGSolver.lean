import Verif.Proofs.ConjugateGradient
import Verif.Proofs.Elliptic
import Verif.Proofs.Passive
import Verif.Proofs.DriverSpec

/-!
# Conjugate gradients in the solver and the driver
-/

namespace Tulip
open Matrix Tulip.Spec

section
variable {𝕜 : Type _} [Field 𝕜] [LinearOrder 𝕜] {n : Nat} {A : Matrix (Fin n) (Fin n) 𝕜} {B : (Fin n → 𝕜) → Fin n → 𝕜}

theorem mulVec_uncoupled {i : Fin n} (hA : ∀ j, j ≠ i → A i j = 0) {d : Fin n → 𝕜} (hd : d i = 0) : (A *ᵥ d) i = 0 := by
  show ∑ j, A i j * d j = 0
  refine Finset.sum_eq_zero fun j _ => ?_
  by_cases h : j = i
  · rw [h, hd, mul_zero]
  · rw [hA j h, zero_mul]

theorem cgLoop_fixed {i : Fin n} (hA : ∀ j, j ≠ i → A i j = 0) (hB : ∀ u, u i = 0 → B u i = 0) (stop : 𝕜) :
    ∀ (m : Nat) (x r d z : Fin n → 𝕜) (nom den : 𝕜), r i = 0 → d i = 0 → z i = 0 →
      cgLoop A B stop m x r d z nom den i = x i := by
  intro m
  have step : ∀ (x d : Fin n → 𝕜) (c : 𝕜), d i = 0 → (x + c • d) i = x i := fun x d c hd => by
    rw [Pi.add_apply, Pi.smul_apply, hd, smul_zero, add_zero]
  induction m with
  | zero => intro x r d z nom den _ hd _; exact step x d _ hd
  | succ m ih =>
    intro x r d z nom den hr hd hz
    have hr' : (r - (nom / den) • z) i = 0 := by rw [Pi.sub_apply, Pi.smul_apply, hr, hz, smul_zero, sub_zero]
    unfold cgLoop
    simp only
    split
    · exact step x d _ hd
    split
    · exact step x d _ hd
    split
    · exact step x d _ hd
    · have hd' : (B (r - (nom / den) • z) + (((r - (nom / den) • z) ⬝ᵥ B (r - (nom / den) • z)) / nom) • d) i = 0 := by
        rw [step _ _ _ hd, hB _ hr']
      rw [ih _ _ _ _ _ _ hr' hd' (mulVec_uncoupled hA hd'), step x d _ hd]

theorem cgSolve_fixed {i : Fin n} (hA : ∀ j, j ≠ i → A i j = 0) (hB : ∀ u, u i = 0 → B u i = 0) (N : Nat) (rtol atol : 𝕜)
    {b x0 : Fin n → 𝕜} (hb : b i = (A *ᵥ x0) i) : cgSolve B N rtol atol A b x0 i = x0 i := by
  have hr : (b - A *ᵥ x0) i = 0 := by rw [Pi.sub_apply, hb, sub_self]
  unfold cgSolve
  simp only
  split
  · rfl
  split
  · rfl
  split
  · rfl
  · exact cgLoop_fixed hA hB _ _ _ _ _ _ _ _ hr (hB _ hr) (mulVec_uncoupled hA (hB _ hr))

theorem mfemPCG_fixed {i : Fin n} (hA : ∀ j, j ≠ i → A i j = 0) (N : Nat) (rtol atol : 𝕜)
    {b x0 : Fin n → 𝕜} (hb : b i = (A *ᵥ x0) i) : mfemPCG N rtol atol n A b x0 i = x0 i :=
  cgSolve_fixed hA (fun _ hu => gsSmooth_zero hA hu) N rtol atol hb

variable [IsStrictOrderedRing 𝕜]

theorem PD.diag_pos (h : PD A) (i : Fin n) : 0 < A i i := by
  have := h.2 (fun j => if j = i then 1 else 0) fun e => by
    have := congrFun e i
    simp at this
  simpa [mulVec, dotProduct] using this

/-- enough iterations reach the tolerance -/
theorem mfemPCG_residual (hA : PD A) {N : Nat} (hN : 1 ≤ N) (hn : n ≤ N) (rtol : 𝕜) {atol : 𝕜} (h0 : 0 ≤ atol) (b x0 : Fin n → 𝕜) :
    (b - A *ᵥ mfemPCG N rtol atol n A b x0) ⬝ᵥ gsSmooth A (b - A *ᵥ mfemPCG N rtol atol n A b x0) ≤
      max (((b - A *ᵥ x0) ⬝ᵥ gsSmooth A (b - A *ᵥ x0)) * rtol) atol := by
  have hd := PD.diag_pos hA
  have hs : ∀ u v, u ⬝ᵥ gsSmooth A v = v ⬝ᵥ gsSmooth A u := gsSmooth_symm hA.1 fun i => (hd i).ne'
  have hp : ∀ u, 0 ≤ u ⬝ᵥ gsSmooth A u := fun u => by
    by_cases h : u = 0
    · rw [h, zero_dotProduct]
    · exact (gsSmooth_pos hA.1 hd h).le
  obtain ⟨j, _, e, hlt, hend⟩ := cgSolve_seq hA hs hp hN rtol h0 (b := b) (x0 := x0)
  have e' : mfemPCG N rtol atol n A b x0 = (cgSeq A (gsSmooth A) b x0 j).x := e
  rw [e', ← cgSeq_residual]
  rcases hend with h | h
  · exact h
  · by_contra hc
    have hle := cg_steps hA hs (k := j + 1) (b := b) (x0 := x0) fun i hi => (h0.trans (le_max_right _ _)).trans_lt (by
      rcases Nat.lt_succ_iff_lt_or_eq.mp hi with h | h
      · exact hlt i h
      · rw [h]
        exact not_le.mp hc)
    omega

theorem mfemPCG_exact (hA : PD A) {N : Nat} (hN : 1 ≤ N) (hn : n ≤ N) (b x0 : Fin n → 𝕜) : A *ᵥ mfemPCG N 0 0 n A b x0 = b := by
  have h := mfemPCG_residual hA hN hn 0 (le_refl 0) b x0
  rw [mul_zero, max_self] at h
  by_contra hc
  exact absurd (gsSmooth_pos hA.1 (PD.diag_pos hA) (fun e => hc (sub_eq_zero.mp e).symm)) (not_lt.mpr h)

theorem mfemPCG_energy (hA : PD A) {N : Nat} (hN : 1 ≤ N) (rtol : 𝕜) {atol : 𝕜} (h0 : 0 ≤ atol) {b x0 y : Fin n → 𝕜}
    (hy : A *ᵥ y = b) :
    (y - mfemPCG N rtol atol n A b x0) ⬝ᵥ A *ᵥ (y - mfemPCG N rtol atol n A b x0) ≤ (y - x0) ⬝ᵥ A *ᵥ (y - x0) := by
  have hd := PD.diag_pos hA
  have hs : ∀ u v, u ⬝ᵥ gsSmooth A v = v ⬝ᵥ gsSmooth A u := gsSmooth_symm hA.1 fun i => (hd i).ne'
  have hp : ∀ u, 0 ≤ u ⬝ᵥ gsSmooth A u := fun u => by
    by_cases h : u = 0
    · rw [h, zero_dotProduct]
    · exact (gsSmooth_pos hA.1 hd h).le
  obtain ⟨j, _, e, hlt, _⟩ := cgSolve_seq hA hs hp hN rtol h0 (b := b) (x0 := x0)
  have e' : mfemPCG N rtol atol n A b x0 = (cgSeq A (gsSmooth A) b x0 j).x := e
  rw [e']
  exact cg_energy_le hA hs (fun i hi => (h0.trans (le_max_right _ _)).trans_lt (hlt i hi)) hy

theorem PD.det_ne (h : PD A) : A.det ≠ 0 := by
  intro e
  obtain ⟨v, hv, hz⟩ := Matrix.exists_mulVec_eq_zero_iff.mpr e
  have := h.2 v hv
  rw [hz, dotProduct_zero] at this
  exact lt_irrefl _ this

/-- every exact solver gives the same -/
theorem mfemPCG_eq (hA : PD A) {N : Nat} (hN : 1 ≤ N) (hn : n ≤ N) {P : LinSolver 𝕜} (hP : ExactSolver P) (b x0 : Fin n → 𝕜) :
    mfemPCG N 0 0 n A b x0 = P n A b x0 :=
  mulVec_injective_of_det (PD.det_ne hA) ((mfemPCG_exact hA hN hn b x0).trans (hP n A b x0 (PD.det_ne hA)).symm)

end

section
variable {𝕜 : Type} [Field 𝕜] {F : FEM 𝕜}

/-- the matrix is the one of the construction, and so are the eliminated degrees of freedom -/
structure Regularly' (K : Matrix (Fin F.n) (Fin F.n) 𝕜) (mk : List Int) (ess : List (Fin F.n)) (s : Solver F) : Prop where
  K : s.K = K
  essBdr : s.essBdr = mk
  elim : s.elim = none ∨ s.elim = some ess

theorem solve_congr {K : Matrix (Fin F.n) (Fin F.n) 𝕜} {mk : List Int} {ess : List (Fin F.n)} (he : F.essentialDofs mk = .ok ess)
    {P P' : LinSolver 𝕜} (h1 : ∀ b x0, P F.n (eliminated K ess) b x0 = P' F.n (eliminated K ess) b x0)
    (h2 : ∀ b x0, P F.nd F.massD b x0 = P' F.nd F.massD b x0) {s : Solver F} (hs : Regularly' K mk ess s)
    (hd : s.params.dirichletBoundaries ≠ []) : s.solve P = s.solve P' := by
  have e : s.essTdofs = .ok ess := by
    unfold Solver.essTdofs AttrToValueMap.getAttributesAsArray SMap.keys
    rw [if_pos (by rw [List.length_map]; exact List.length_pos_of_ne_nil hd), hs.essBdr, he]
  have el : s.elim.getD ess = ess := by
    rcases hs.elim with h | h <;> rw [h] <;> rfl
  unfold Solver.solve
  rw [e, hs.K]
  cases F.applyBoundary s.params.dirichletBoundaries fun _ => 0 <;>
    simp only [Outcome.ok_bind, el, h1, h2] <;> rfl

theorem solve_regularly {K : Matrix (Fin F.n) (Fin F.n) 𝕜} {mk : List Int} {ess : List (Fin F.n)} (he : F.essentialDofs mk = .ok ess)
    {P : LinSolver 𝕜} {s s' : Solver F} (hs : Regularly' K mk ess s) (hd : s.params.dirichletBoundaries ≠ [])
    (h : s.solve P = .ok s') : Regularly' K mk ess s' := by
  obtain ⟨h1, _, _, ess', h3, h4⟩ := solve_setup h
  refine ⟨h1.K.trans hs.K, h1.essBdr.trans hs.essBdr, Or.inr ?_⟩
  have e : s.essTdofs = .ok ess := by
    unfold Solver.essTdofs AttrToValueMap.getAttributesAsArray SMap.keys
    rw [if_pos (by rw [List.length_map]; exact List.length_pos_of_ne_nil hd), hs.essBdr, he]
  rw [e] at h3
  cases h3
  rw [h4]
  rcases hs.elim with h | h <;> rw [h] <;> rfl

theorem solveLoop_congr {K : Matrix (Fin F.n) (Fin F.n) 𝕜} {mk : List Int} {ess : List (Fin F.n)} (he : F.essentialDofs mk = .ok ess)
    {P P' : LinSolver 𝕜} (h1 : ∀ b x0, P F.n (eliminated K ess) b x0 = P' F.n (eliminated K ess) b x0)
    (h2 : ∀ b x0, P F.nd F.massD b x0 = P' F.nd F.massD b x0) (mats : Materials 𝕜) (opts : DriverOptions) (b : Bool)
    (base : AttrToValueMap 𝕜) : ∀ (l : List (Int × Int)) (sp : SolvedProblem F), Regularly' K mk ess sp.solver →
      solveLoop P mats opts b base l sp = solveLoop P' mats opts b base l sp := by
  intro l
  induction l with
  | nil => intro sp _; rfl
  | cons c l ih =>
    intro sp hs
    obtain ⟨i, a⟩ := c
    have hs' : Regularly' K mk ess (sp.solver.setDirichletConditions (SMap.set base a 1)) := ⟨hs.K, hs.essBdr, hs.elim⟩
    have hd : (sp.solver.setDirichletConditions (SMap.set base a (1 : 𝕜))).params.dirichletBoundaries ≠ [] := by
      show SMap.set base a 1 ≠ []
      cases base with
      | nil => exact List.cons_ne_nil _ _
      | cons x t =>
        unfold SMap.set
        split
        · exact List.cons_ne_nil _ _
        · split <;> exact List.cons_ne_nil _ _
    unfold solveLoop
    simp only []
    rw [solve_congr he h1 h2 hs' hd]
    cases hr : (sp.solver.setDirichletConditions (SMap.set base a (1 : 𝕜))).solve P' with
    | ok s' =>
      have hs1 := solve_regularly he hs' hd hr
      rw [Logged.lift_ok_bind, Logged.lift_ok_bind]
      refine congrArg _ (funext fun pec => congrArg _ (funext fun _ => congrArg _ (funext fun sols => ?_)))
      exact ih _ hs1
    | throw e => rfl
    | ub => rfl
    | nonfinite => rfl

end

section
variable {𝕜 : Type} [Field 𝕜] {n : Nat} {K : Matrix (Fin n) (Fin n) 𝕜} {ess : List (Fin n)}

theorem eliminated_mulVec' (x : Fin n → 𝕜) (i : Fin n) : (eliminated K ess *ᵥ x) i =
    if i ∈ ess then K i i * x i else (K *ᵥ fun j => if j ∈ ess then 0 else x j) i := by
  unfold eliminated mulVec dotProduct
  by_cases hi : i ∈ ess
  · rw [if_pos hi, Finset.sum_eq_single i]
    · simp only [of_apply]
      rw [if_pos (Or.inl hi), if_pos trivial]
    · intro j _ hj
      simp only [of_apply]
      rw [if_pos (Or.inl hi), if_neg (Ne.symm hj), zero_mul]
    · intro h; exact absurd (Finset.mem_univ _) h
  · rw [if_neg hi]
    refine Finset.sum_congr rfl fun j _ => ?_
    simp only [of_apply]
    by_cases hj : j ∈ ess
    · rw [if_pos (Or.inr hj), if_neg (fun e : i = j => hi (e ▸ hj)), if_pos hj, zero_mul, mul_zero]
    · rw [if_neg (by rintro (h | h); exacts [hi h, hj h]), if_neg hj]

theorem eliminated_form (x : Fin n → 𝕜) : x ⬝ᵥ eliminated K ess *ᵥ x =
    (∑ i, if i ∈ ess then K i i * (x i * x i) else 0) +
      (fun j => if j ∈ ess then 0 else x j) ⬝ᵥ (K *ᵥ fun j => if j ∈ ess then 0 else x j) := by
  unfold dotProduct
  rw [← Finset.sum_add_distrib]
  refine Finset.sum_congr rfl fun i _ => ?_
  rw [eliminated_mulVec']
  by_cases hi : i ∈ ess
  · simp only [if_pos hi, zero_mul, add_zero]; ring
  · simp only [if_neg hi, zero_add]

theorem eliminated_symm (h : K.IsSymm) : (eliminated K ess).IsSymm := by
  ext i j
  simp only [transpose_apply, eliminated, of_apply]
  have hk : K j i = K i j := congrFun (congrFun h i) j
  simp only [or_comm (a := j ∈ ess), eq_comm (a := j), hk]

variable [LinearOrder 𝕜] [IsStrictOrderedRing 𝕜]

theorem eliminated_PD (h : K.IsSymm) (hd : ∀ i ∈ ess, 0 < K i i)
    (hw : ∀ w : Fin n → 𝕜, w ≠ 0 → (∀ i ∈ ess, w i = 0) → 0 < w ⬝ᵥ K *ᵥ w) : PD (eliminated K ess) := by
  refine ⟨eliminated_symm h, fun x hx => ?_⟩
  rw [eliminated_form]
  have h1 : ∀ i : Fin n, 0 ≤ if i ∈ ess then K i i * (x i * x i) else 0 := fun i => by
    by_cases hi : i ∈ ess
    · rw [if_pos hi]; exact mul_nonneg (hd i hi).le (mul_self_nonneg _)
    · rw [if_neg hi]
  by_cases e : (fun j => if j ∈ ess then 0 else x j) = 0
  · rw [e, zero_dotProduct, add_zero]
    refine lt_of_le_of_ne (Finset.sum_nonneg fun i _ => h1 i) fun hz => hx (funext fun i => ?_)
    by_cases hi : i ∈ ess
    · have := (Finset.sum_eq_zero_iff_of_nonneg fun i _ => h1 i).mp hz.symm i (Finset.mem_univ _)
      rw [if_pos hi] at this
      exact mul_self_eq_zero.mp ((mul_eq_zero.mp this).resolve_left (hd i hi).ne')
    · have := congrFun e i
      simp only [if_neg hi] at this
      exact this
  · exact add_pos_of_nonneg_of_pos (Finset.sum_nonneg fun i _ => h1 i) (hw _ e fun i hi => if_pos hi)

end

section
variable {𝕜 : Type} [Field 𝕜] [LinearOrder 𝕜] [IsStrictOrderedRing 𝕜] {F : FEM 𝕜} {mats : Materials 𝕜} {A : Analytic 𝕜}

theorem systemMatrix_symm (b : Bool) : (systemMatrix A F mats b).IsSymm := by
  ext i j
  simp only [transpose_apply, systemMatrix, of_apply]
  congr 1
  · congr 1
    refine List.map_congr_left fun q _ => ?_
    unfold dot2
    ring
  · congr 1
    refine List.map_congr_left fun q _ => ?_
    ring

theorem systemMatrix_form (b : Bool) (u : Fin F.n → 𝕜) : u ⬝ᵥ systemMatrix A F mats b *ᵥ u =
    ∑ i, u i * weakForm A F (declaredEps mats b) (mats.openBoundaries.map OpenBoundary.tag) u i :=
  Finset.sum_congr rfl fun i _ => by rw [systemMatrix_mulVec]

theorem Spec.Elliptic.form_nonneg (h : Elliptic A F mats) (b : Bool) (u : Fin F.n → 𝕜) :
    0 ≤ u ⬝ᵥ systemMatrix A F mats b *ᵥ u := by
  rw [systemMatrix_form, weakForm_test]
  exact add_nonneg (sum_map_nonneg (h.weights_nonneg b u)) (sum_map_nonneg (h.opens_nonneg u))

theorem Spec.Elliptic.eliminated_PD (h : Elliptic A F mats) (b : Bool) {ess : List (Fin F.n)}
    (he : ∀ i, i ∈ ess ↔ ∃ p ∈ mats.pecs, OnBoundary F p.tag i) : PD (eliminated (systemMatrix A F mats b) ess) := by
  refine Tulip.eliminated_PD (systemMatrix_symm b) (fun i hi => ?_) fun w hw h0 => ?_
  · have h1 : 0 ≤ systemMatrix A F mats b i i := by
      have := h.form_nonneg b fun j => if j = i then 1 else 0
      simpa [mulVec, dotProduct] using this
    refine lt_of_le_of_ne h1 (Ne.symm ?_)
    rw [systemMatrix_diag]
    exact h.wellPosed.diagonal b i ((he i).mp hi)
  · refine lt_of_le_of_ne (h.form_nonneg b w) fun e => hw (funext ?_)
    rw [systemMatrix_form] at e
    exact h.potentials w (fun k hk => h0 k ((he k).mpr hk)) (h.gradient_zero b e.symm)

theorem Spec.Elliptic.massD_PD (h : Elliptic A F mats) : PD F.massD := by
  have form : ∀ d : Fin F.nd → 𝕜, d ⬝ᵥ F.massD *ᵥ d =
      (F.dom.map (fun q => q.w * inner2 (vectorAt q.R d) (vectorAt q.R d))).sum := fun d => by
    rw [← vector_form F.dom (fun q => q.w) (fun q => q.R) (fun q => vectorAt q.R d) d]
    refine Finset.sum_congr rfl fun k _ => ?_
    congr 1
    exact mulVec_vector F.dom (fun q => q.w) (fun q => q.R) (fun q => q.R) d k
  have h0 : ∀ (d : Fin F.nd → 𝕜), ∀ q ∈ F.dom, 0 ≤ q.w * inner2 (vectorAt q.R d) (vectorAt q.R d) := fun d q hq =>
    mul_nonneg (h.weights q hq).le (inner2_self_nonneg _)
  refine ⟨?_, fun d hd => ?_⟩
  · ext i j
    simp only [transpose_apply, FEM.massD, of_apply]
    congr 1
    refine List.map_congr_left fun q _ => ?_
    unfold dot2
    ring
  · rw [form]
    refine lt_of_le_of_ne (sum_map_nonneg (h0 d)) fun e => hd (funext (h.fluxes d fun q hq => ?_))
    have h2 := sum_nonneg_eq_zero (h0 d) e.symm q hq
    exact inner2_self_eq_zero ((mul_eq_zero.mp h2).resolve_left (h.weights q hq).ne')

/-- the whole of the computations for the conductors -/
theorem solveForAll_congr {E : Engine 𝕜} {model : Model 𝕜} {opts : DriverOptions} {ps : List (PEC 𝕜)}
    (hN : Numbering model.materials ps) (hB : Buildable F model.materials) (hW : WellDeclared model.materials)
    (b : Bool) {P P' : LinSolver 𝕜}
    (h1 : ∀ ess : List (Fin F.n), (∀ i, i ∈ ess ↔ ∃ p ∈ model.materials.pecs, OnBoundary F p.tag i) → ∀ c x0,
      P F.n (eliminated (systemMatrix E.analytic F model.materials b) ess) c x0 =
      P' F.n (eliminated (systemMatrix E.analytic F model.materials b) ess) c x0)
    (h2 : ∀ c x0, P F.nd F.massD c x0 = P' F.nd F.massD c x0) :
    solveForAllConductors { E with pcg := P } F model opts b = solveForAllConductors { E with pcg := P' } F model opts b := by
  obtain ⟨s0, hs0⟩ := make_ok hN hB E.analytic b (E.raw b F)
  obtain ⟨hK, _⟩ := make_system hB hW hs0
  obtain ⟨m1, _, _, m4, _⟩ := make_fields hs0
  have hk : AttrToValueMap.getAttributesAsArray (inputsOf model.materials b).dirichletBoundaries ≠ [] := fun h =>
    inputs_dirichlet_ne hN b (List.map_eq_nil_iff.mp h)
  obtain ⟨ess, e1, e2⟩ := essentialDofs_ok hB.bdr hk (inputs_dirichlet_pos hN hB b) m1
  have he : ∀ i, i ∈ ess ↔ ∃ p ∈ model.materials.pecs, OnBoundary F p.tag i := fun i => by
    rw [e2]
    constructor
    · rintro ⟨a, ha, ho⟩
      obtain ⟨p, hp, rfl⟩ := (dirichlet_keys hN b a).mp ha
      exact ⟨p, hp, ho⟩
    · rintro ⟨p, hp, ho⟩
      exact ⟨p.tag, (dirichlet_keys hN b _).mpr ⟨p, hp, rfl⟩, ho⟩
  unfold solveForAllConductors
  simp only [buildInputs_ok model hB.names, Logged.lift_ok_bind, hs0, hN.idMap]
  exact solveLoop_congr e1 (h1 ess he) h2 _ _ _ _ _ _ ⟨hK, rfl, Or.inl m4⟩

end

section
variable {𝕜 : Type} [Field 𝕜] {F : FEM 𝕜} {mats : Materials 𝕜} {A : Analytic 𝕜}

/-- what a stored potential is -/
theorem Excited.phi {ps : List (PEC 𝕜)} (hN : Numbering mats ps) (hB : Buildable F mats) {b : Bool} {raw : SolverSolution F}
    {s0 : Solver F} (hm : Solver.make A F (inputsOf mats b) raw = .ok s0) {P : LinSolver 𝕜} {tag : Int} {t : SolverSolution F}
    (h : Excited P s0 (SMap.keys (inputsOf mats b).dirichletBoundaries) tag t) :
    ∃ (ess : List (Fin F.n)) (phi0 : Fin F.n → 𝕜), (∀ i, i ∈ ess ↔ ∃ p ∈ mats.pecs, OnBoundary F p.tag i) ∧
      (∀ i, i ∉ ess → phi0 i = 0) ∧
      (∀ i c, i ∈ ess → (∀ p ∈ mats.pecs, OnBoundary F p.tag i → oneVolt tag p.tag = c) → phi0 i = c) ∧
      t.phi = P F.n (eliminated s0.K ess) (Solver.formRhs s0.K (eliminated s0.K ess) ess phi0 (fun _ => 0)) phi0 ∧
      t.e = fun i => -(F.grad *ᵥ t.phi) i := by
  obtain ⟨m1, _, m3, m4, _, m6, _⟩ := make_fields hm
  have hk : AttrToValueMap.getAttributesAsArray (inputsOf mats b).dirichletBoundaries ≠ [] := fun h =>
    inputs_dirichlet_ne hN b (List.map_eq_nil_iff.mp h)
  obtain ⟨ess, e1, e2⟩ := essentialDofs_ok hB.bdr hk (inputs_dirichlet_pos hN hB b) m1
  have iff : ∀ i, (∃ a ∈ SMap.keys (inputsOf mats b).dirichletBoundaries, OnBoundary F a i) ↔
      ∃ p ∈ mats.pecs, OnBoundary F p.tag i := fun i => by
    constructor
    · rintro ⟨a, ha, ho⟩
      obtain ⟨p, hp, rfl⟩ := (dirichlet_keys hN b a).mp ha
      exact ⟨p, hp, ho⟩
    · rintro ⟨p, hp, ho⟩
      exact ⟨p.tag, (dirichlet_keys hN b _).mpr ⟨p, hp, rfl⟩, ho⟩
  have hkeys : SMap.keys (inputsOf mats b).dirichletBoundaries ≠ [] := hk
  obtain ⟨s, s', ⟨⟨hist, hh, hs⟩, hsig⟩, hsolve, rfl⟩ := h
  obtain ⟨_, hel⟩ := runOps_elim hist hs hh e1 (by rw [m3]; exact inputs_dirichlet_ne hN b) (Or.inl m4)
  have hset := runOps_setup hist hs
  obtain ⟨phi0, h1, h2, h3⟩ := applyBoundary_ok hB.bdr hB.bdrAttrs (SMap.keys (inputsOf mats b).dirichletBoundaries)
    (unitVolt (𝕜 := 𝕜) tag) (inputs_dirichlet_pos hN hB b)
  have hsg : s.sigma = fun _ => 0 := by
    rw [hsig]
    have : F.applyBoundary (inputsOf mats b).neumannBoundaries (fun _ => 0) = .ok (fun _ => 0) := rfl
    rw [this] at m6
    exact (Outcome.ok.inj m6).symm
  have he : (s.setDirichletConditions (prescribe (SMap.keys (inputsOf mats b).dirichletBoundaries) (unitVolt (𝕜 := 𝕜) tag))).essTdofs
      = .ok ess := by
    unfold Solver.essTdofs Solver.setDirichletConditions
    simp only
    rw [prescribe_keys, if_pos (List.length_pos_of_ne_nil hkeys), hset.essBdr, e1]
  have hgd : s.elim.getD ess = ess := by
    rcases hel with h | h <;> rw [h] <;> rfl
  unfold Solver.solve at hsolve
  rw [he] at hsolve
  change (F.applyBoundary (prescribe _ _) (fun _ => 0) >>= fun phi0 => _) = Outcome.ok s' at hsolve
  rw [h1, Outcome.ok_bind, Outcome.ok_bind] at hsolve
  have hs' := Outcome.ok.inj hsolve
  have hz : F.surfMass *ᵥ s.sigma = fun _ => 0 := by rw [hsg]; exact mulVec_zero _
  refine ⟨ess, phi0, fun i => (e2 i).trans (iff i), fun i hi => h2 i fun a ha ho => hi ((e2 i).mpr ⟨a, ha, ho⟩), ?_, ?_, ?_⟩
  · intro i c hi hc
    refine h3 i c ((e2 i).mp hi) fun a ha ho => ?_
    obtain ⟨p, hp, rfl⟩ := (dirichlet_keys hN b a).mp ha
    exact hc p hp ho
  · rw [← hs']
    show P F.n (eliminated s.K (s.elim.getD ess)) (Solver.formRhs s.K (eliminated s.K (s.elim.getD ess)) ess phi0
      (F.surfMass *ᵥ s.sigma)) phi0 = _
    rw [hgd, hz, hset.K]
  · rw [← hs']

/-- the prescribed field solves the eliminated system -/
theorem eliminated_solution {n : Nat} {K : Matrix (Fin n) (Fin n) 𝕜} {ess : List (Fin n)} {phi0 u : Fin n → 𝕜}
    (h0 : ∀ i, i ∉ ess → phi0 i = 0) (h1 : ∀ i ∈ ess, u i = phi0 i) (h2 : ∀ i, i ∉ ess → (K *ᵥ u) i = 0) :
    eliminated K ess *ᵥ u = Solver.formRhs K (eliminated K ess) ess phi0 (fun _ => 0) := by
  funext i
  unfold Solver.formRhs
  rw [eliminated_mulVec']
  by_cases hi : i ∈ ess
  · rw [if_pos hi, if_pos hi, eliminated_mulVec', if_pos hi, h1 i hi]
  · rw [if_neg hi, if_neg hi, sub_mulVec, Pi.sub_apply, eliminated_mulVec', if_neg hi]
    have e : (fun j => if j ∈ ess then 0 else u j) = u - phi0 := by
      funext j
      by_cases hj : j ∈ ess
      · simp only [if_pos hj, Pi.sub_apply, h1 j hj, sub_self]
      · simp only [if_neg hj, Pi.sub_apply, h0 j hj, sub_zero]
    have e0 : (fun j => if j ∈ ess then 0 else phi0 j) = 0 := by
      funext j
      by_cases hj : j ∈ ess
      · simp only [if_pos hj, Pi.zero_apply]
      · simp only [if_neg hj, Pi.zero_apply, h0 j hj]
    rw [e, e0, mulVec_sub, Pi.sub_apply, h2 i hi, mulVec_zero, Pi.zero_apply, sub_zero]

theorem eliminated_form_zero {n : Nat} {K : Matrix (Fin n) (Fin n) 𝕜} {ess : List (Fin n)} {x : Fin n → 𝕜}
    (h : ∀ i ∈ ess, x i = 0) : x ⬝ᵥ eliminated K ess *ᵥ x = x ⬝ᵥ K *ᵥ x := by
  have e : (fun j => if j ∈ ess then 0 else x j) = x := by
    funext j
    by_cases hj : j ∈ ess
    · simp only [if_pos hj, h j hj]
    · simp only [if_neg hj]
  rw [eliminated_form, e, Finset.sum_eq_zero, zero_add]
  intro i _
  by_cases hi : i ∈ ess
  · rw [if_pos hi, h i hi, mul_zero, mul_zero]
  · rw [if_neg hi]

theorem eliminated_uncoupled {n : Nat} {K : Matrix (Fin n) (Fin n) 𝕜} {ess : List (Fin n)} {i : Fin n} (hi : i ∈ ess) :
    ∀ j, j ≠ i → eliminated K ess i j = 0 := fun j hj => by
  unfold eliminated
  rw [of_apply, if_pos (Or.inl hi), if_neg (Ne.symm hj)]

end
end Tulip
