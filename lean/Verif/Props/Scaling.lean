import Verif.Props.Redeclared
import Verif.Props.Signs

/-!
# C97: scaling all permittivities, and lines in a homogeneous dielectric
-/

set_option linter.unusedSectionVars false

namespace Tulip.Props
open Tulip Tulip.Spec Matrix

section
variable {𝕜 : Type} [Field 𝕜] [DecidableEq 𝕜] [LinearOrder 𝕜] [IsStrictOrderedRing 𝕜]

/-- Permittivities `k` times those of other materials, with the same conductors and no open boundaries. -/
structure Multiplied (F : FEM 𝕜) (mats mats' : Materials 𝕜) (b b' : Bool) (k : 𝕜) : Prop where
  pecs : mats'.pecs = mats.pecs
  closed : mats.openBoundaries = []
  closed' : mats'.openBoundaries = []
  factor : k ≠ 0
  eps : ∀ q ∈ F.dom, declaredEps mats' b' q.attr = k * declaredEps mats b q.attr

theorem Multiplied.weakForm {A : Analytic 𝕜} {F : FEM 𝕜} {mats mats' : Materials 𝕜} {b b' : Bool} {k : 𝕜}
    (h : Multiplied F mats mats' b b' k) (u : Fin F.n → 𝕜) (i : Fin F.n) :
    weakForm A F (declaredEps mats' b') (mats'.openBoundaries.map OpenBoundary.tag) u i =
      k * weakForm A F (declaredEps mats b) (mats.openBoundaries.map OpenBoundary.tag) u i := by
  unfold Spec.weakForm
  rw [h.closed, h.closed', mul_add]
  congr 1
  · rw [← List.sum_map_mul_left]
    refine congrArg List.sum (List.map_congr_left fun q hq => ?_)
    rw [h.eps q hq]
    ring
  · simp

/-- The potential and E are the same, D is `k` times the other one. -/
theorem Multiplied.field {A : Analytic 𝕜} {F : FEM 𝕜} {mats mats' : Materials 𝕜} {b b' : Bool} {k : 𝕜}
    (h : Multiplied F mats mats' b b' k) {V : Int → 𝕜} {t : SolverSolution F} (ht : PrescribedField A F mats b V t) :
    PrescribedField A F mats' b' V { phi := t.phi, e := t.e, d := fun j => k * t.d j } where
  values := by rw [h.pecs]; exact ht.values
  equations := by
    intro j hj
    rw [h.pecs] at hj
    rw [h.weakForm]
    show k * Spec.weakForm A F _ _ t.phi j = 0
    rw [ht.equations j hj, mul_zero]
  e := ht.e
  d := by
    intro j
    have e := ht.d j
    have l : (F.dom.map (fun q => q.w * inner2 (q.R j) (vectorAt q.R fun j => k * t.d j))).sum =
        k * (F.dom.map (fun q => q.w * inner2 (q.R j) (vectorAt q.R t.d))).sum := by
      rw [← List.sum_map_mul_left]
      refine congrArg List.sum (List.map_congr_left fun q _ => ?_)
      have : vectorAt q.R (fun j => k * t.d j) = (k * (vectorAt q.R t.d).1, k * (vectorAt q.R t.d).2) := by
        unfold vectorAt
        simp only [Finset.mul_sum, Prod.mk.injEq]
        constructor <;> exact Finset.sum_congr rfl fun _ _ => by ring
      rw [this]
      unfold inner2
      ring
    show (F.dom.map (fun q => q.w * inner2 (q.R j) (vectorAt q.R fun j => k * t.d j))).sum = _
    rw [l, e, ← List.sum_map_mul_left]
    refine congrArg List.sum (List.map_congr_left fun q hq => ?_)
    rw [h.eps q hq]
    ring

theorem chargeOn_mul {F : FEM 𝕜} (t : SolverSolution F) (k : 𝕜) (tag : Int) :
    chargeOn ({ phi := t.phi, e := t.e, d := fun j => k * t.d j } : SolverSolution F) tag = k * chargeOn t tag := by
  unfold chargeOn outwardFlux scalarAt
  rw [mul_neg, ← List.sum_map_mul_left]
  refine congrArg (fun x : 𝕜 => -x) (congrArg List.sum (List.map_congr_left fun q _ => ?_))
  rw [Finset.mul_sum]
  exact Finset.sum_congr rfl fun _ _ => by ring

/-- Two models that differ in dielectrics only. -/
structure Dielectrics (E : Engine 𝕜) (model : Model 𝕜) (mats' : Materials 𝕜) (opts : DriverOptions) (ps : List (PEC 𝕜)) : Prop where
  numbering : Numbering model.materials ps
  numbering' : Numbering mats' ps
  buildable : Buildable (E.fem model opts) model.materials
  buildable' : Buildable (E.fem model opts) mats'
  declared : WellDeclared model.materials
  declared' : WellDeclared mats'
  solver : ExactSolver E.pcg
  wellPosed : WellPosed E.analytic (E.fem model opts) model.materials
  wellPosed' : WellPosed E.analytic (E.fem model opts) mats'
  separate : Separate (E.fem model opts) model.materials

theorem closed_openness {model : Model 𝕜} (h : model.materials.openBoundaries = []) : model.determineOpenness = .ok .closed := by
  unfold Model.determineOpenness
  rw [h]
  rfl

theorem generalized_multiplied {E : Engine 𝕜} {model : Model 𝕜} {mats' : Materials 𝕜} {opts : DriverOptions} {ps : List (PEC 𝕜)}
    (h : Dielectrics E model mats' opts ps) {b b' : Bool} {k : 𝕜} (hm : Multiplied (E.fem model opts) model.materials mats' b b' k)
    {d : Driver (E.fem model opts)} {d' : Driver (E.fem { model with materials := mats' } opts)}
    (hd : (Driver.construct E model opts).1 = .ok d) (hd' : (Driver.construct E { model with materials := mats' } opts).1 = .ok d')
    {n : Nat} {M : Matrix (Fin n) (Fin n) 𝕜} (hM : ((Query.generalizedC b).exec E d).1 = .ok (.matrix (DMat.ofMatrix M))) :
    ((Query.generalizedC b').exec E d').1 = .ok (.matrix (DMat.ofMatrix (k • M))) := by
  have ho := closed_openness hm.closed
  have ho' : ({ model with materials := mats' } : Model 𝕜).determineOpenness = .ok .closed := closed_openness hm.closed'
  have e1 : d.model.determineOpenness = .ok .closed := by rw [(construct_opts hd).2]; exact ho
  have e2 : d'.model.determineOpenness = .ok .closed := by rw [(construct_opts hd').2]; exact ho'
  by_cases hc : ps.length = 1 ∧ Openness.closed = .closed
  · have j := (C31_generalized E h.numbering hd ho b).1 hc
    rw [hM] at j
    cases j
  obtain ⟨sols, hr, f⟩ := construct_fields E h.numbering h.buildable h.declared h.solver h.wellPosed hd b
  obtain ⟨sols', hr', f'⟩ := construct_fields E (model := { model with materials := mats' }) h.numbering' h.buildable' h.declared' h.solver
    h.wellPosed' hd' b'
  obtain ⟨d1, k1, _⟩ := getGeneralizedCMatrix_spec hr e1 hc
  obtain ⟨d2, k2, _⟩ := getGeneralizedCMatrix_spec hr' e2 hc
  rw [exec_generalizedC, k1] at hM
  rw [exec_generalizedC, k2]
  have m1 : DMat.ofMatrix (symPart (rawCharges ps sols hr.len)) = DMat.ofMatrix M := Answer.matrix.inj (Outcome.ok.inj hM)
  have hs' : Separate (E.fem model opts) mats' := by
    unfold Separate
    rw [hm.pecs]
    exact h.separate
  have hl : ps.length = n := (DMat.mk.inj m1).1
  have key : ∀ i j (hi : i < ps.length) (hj : j < ps.length),
      chargeOn (sols'[i]'(by rw [hr'.len]; exact hi)) ps[j].tag = k * chargeOn (sols[i]'(by rw [hr.len]; exact hi)) ps[j].tag := by
    intro i j hi hj
    have g := hm.field (f i hi (by rw [hr.len]; exact hi))
    have g' := f' i hi (by rw [hr'.len]; exact hi)
    rw [Spec.PrescribedField.unique h.wellPosed' hs' g' g]
    exact chargeOn_mul _ _ _
  have m2 : DMat.ofMatrix (symPart (rawCharges ps sols' hr'.len)) = DMat.ofMatrix (k • M) := by
    refine ofMatrix_congr hl fun i j hi hj => ?_
    rw [Matrix.smul_apply, ofMatrix_entries m1 hl]
    have a1 := key i j hi hj
    have a2 := key j i hj hi
    unfold symPart rawCharges
    simp only [Matrix.of_apply, Fin.getElem_fin, Fin.val_cast, Fin.val_mk]
    rw [smul_eq_mul, a1, a2]
    ring
  show Outcome.ok (Answer.matrix _) = _
  rw [m2]

theorem floating_smul {n : Nat} {C : Matrix (Fin n) (Fin n) 𝕜} {k : 𝕜} (hk : k ≠ 0) {i : Fin n} {v : Fin n → 𝕜} :
    Spec.FloatingPotentials (k • C) i v ↔ Spec.FloatingPotentials C i v := by
  unfold Spec.FloatingPotentials charges
  simp only [Matrix.smul_mulVec, Pi.smul_apply, smul_eq_mul, mul_eq_zero, hk, false_or]

theorem floating_multiplied {E : Engine 𝕜} {model : Model 𝕜} {mats' : Materials 𝕜} {opts : DriverOptions} {ps : List (PEC 𝕜)}
    (h : Dielectrics E model mats' opts ps) {b b' : Bool} {k : 𝕜} (hm : Multiplied (E.fem model opts) model.materials mats' b b' k)
    {d : Driver (E.fem model opts)} {d' : Driver (E.fem { model with materials := mats' } opts)}
    (hd : (Driver.construct E model opts).1 = .ok d) (hd' : (Driver.construct E { model with materials := mats' } opts).1 = .ok d') :
    ((Query.floatingMatrix b').exec E d').1 = ((Query.floatingMatrix b).exec E d).1 := by
  have ho := closed_openness hm.closed
  have ho' : ({ model with materials := mats' } : Model 𝕜).determineOpenness = .ok .closed := closed_openness hm.closed'
  obtain ⟨n, hn⟩ : ∃ n, ps.length = n + 1 := by
    have := List.length_pos_of_ne_nil h.numbering.nonempty
    exact ⟨ps.length - 1, by omega⟩
  have c := C36_driver E h.numbering hd ho b hn
  have c' := C36_driver E (model := { model with materials := mats' }) h.numbering' hd' ho' b' hn
  rcases Nat.eq_zero_or_pos n with h0 | h0
  · rw [c.1 h0, c'.1 h0]
  obtain ⟨G, hG, _, hC, _⟩ := c.2 h0
  obtain ⟨G', hG', _, hC', _⟩ := c'.2 h0
  obtain ⟨C, eC, C1, C2⟩ := hC rfl
  obtain ⟨C', eC', C1', C2'⟩ := hC' rfl
  have eG : G' = k • G := by
    have := generalized_multiplied h hm hd hd' hG
    rw [hG'] at this
    exact ofMatrix_eq (Answer.matrix.inj (Outcome.ok.inj this))
  have e : C' = k • C := by
    ext i j
    have a := eC (Pi.single j 1) i
    have a' := eC' (Pi.single j 1) i
    rw [eG] at a'
    unfold charges at a a'
    rw [Matrix.smul_mulVec, Pi.smul_apply, ← a] at a'
    simpa using a'
  subst e
  simp only [floating_smul hm.factor] at C1' C2'
  by_cases hu : ∀ i, ∃! v, Spec.FloatingPotentials C i v
  · obtain ⟨R, r, hR⟩ := C1 hu
    obtain ⟨R', r', hR'⟩ := C1' hu
    rw [r, r', show R' = R from funext fun i => (hu i).unique (hR' i) (hR i)]
  · rw [not_forall] at hu
    rw [C2 hu, C2' hu]

theorem getC_smul {n : Nat} {G : Matrix (Fin (n + 1)) (Fin (n + 1)) 𝕜} {C : Matrix (Fin n) (Fin n) 𝕜}
    (h : getCFromGeneralizedC (DMat.ofMatrix G) .closed = .ok (DMat.ofMatrix C)) (k : 𝕜) :
    getCFromGeneralizedC (DMat.ofMatrix (k • G)) .closed = .ok (DMat.ofMatrix (k • C)) := by
  rw [getC_closed] at h ⊢
  rw [← ofMatrix_eq (Outcome.ok.inj h)]
  rfl

/-- **C97, scaling.** A closed model in which all relative permittivities are multiplied by `k` has `k` times the generalized
and per-unit-length capacitances; the matrices without dielectrics, inductances and floating potentials are the same. -/
theorem C97_scaled (E : Engine 𝕜) {model : Model 𝕜} {mats' : Materials 𝕜} {opts : DriverOptions} {ps : List (PEC 𝕜)}
    (hN : Numbering model.materials ps) (hB : Buildable (E.fem model opts) model.materials) (hB' : Buildable (E.fem model opts) mats')
    (hW : WellDeclared model.materials) (hW' : WellDeclared mats') (hP : ExactSolver E.pcg)
    (hw : WellPosed E.analytic (E.fem model opts) model.materials) (hs : Separate (E.fem model opts) model.materials)
    (hpec : mats'.pecs = model.materials.pecs) (hc : model.materials.openBoundaries = []) (hc' : mats'.openBoundaries = []) {k : 𝕜} (hk : k ≠ 0)
    (heps : ∀ q ∈ (E.fem model opts).dom, declaredEps mats' false q.attr = k * declaredEps model.materials false q.attr) :
    ∃ d d', (Driver.construct E model opts).1 = .ok d ∧ (Driver.construct E { model with materials := mats' } opts).1 = .ok d' ∧
      (∀ (b : Bool) (n : Nat) (G : Matrix (Fin n) (Fin n) 𝕜), ((Query.generalizedC b).exec E d).1 = .ok (.matrix (DMat.ofMatrix G)) →
        ((Query.generalizedC b).exec E d').1 = .ok (.matrix (DMat.ofMatrix (if b then G else k • G)))) ∧
      (∀ b, ((Query.floatingMatrix b).exec E d').1 = ((Query.floatingMatrix b).exec E d).1) ∧
      ∀ p, (Query.pulMTL.exec E d).1 = .ok (.pul p) → ∃ (n : Nat) (C : Matrix (Fin n) (Fin n) 𝕜), ps.length = n + 1 ∧ p.C = DMat.ofMatrix C ∧
        (Query.pulMTL.exec E d').1 = .ok (.pul { p with C := DMat.ofMatrix (k • C) }) := by
  have m0 : Multiplied (E.fem model opts) model.materials mats' false false k := ⟨hpec, hc, hc', hk, heps⟩
  have m1 : Multiplied (E.fem model opts) model.materials mats' true true 1 := ⟨hpec, hc, hc', one_ne_zero, fun q _ => (one_mul _).symm⟩
  have hw' : WellPosed E.analytic (E.fem model opts) mats' := by
    have all : ∀ b : Bool, ∃ j, Multiplied (E.fem model opts) model.materials mats' b b j := fun b => by cases b; exacts [⟨_, m0⟩, ⟨_, m1⟩]
    refine ⟨fun b u h0 h => ?_, fun b j hj => ?_, hw.projection⟩
    · obtain ⟨j, m⟩ := all b
      rw [hpec] at h0 h
      refine hw.unique b u h0 fun i hi => ?_
      have := h i hi
      rw [m.weakForm] at this
      exact (mul_eq_zero.mp this).resolve_left m.factor
    · obtain ⟨x, m⟩ := all b
      rw [hpec] at hj
      rw [m.weakForm]
      exact mul_ne_zero m.factor (hw.diagonal b j hj)
  have hN' : Numbering mats' ps := ⟨by rw [hpec]; exact hN.all, hN.ids, hN.nonempty⟩
  have D : Dielectrics E model mats' opts ps := ⟨hN, hN', hB, hB', hW, hW', hP, hw, hw', hs⟩
  obtain ⟨d, _, _, _, _, e, _⟩ := construct_spec E hN hB
  obtain ⟨d', _, _, _, _, e', _⟩ := construct_spec E (model := { model with materials := mats' }) hN' hB'
  have hd : (Driver.construct E model opts).1 = .ok d := by rw [e]
  have hd' : (Driver.construct E { model with materials := mats' } opts).1 = .ok d' := by rw [e']
  have gen : ∀ (b : Bool) (n : Nat) (G : Matrix (Fin n) (Fin n) 𝕜), ((Query.generalizedC b).exec E d).1 = .ok (.matrix (DMat.ofMatrix G)) →
      ((Query.generalizedC b).exec E d').1 = .ok (.matrix (DMat.ofMatrix (if b then G else k • G))) := by
    intro b n G hG
    cases b
    · exact generalized_multiplied D m0 hd hd' hG
    · have := generalized_multiplied D m1 hd hd' hG
      rw [one_smul] at this
      exact this
  refine ⟨d, d', hd, hd', gen, fun b => ?_, fun p hp => ?_⟩
  · cases b
    · exact floating_multiplied D m0 hd hd'
    · exact floating_multiplied D m1 hd hd'
  · obtain ⟨n, G, G0, C, C0, hn, g, g0, hC, hC0, h1, _, hdet, h2, _⟩ := C35_inductance E hN hd (closed_openness hc) hp
    obtain ⟨p', r, r1, r2⟩ := pul_of_matrices E (model := { model with materials := mats' }) hN' hd' (closed_openness hc') (gen _ _ _ g) (gen _ _ _ g0)
      (getC_smul hC k) hC0 hdet
    refine ⟨n, _, hn, h1, ?_⟩
    rw [r]
    obtain ⟨L, C1⟩ := p'
    simp only at r1 r2
    rw [r1, r2, h2, smul_comm k]

/-- **C97, homogeneous dielectric.** A closed line whose cross-section has the relative permittivity `er` everywhere has `er`
times the generalized capacitance without dielectrics, the same floating potentials as without, and `L C = C L = mu0 eps0 er`. -/
theorem C97_homogeneous (E : Engine 𝕜) {model : Model 𝕜} {opts : DriverOptions} {ps : List (PEC 𝕜)}
    (hN : Numbering model.materials ps) (hB : Buildable (E.fem model opts) model.materials)
    (hW : WellDeclared model.materials) (hP : ExactSolver E.pcg)
    (hw : WellPosed E.analytic (E.fem model opts) model.materials) (hs : Separate (E.fem model opts) model.materials)
    (hc : model.materials.openBoundaries = []) {er : 𝕜} (hk : er ≠ 0)
    (heps : ∀ q ∈ (E.fem model opts).dom, declaredEps model.materials false q.attr = er) :
    ∃ d, (Driver.construct E model opts).1 = .ok d ∧
      (∀ (n : Nat) (G : Matrix (Fin n) (Fin n) 𝕜), ((Query.generalizedC true).exec E d).1 = .ok (.matrix (DMat.ofMatrix G)) →
        ((Query.generalizedC false).exec E d).1 = .ok (.matrix (DMat.ofMatrix (er • G)))) ∧
      ((Query.floatingMatrix false).exec E d).1 = ((Query.floatingMatrix true).exec E d).1 ∧
      ∀ p, (Query.pulMTL.exec E d).1 = .ok (.pul p) → ∃ (n : Nat) (C L : Matrix (Fin n) (Fin n) 𝕜), ps.length = n + 1 ∧
        p.C = DMat.ofMatrix C ∧ p.L = DMat.ofMatrix L ∧ L * C = (E.mu0SI * E.eps0SI * er) • 1 ∧ C * L = (E.mu0SI * E.eps0SI * er) • 1 := by
  have m : Multiplied (E.fem model opts) model.materials model.materials true false er :=
    ⟨rfl, hc, hc, hk, fun q hq => by rw [heps q hq]; exact (mul_one er).symm⟩
  have D : Dielectrics E model model.materials opts ps := ⟨hN, hN, hB, hB, hW, hW, hP, hw, hw, hs⟩
  obtain ⟨d, _, _, _, _, e, _⟩ := construct_spec E hN hB
  have hd : (Driver.construct E model opts).1 = .ok d := by rw [e]
  have gen : ∀ (n : Nat) (G : Matrix (Fin n) (Fin n) 𝕜), ((Query.generalizedC true).exec E d).1 = .ok (.matrix (DMat.ofMatrix G)) →
      ((Query.generalizedC false).exec E d).1 = .ok (.matrix (DMat.ofMatrix (er • G))) :=
    fun n G hG => generalized_multiplied D m hd hd hG
  refine ⟨d, hd, gen, floating_multiplied D m hd hd, fun p hp => ?_⟩
  obtain ⟨n, G, G0, C, C0, hn, g, g0, hC, hC0, h1, _, hdet, h2, _⟩ := C35_inductance E hN hd (closed_openness hc) hp
  have eG : G = er • G0 := by
    have := gen _ _ g0
    rw [g] at this
    exact ofMatrix_eq (Answer.matrix.inj (Outcome.ok.inj this))
  have eC : C = er • C0 := by
    have := getC_smul hC0 er
    rw [← eG, hC] at this
    exact ofMatrix_eq (Outcome.ok.inj this)
  have u : IsUnit C0.det := isUnit_iff_ne_zero.mpr hdet
  refine ⟨n, _, _, hn, h1, h2, ?_, ?_⟩
  · rw [eC, Matrix.smul_mul, Matrix.mul_smul, Matrix.mul_smul, Matrix.nonsing_inv_mul _ u, smul_smul, smul_smul, mul_assoc]
  · rw [eC, Matrix.smul_mul, Matrix.mul_smul, Matrix.smul_mul, Matrix.mul_nonsing_inv _ u, smul_smul, smul_smul]
    ring_nf

end
end Tulip.Props
