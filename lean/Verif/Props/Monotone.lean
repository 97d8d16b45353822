import Verif.Props.Modes

/-!
# C89: raising permittivities raises capacitances
-/

set_option linter.unusedSectionVars false

namespace Tulip.Props
open Tulip Tulip.Spec Matrix

section
variable {𝕜 : Type} [Field 𝕜] [DecidableEq 𝕜] [LinearOrder 𝕜] [IsStrictOrderedRing 𝕜]

/-- The energy of one potential does not fall when permittivities are raised. -/
theorem energy_raised {A : Analytic 𝕜} {F : FEM 𝕜} {mats mats' : Materials 𝕜} {b b' : Bool} (hw : ∀ q ∈ F.dom, 0 < q.w)
    (hopen : mats'.openBoundaries = mats.openBoundaries)
    (heps : ∀ q ∈ F.dom, declaredEps mats b q.attr ≤ declaredEps mats' b' q.attr) (t : SolverSolution F) :
    doubleEnergy A F mats b t ≤ doubleEnergy A F mats' b' t := by
  unfold doubleEnergy
  rw [hopen]
  refine add_le_add (sum_map_le fun q hq => ?_) (le_refl _)
  exact mul_le_mul_of_nonneg_right (mul_le_mul_of_nonneg_left (heps q hq) (hw q hq).le) (inner2_self_nonneg _)

/-- What C89 asks of one of the models: numbered conductors with different tags and no common degree of freedom, a solver
that can be built, nothing declared twice, positive weights and permittivities, fluxes of D that agree with the discrete
equations. -/
structure Comparable (E : Engine 𝕜) (model : Model 𝕜) (opts : DriverOptions) (ps : List (PEC 𝕜)) : Prop where
  numbering : Numbering model.materials ps
  buildable : Buildable (E.fem model opts) model.materials
  declared : WellDeclared model.materials
  elliptic : Elliptic E.analytic (E.fem model opts) model.materials
  tags : (ps.map PEC.tag).Nodup
  separate : Separate (E.fem model opts) model.materials
  conservative : Conservative E.analytic (E.fem model opts) model.materials

/-- The comparison of generalized matrices in one direction. -/
theorem generalized_raised (E : Engine 𝕜) {model : Model 𝕜} {mats' : Materials 𝕜} {opts : DriverOptions} {ps : List (PEC 𝕜)}
    (hP : ExactSolver E.pcg) (h : Comparable E model opts ps) (h' : Comparable E { model with materials := mats' } opts ps)
    (hpec : mats'.pecs = model.materials.pecs) (hopen : mats'.openBoundaries = model.materials.openBoundaries)
    {d : Driver (E.fem model opts)} (hd : (Driver.construct E model opts).1 = .ok d)
    {d' : Driver (E.fem { model with materials := mats' } opts)}
    (hd' : (Driver.construct E { model with materials := mats' } opts).1 = .ok d')
    {o : Openness} (ho : model.determineOpenness = .ok o)
    (ho' : ({ model with materials := mats' } : Model 𝕜).determineOpenness = .ok o) {b b' : Bool} {n : Nat}
    (heps : ∀ q ∈ (E.fem model opts).dom, declaredEps model.materials b q.attr ≤ declaredEps mats' b' q.attr)
    (hn : ps.length = n + 1) {G G' : Matrix (Fin (n + 1)) (Fin (n + 1)) 𝕜}
    (hG : ((Query.generalizedC b).exec E d).1 = .ok (.matrix (DMat.ofMatrix G)))
    (hG' : ((Query.generalizedC b').exec E d').1 = .ok (.matrix (DMat.ofMatrix G'))) (v : Fin (n + 1) → 𝕜) :
    v ⬝ᵥ G.mulVec v ≤ v ⬝ᵥ G'.mulVec v := by
  obtain ⟨V, t, hf, hV, e⟩ := generalized_energy E h.numbering h.buildable h.declared hP h.elliptic.wellPosed h.tags
    h.separate h.conservative hd ho hn hG v
  obtain ⟨U, u, hg, hU, e'⟩ := generalized_energy E h'.numbering h'.buildable h'.declared hP h'.elliptic.wellPosed h'.tags
    h'.separate h'.conservative hd' ho' hn hG' v
  have same : ∀ q ∈ model.materials.pecs, V q.tag = U q.tag := by
    intro q hq
    obtain ⟨i, hi, rfl⟩ := List.getElem_of_mem (h.numbering.all.mem_iff.mpr hq)
    exact (hV ⟨i, by omega⟩).trans (hU ⟨i, by omega⟩).symm
  rw [e, e']
  refine (dirichlet_principle h.elliptic h.separate b hf (u := u) fun q hq k hk => ?_).trans
    (energy_raised h.elliptic.weights hopen heps u)
  rw [same q hq]
  exact hg.at_conductor h'.separate (show q ∈ mats'.pecs by rw [hpec]; exact hq) hk

/-- **C89.** Two models that differ in dielectrics only, the permittivity nowhere lower in the second one: at any conductor
potentials the generalized capacitance matrix of the second one (with or without dielectrics) stores at least as much
energy, at any voltages so does the per-unit-length capacitance matrix; in particular no self capacitance is lower. -/
theorem C89_raised (E : Engine 𝕜) {model : Model 𝕜} {mats' : Materials 𝕜} {opts : DriverOptions} {ps : List (PEC 𝕜)}
    (hP : ExactSolver E.pcg) (h : Comparable E model opts ps) (h' : Comparable E { model with materials := mats' } opts ps)
    (hpec : mats'.pecs = model.materials.pecs) (hopen : mats'.openBoundaries = model.materials.openBoundaries)
    {d : Driver (E.fem model opts)} (hd : (Driver.construct E model opts).1 = .ok d)
    {d' : Driver (E.fem { model with materials := mats' } opts)}
    (hd' : (Driver.construct E { model with materials := mats' } opts).1 = .ok d')
    {o : Openness} (ho : model.determineOpenness = .ok o) (hne : ¬ (ps.length = 1 ∧ o = .closed)) :
    (∀ b b' : Bool, (∀ q ∈ (E.fem model opts).dom, declaredEps model.materials b q.attr ≤ declaredEps mats' b' q.attr) →
      ∃ G G' : Matrix (Fin ps.length) (Fin ps.length) 𝕜,
        ((Query.generalizedC b).exec E d).1 = .ok (.matrix (DMat.ofMatrix G)) ∧
        ((Query.generalizedC b').exec E d').1 = .ok (.matrix (DMat.ofMatrix G')) ∧
        (∀ v, v ⬝ᵥ G.mulVec v ≤ v ⬝ᵥ G'.mulVec v) ∧ ∀ i, G i i ≤ G' i i) ∧
    (0 ≤ E.eps0SI → (∀ q ∈ (E.fem model opts).dom, declaredEps model.materials false q.attr ≤ declaredEps mats' false q.attr) →
      ∀ p p' : PULParameters 𝕜, (Query.pulMTL.exec E d).1 = .ok (.pul p) → (Query.pulMTL.exec E d').1 = .ok (.pul p') →
      ∃ (n : Nat) (C C' : Matrix (Fin n) (Fin n) 𝕜), ps.length = n + 1 ∧ p.C = DMat.ofMatrix C ∧ p'.C = DMat.ofMatrix C' ∧
        p'.L = p.L ∧ (∀ w, w ⬝ᵥ C.mulVec w ≤ w ⬝ᵥ C'.mulVec w) ∧ ∀ i, C i i ≤ C' i i) := by
  have ho' : ({ model with materials := mats' } : Model 𝕜).determineOpenness = .ok o := by
    rw [← ho]
    unfold Model.determineOpenness
    simp only [hopen]
  have diag : ∀ {m : Nat} {G G' : Matrix (Fin m) (Fin m) 𝕜}, (∀ v, v ⬝ᵥ G.mulVec v ≤ v ⬝ᵥ G'.mulVec v) →
      ∀ i, G i i ≤ G' i i := by
    intro m G G' h i
    simpa using h (Pi.single i 1)
  have full : ∀ {b b' : Bool} {n : Nat}, (∀ q ∈ (E.fem model opts).dom,
      declaredEps model.materials b q.attr ≤ declaredEps mats' b' q.attr) → ps.length = n + 1 →
      ∀ {G G' : Matrix (Fin (n + 1)) (Fin (n + 1)) 𝕜},
        ((Query.generalizedC b).exec E d).1 = .ok (.matrix (DMat.ofMatrix G)) →
        ((Query.generalizedC b').exec E d').1 = .ok (.matrix (DMat.ofMatrix G')) →
        ∀ v, v ⬝ᵥ G.mulVec v ≤ v ⬝ᵥ G'.mulVec v :=
    fun heps hn _ _ hG hG' => generalized_raised E hP h h' hpec hopen hd hd' ho ho' heps hn hG hG'
  constructor
  · intro b b' heps
    obtain ⟨n, hn⟩ : ∃ n, ps.length = n + 1 := by
      have := List.length_pos_of_ne_nil h.numbering.nonempty
      exact ⟨ps.length - 1, by omega⟩
    obtain ⟨G, hG, _⟩ := (C77_passive E h.numbering h.buildable h.declared hP h.elliptic h.tags h.separate h.conservative hd ho
      hne).1 b
    obtain ⟨G', hG', _⟩ := (C77_passive E h'.numbering h'.buildable h'.declared hP h'.elliptic h'.tags h'.separate
      h'.conservative hd' ho' hne).1 b'
    refine ⟨G, G', hG, hG', ?_⟩
    have key : ∀ N, ps.length = N → ∀ G G' : Matrix (Fin N) (Fin N) 𝕜,
        ((Query.generalizedC b).exec E d).1 = .ok (.matrix (DMat.ofMatrix G)) →
        ((Query.generalizedC b').exec E d').1 = .ok (.matrix (DMat.ofMatrix G')) →
        ∀ v, v ⬝ᵥ G.mulVec v ≤ v ⬝ᵥ G'.mulVec v := by
      rintro N hN G G' hG hG' v
      have : N = n + 1 := by omega
      subst this
      exact full heps hn hG hG' v
    have := key _ rfl G G' hG hG'
    exact ⟨this, diag this⟩
  · intro heps0 heps p p' hp hp'
    obtain ⟨n, G, G0, C, C0, hn, hG, hG0, hC, hC0, eC, _, hdet, eL, _, _⟩ := C35_inductance E h.numbering hd ho hp
    obtain ⟨n', G', G0', C', C0', hn', hG', hG0', hC', hC0', eC', _, hdet', eL', _, _⟩ :=
      C35_inductance E h'.numbering hd' ho' hp'
    have : n' = n := by omega
    subst this
    have psd : ∀ {b : Bool} {G : Matrix (Fin (n' + 1)) (Fin (n' + 1)) 𝕜},
        ((Query.generalizedC b).exec E d).1 = .ok (.matrix (DMat.ofMatrix G)) → PSD G := by
      intro b G hG
      obtain ⟨M, e, hM⟩ := (C77_passive E h.numbering h.buildable h.declared hP h.elliptic h.tags h.separate h.conservative hd
        ho hne).1 b
      revert M
      rw [hn]
      intro M e hM
      rw [ofMatrix_eq (Answer.matrix.inj (Outcome.ok.inj (hG.symm.trans e)))]
      exact hM
    have symm' : G0'.IsSymm := by
      obtain ⟨M, e, hM⟩ := (C77_passive E h'.numbering h'.buildable h'.declared hP h'.elliptic h'.tags h'.separate
        h'.conservative hd' ho' hne).1 true
      revert M
      rw [hn]
      intro M e hM
      rw [ofMatrix_eq (Answer.matrix.inj (Outcome.ok.inj (hG0'.symm.trans e)))]
      exact hM.1
    have sum : ∀ (M : Matrix (Fin (n' + 1)) (Fin (n' + 1)) 𝕜), M.IsSymm → ∀ i j,
        (Pi.single i 1 + Pi.single j 1) ⬝ᵥ M.mulVec (Pi.single i 1 + Pi.single j 1) = M i i + M j j + 2 * M i j := by
      intro M hM i j
      rw [mulVec_add, add_dotProduct, dotProduct_add, dotProduct_add]
      simp only [mulVec_single_one, single_one_dotProduct, Matrix.col_apply]
      rw [hM.apply i j]
      ring
    have same : G0' = G0 := by
      have a := full (b := true) (b' := true) (fun q _ => by rw [declaredEps_true, declaredEps_true]) hn hG0 hG0'
      have c := generalized_raised E (model := { model with materials := mats' }) (mats' := model.materials) hP h' h
        hpec.symm hopen.symm hd' hd ho' ho (b := true) (b' := true)
        (fun q _ => by rw [declaredEps_true, declaredEps_true]) hn hG0' hG0
      have eq : ∀ v, v ⬝ᵥ G0'.mulVec v = v ⬝ᵥ G0.mulVec v := fun v => le_antisymm (c v) (a v)
      have dg : ∀ i, G0' i i = G0 i i := fun i => by simpa using eq (Pi.single i 1)
      ext i j
      have := eq (Pi.single i 1 + Pi.single j 1)
      rw [sum _ symm', sum _ (psd hG0).1, dg, dg] at this
      linarith
    have red : ∀ w, w ⬝ᵥ (E.eps0SI • C).mulVec w ≤ w ⬝ᵥ (E.eps0SI • C').mulVec w := by
      intro w
      rw [smul_mulVec, smul_mulVec, dotProduct_smul, dotProduct_smul, smul_eq_mul, smul_eq_mul]
      refine mul_le_mul_of_nonneg_left ?_ heps0
      rcases Nat.eq_zero_or_pos n' with h0 | h0
      · subst h0
        simp [dotProduct]
      obtain ⟨v, hop, hv, e⟩ := reduced_operated hC' h0 w
      rw [e]
      exact (reduced_least (psd hG) hC h0 hv (fun hcl => by rw [if_pos hcl] at hop; exact hop)).trans (full heps hn hG hG' v)
    refine ⟨n', _, _, hn, eC, eC', ?_, red, diag red⟩
    rw [eL, eL']
    subst same
    rw [ofMatrix_eq (Outcome.ok.inj (hC0'.symm.trans hC0))]

end

/-- `wires` without its dielectrics -/
def bareMats : Materials ℚ := { wires.materials with dielectrics := [] }

def bare : Model ℚ := { wires with materials := bareMats }

theorem bare_eps (b : Bool) : declaredEps bareMats b = declaredEps wires.materials true := by
  funext tag
  cases b <;> rfl

theorem bare_comparable (opts : DriverOptions) : Comparable lineEngine bare opts wiresPs where
  numbering := ⟨wires_numbering.all, wires_numbering.ids, wires_numbering.nonempty⟩
  buildable :=
    have h := wires_buildable opts
    ⟨h.bdr, h.bdrAttrs, h.points, h.pecs, h.opens, List.nodup_nil, fun x hx => by cases hx⟩
  declared := ⟨List.nodup_nil, List.nodup_nil, wires_declared.opens⟩
  elliptic :=
    have h := wires_elliptic
    ⟨h.weights, fun x hx => (by cases hx), h.opens, h.nodes, h.potentials, h.fluxes⟩
  tags := by decide +kernel
  separate := wires_separate
  conservative := by
    intro b V t ht p hp
    have e := bare_eps b
    have := wires_conservative true V t ⟨ht.values, fun k hk => by rw [← e]; exact ht.equations k hk, ht.e,
      by rw [← e]; exact ht.d⟩ p hp
    refine this.trans ?_
    unfold reaction
    rw [← e]
    rfl

theorem wires_comparable (opts : DriverOptions) : Comparable lineEngine wires opts wiresPs :=
  ⟨wires_numbering, wires_buildable opts, wires_declared, wires_elliptic, by decide +kernel, wires_separate,
    wires_conservative⟩

/-- The hypotheses of `C89_raised` hold for `wires` and the same model without dielectrics. -/
example (opts : DriverOptions) : ∃ (d : Driver (lineEngine.fem bare opts)) (d' : Driver (lineEngine.fem wires opts))
    (p p' : PULParameters ℚ) (n : Nat) (C C' : Matrix (Fin n) (Fin n) ℚ), (Driver.construct lineEngine bare opts).1 = .ok d ∧
    (Driver.construct lineEngine wires opts).1 = .ok d' ∧ (Query.pulMTL.exec lineEngine d).1 = .ok (.pul p) ∧
    (Query.pulMTL.exec lineEngine d').1 = .ok (.pul p') ∧ p.C = DMat.ofMatrix C ∧ p'.C = DMat.ofMatrix C' ∧
    ∀ i, C i i ≤ C' i i := by
  have h := bare_comparable opts
  have h' := wires_comparable opts
  have ho : bare.determineOpenness = .ok .open_ := wires_open
  obtain ⟨d, hd, _⟩ := (C27_accepts lineEngine bare opts (by decide +kernel) h.numbering.readable).2 ⟨_, h.numbering⟩ h.buildable
  obtain ⟨d', hd', _⟩ := (C27_accepts lineEngine wires opts (by decide +kernel) h'.numbering.readable).2 ⟨_, h'.numbering⟩
    h'.buildable
  obtain ⟨_, p, _, _, _, hp, _⟩ := (C77_passive lineEngine h.numbering h.buildable h.declared inverseSolver_exact h.elliptic
    h.tags h.separate h.conservative hd ho (by decide)).2 ⟨line_onePiece.constant, line_onePiece.nodes⟩ (fun _ => line_absorbing)
    (by decide +kernel) (by decide +kernel)
  obtain ⟨_, p', _, _, _, hp', _⟩ := (C77_passive lineEngine h'.numbering h'.buildable h'.declared inverseSolver_exact
    h'.elliptic h'.tags h'.separate h'.conservative hd' wires_open (by decide)).2 line_onePiece (fun _ => line_absorbing)
    (by decide +kernel) (by decide +kernel)
  obtain ⟨n, C, C', _, e, e', _, _, hC⟩ := (C89_raised lineEngine (model := bare) (mats' := wires.materials) inverseSolver_exact
    h h' rfl rfl hd hd' ho (by decide)).2 (by decide +kernel)
    (show ∀ q ∈ line.dom, declaredEps bare.materials false q.attr ≤ declaredEps wires.materials false q.attr by decide +kernel)
    p p' hp hp'
  exact ⟨d, d', p, p', n, C, C', hd, hd', hp, hp', e, e', hC⟩

end Tulip.Props
