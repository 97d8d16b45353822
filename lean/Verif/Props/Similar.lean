import Verif.Props.PUL
import Verif.Props.Multipolar
import Verif.Props.Uniqueness
import Verif.Proofs.Similar

/-!
# C75: position, orientation and unit of length
-/

set_option linter.unusedSectionVars false

namespace Tulip.Props
open Tulip Tulip.Spec Matrix

section
variable {𝕜 : Type} [Field 𝕜] [DecidableEq 𝕜] [LinearOrder 𝕜]

/-- The fields stored by a driver have the stated excitation. -/
theorem construct_fields (E : Engine 𝕜) {model : Model 𝕜} {opts : DriverOptions} {ps : List (PEC 𝕜)}
    (hN : Numbering model.materials ps) (hB : Buildable (E.fem model opts) model.materials)
    (hW : WellDeclared model.materials) (hP : ExactSolver E.pcg)
    (hw : WellPosed E.analytic (E.fem model opts) model.materials)
    {d : Driver (E.fem model opts)} (hd : (Driver.construct E model opts).1 = .ok d) (b : Bool) :
    ∃ sols : List (SolverSolution (E.fem model opts)), Ready b ps sols d ∧
      ∀ i (hi : i < ps.length) (hi' : i < sols.length),
        PrescribedField E.analytic (E.fem model opts) model.materials b (oneVolt ps[i].tag) sols[i] := by
  obtain ⟨sols, hl, hs, h⟩ := C29_excitation E hN hB d hd b
  exact ⟨sols, ⟨by rw [(construct_opts hd).2]; exact hN, hl, hs⟩, fun i hi hi' => (h i hi hi').2 hW hP hw⟩

theorem charges_moved {A : Analytic 𝕜} {F F' : FEM 𝕜} {mats : Materials 𝕜} {g : Similarity 𝕜} (hF : F' = movedFEM g F)
    (hA : AbsorbsAlike g A F mats) (hw : WellPosed A F mats) (hs : Separate F mats) {b : Bool} {V : Int → 𝕜}
    {t : SolverSolution F} {u : SolverSolution F'} (ht : PrescribedField A F mats b V t)
    (hu : PrescribedField A F' (movedMats g mats) b V u) (tag : Int) : chargeOn u tag = chargeOn t tag := by
  subst hF
  rw [chargeOn_moved, (field_moved hA hu).unique hw hs ht]

/-- **C75** (partial: the absorbing coefficient must change like an inverse length on the open boundaries, which the
solver's does only for turns about the origin). Turning, scaling and moving a model does not change what is computed from
its generalized capacitance matrices: these matrices, the per-unit-length parameters, the floating potentials. -/
theorem C75_similarity_partial (E : Engine 𝕜) {model : Model 𝕜} {opts opts' : DriverOptions} {ps : List (PEC 𝕜)}
    (hN : Numbering model.materials ps) (hB : Buildable (E.fem model opts) model.materials)
    (hW : WellDeclared model.materials) (hP : ExactSolver E.pcg)
    (hw : WellPosed E.analytic (E.fem model opts) model.materials) (hs : Separate (E.fem model opts) model.materials)
    (g : Similarity 𝕜) (hF : E.fem (movedModel g model) opts' = movedFEM g (E.fem model opts))
    (hA : AbsorbsAlike g E.analytic (E.fem model opts) model.materials) :
    (∃ d, (Driver.construct E model opts).1 = .ok d) ∧ (∃ d, (Driver.construct E (movedModel g model) opts').1 = .ok d) ∧
    ∀ d d', (Driver.construct E model opts).1 = .ok d → (Driver.construct E (movedModel g model) opts').1 = .ok d' →
      ∀ (history history' : List Query) (q : Query), q.FromMatrices →
        (q.exec E (afterQueries E history' d')).1 = (q.exec E (afterQueries E history d)).1 := by
  have hB' : Buildable (E.fem (movedModel g model) opts') (movedModel g model).materials := by
    rw [hF]; exact buildable_moved hB
  have hw' : WellPosed E.analytic (E.fem (movedModel g model) opts') (movedModel g model).materials := by
    rw [hF]; exact wellPosed_moved hA hw
  have hN' := numbering_moved (g := g) hN
  refine ⟨?_, ?_, ?_⟩
  · obtain ⟨d, _, _, _, _, e, _⟩ := construct_spec E hN hB
    exact ⟨d, by rw [e]⟩
  · obtain ⟨d, _, _, _, _, e, _⟩ := construct_spec E (model := movedModel g model) hN' hB'
    exact ⟨d, by rw [e]⟩
  · intro d d' hd hd' history history' q hq
    rw [(C39_history E d' history' q).1, (C39_history E d history q).1]
    refine (Alike.exec rfl rfl (alike_of_charges (ps := ps)
      (ps' := ps.map (fun p => { p with area := g.scale * g.scale * p.area })) (List.length_map ..) ?_ fun b => ?_) hq).symm
    · rw [(construct_opts hd).2, (construct_opts hd').2, determineOpenness_moved]
    · obtain ⟨sols, hr, h⟩ := construct_fields E hN hB hW hP hw hd b
      obtain ⟨sols', hr', h'⟩ := construct_fields E (model := movedModel g model) hN' hB' (declared_moved hW) hP hw' hd' b
      refine ⟨sols, sols', hr, hr', ?_⟩
      intro i j hi hj
      have k := h i hi (by rw [hr.len]; exact hi)
      have k' := h' i (by rw [List.length_map]; exact hi) (by rw [hr'.len, List.length_map]; exact hi)
      simp only [List.getElem_map] at k' ⊢
      exact charges_moved hF hA hw hs k k' _

/-- Without open boundaries every motion will do... -/
theorem absorbs_closed (A : Analytic 𝕜) (F : FEM 𝕜) {mats : Materials 𝕜} (h : mats.openBoundaries = []) (g : Similarity 𝕜) :
    AbsorbsAlike g A F mats := by
  intro q _ hq
  rw [h] at hq
  cases hq

end

/-- ... and with the coefficient of the solver every turn about the origin. -/
theorem absorbs_turn (F : FEM ℝ) (mats : Materials ℝ) {g : Similarity ℝ} (h1 : g.scale = 1) (h0 : g.shift = (0, 0)) :
    AbsorbsAlike g realAnalytic F mats := by
  intro q _ _
  show g.scale * Multipolar.firstOrderABC (g.point q.pos) = Multipolar.firstOrderABC q.pos
  have : Multipolar.norml2 (g.point q.pos) = Multipolar.norml2 q.pos := by
    unfold Multipolar.norml2 Similarity.point Similarity.turn
    rw [h1, h0]
    congr 1
    linear_combination (q.pos.1 * q.pos.1 + q.pos.2 * q.pos.2) * g.unit
  unfold Multipolar.firstOrderABC
  rw [h1, this, one_mul]

/-! ## A closed model -/

/-- a turn, doubling, and a shift -/
def twist : Similarity ℚ := ⟨2, 3/5, 4/5, (7, -1), by norm_num, by norm_num⟩

/-- the engine of `pair`, which also discretises the moved mesh -/
noncomputable def movingEngine : Engine ℚ :=
  { chainEngine with disc := fun m _ => if m.coord 0 = (0, 0) then chain else movedFEM twist chain }

theorem moving_fem (opts : DriverOptions) : movingEngine.fem pair opts = chain ∧
    movingEngine.fem (movedModel twist pair) opts = movedFEM twist chain := by
  constructor
  · exact if_pos (by decide +kernel)
  · exact if_neg (by decide +kernel)

/-- `pair`, moved, meets the hypotheses; the engine does discretise the two models differently. -/
example (opts : DriverOptions) : Buildable (movingEngine.fem pair opts) pair.materials ∧ ExactSolver movingEngine.pcg ∧
    WellPosed movingEngine.analytic (movingEngine.fem pair opts) pair.materials ∧
    Separate (movingEngine.fem pair opts) pair.materials ∧
    movingEngine.fem (movedModel twist pair) opts = movedFEM twist (movingEngine.fem pair opts) ∧
    AbsorbsAlike twist movingEngine.analytic (movingEngine.fem pair opts) pair.materials ∧
    movingEngine.fem (movedModel twist pair) opts ≠ movingEngine.fem pair opts := by
  obtain ⟨e1, e2⟩ := moving_fem opts
  rw [e1, e2]
  refine ⟨pair_buildable opts, inverseSolver_exact, pair_posed, pair_separate, rfl, absorbs_closed _ _ rfl _, ?_⟩
  intro h
  have : (movedFEM twist chain).dom.map (fun q => q.w) = chain.dom.map (fun q => q.w) := by rw [h]
  revert this
  decide +kernel

/-! ## Scaling an open model -/

/-- scaling by `a` -/
noncomputable def scaling (a : ℝ) (h : a ≠ 0) : Similarity ℝ := ⟨a, 1, 0, (0, 0), h, by norm_num⟩

/-- The charge of `rod` at one volt, the open boundary having the admittance `c`. -/
theorem rod_charge {A : Analytic ℝ} {r c : ℝ} (hA : r * A.abc (r, 0) = c) (hc : 1 + c ≠ 0) {b : Bool}
    {t : SolverSolution (rod r)} (h : PrescribedField A (rod r) rodMaterials b (oneVolt 1) t) :
    chargeOn t 1 = c / (1 + c) := by
  have sum : ∀ f : Fin (rod r).n → ℝ, ∑ k, f k = f (0 : Fin 2) + f (1 : Fin 2) := fun f => Fin.sum_univ_two f
  have sumd : ∀ f : Fin (rod r).nd → ℝ, ∑ k, f k = f (0 : Fin 1) := fun f => Fin.sum_univ_one f
  have sume : ∀ f : Fin (rod r).ne → ℝ, ∑ k, f k = f (0 : Fin 1) := fun f => Fin.sum_univ_one f
  have h0 : t.phi (0 : Fin 2) = 1 := h.values (0 : Fin 2) 1 ⟨_, List.mem_cons_self, (rod_fixed List.mem_cons_self).mpr rfl⟩
    (by intro p hp _; rw [List.mem_singleton.mp hp]; rfl)
  have h1 := h.equations (1 : Fin 2) (by
    intro p hp ho
    exact absurd ((rod_fixed hp).mp ho) (by decide))
  have he := h.e (0 : Fin 1)
  have hd := h.d (0 : Fin 1)
  have eps : declaredEps rodMaterials b 1 = 1 := by cases b <;> rfl
  simp only [weakForm, inner2, vectorAt, scalarAt, sum] at h1
  simp [rod, rodMaterials, List.filter] at h1
  have eps' := eps
  simp only [rodMaterials] at eps'
  rw [eps', hA, h0] at h1
  rw [sum] at he
  simp [rod, h0] at he
  simp only [inner2, vectorAt, sumd, sume] at hd
  simp [rod, eps, he] at hd
  simp only [chargeOn, outwardFlux, scalarAt, sumd]
  simp [rod, List.filter, hd]
  rw [eq_div_iff hc]
  linarith

/-- With an admittance that is not negative at the open boundary `rod` is well posed. -/
theorem rod_posed {A : Analytic ℝ} {r : ℝ} (hA : 0 ≤ r * A.abc (r, 0)) : WellPosed A (rod r) rodMaterials :=
  Elliptic.wellPosed
    { weights := (rod_elliptic r A.moment).weights
      permittivities := (rod_elliptic r A.moment).permittivities
      nodes := (rod_elliptic r A.moment).nodes
      potentials := (rod_elliptic r A.moment).potentials
      fluxes := (rod_elliptic r A.moment).fluxes
      opens := by
        rintro q hq ⟨o, ho, e⟩
        rw [List.mem_singleton.mp ho] at e
        rcases List.mem_cons.mp hq with rfl | hq
        · exact absurd e (show ¬ (2 : Int) = 1 by decide)
        · rw [List.mem_singleton.mp hq]
          exact hA }

/-- the conductor of `rod` -/
def rodPs : List (PEC ℝ) := [⟨"Conductor_0", 1, 0⟩]

theorem rod_numbering : Numbering rodMaterials rodPs where
  all := List.Perm.refl _
  ids := by
    intro i h
    match i, h with
    | 0, _ => show getMaterialIdFromName "Conductor_0" = .ok 0; decide +kernel
  nonempty := by simp [rodPs]

theorem rod_declared : WellDeclared rodMaterials where
  names := List.nodup_nil
  tags := List.nodup_nil
  opens := List.nodup_singleton _

theorem rod_buildable (r : ℝ) : Buildable (rod r) rodMaterials where
  bdr := by
    constructor
    · intro b hb
      rcases List.mem_cons.mp hb with rfl | hb
      · exact List.mem_cons_self
      · rw [List.mem_singleton.mp hb]
        exact List.mem_cons_of_mem _ List.mem_cons_self
    · show ∀ a ∈ [(1 : Int), 2], 1 ≤ a
      decide
  bdrAttrs := List.cons_ne_nil _ _
  points := by
    intro q hq
    rcases List.mem_cons.mp hq with rfl | hq
    · exact le_refl (1 : Int)
    · rw [List.mem_singleton.mp hq]
      exact (by decide : (1 : Int) ≤ 2)
  pecs := by
    intro p hp
    rw [List.mem_singleton.mp hp]
  opens := by
    intro p hp
    rw [List.mem_singleton.mp hp]
    exact (by decide : (1 : Int) ≤ 2)
  names := List.nodup_nil
  dielectrics := by intro d hd; cases hd

/-- a wire with a triangle of open boundary elements around it -/
def rodModel : Model ℝ where
  materials := rodMaterials
  mesh := ⟨[⟨1, [0, 1, 2], 1⟩], [⟨2, [0, 1], 1⟩, ⟨2, [1, 2], 1⟩, ⟨2, [2, 0], 1⟩], fun i => (i, i * i)⟩

theorem rod_open : rodModel.determineOpenness = .ok .open_ := by
  have hb : closedLoopsBuild (𝕜 := ℝ) [⟨2, [0, 1], 1⟩, ⟨2, [1, 2], 1⟩, ⟨2, [2, 0], 1⟩] DGraph.empty [] =
      .ok (DGraph.run [.addEdge 0 1, .addEdge 1 2, .addEdge 2 0],
        [(0, ⟨2, [0, 1], 1⟩), (1, ⟨2, [1, 2], 1⟩), (2, ⟨2, [2, 0], 1⟩)]) := by rfl
  have hc : (DGraph.run [.addEdge 0 1, .addEdge 1 2, .addEdge 2 0]).findCycles = some [[0, 1, 2]] :=
    findCyclesFuel_sound (k := 20) (by decide)
  have he : getElementsWithAttribute rodModel.mesh 2 = [⟨2, [0, 1], 1⟩, ⟨2, [1, 2], 1⟩, ⟨2, [2, 0], 1⟩] := by rfl
  show (do let b ← elementsFormOpenLoops (getElementsWithAttribute rodModel.mesh 2)
           if !b then Outcome.ok Openness.open_ else Model.opennessLoop rodModel.mesh []) = _
  rw [he]
  unfold elementsFormOpenLoops determineClosedLoops
  rw [hb]
  simp only [Outcome.ok_bind, hc]
  rfl

theorem abc_axis {x : ℝ} (hx : 0 < x) : x * realAnalytic.abc (x, 0) = -1 / Real.log x := by
  show x * Multipolar.firstOrderABC (x, 0) = _
  have hn : Multipolar.norml2 (x, 0) = x := by
    unfold Multipolar.norml2
    simp [Real.sqrt_mul_self hx.le]
  unfold Multipolar.firstOrderABC Multipolar.EPSILON0_NATURAL
  rw [hn]
  by_cases h : Real.log x = 0
  · simp [h]
  · field_simp

/-- the size of the rod and the factor of scale -/
noncomputable def inv_e : ℝ := Real.exp (-1)

/-- scaling by 1/e -/
noncomputable def shrink : Similarity ℝ := scaling inv_e (Real.exp_pos _).ne'

open Classical in
/-- the open boundary of the model is at distance 1/e, that of the scaled model at 1/e² -/
noncomputable def rodEngine : Engine ℝ where
  disc := fun m _ => if m.coord 1 = (1, 1) then rod inv_e else movedFEM shrink (rod inv_e)
  pcg := fun _ A b _ => A⁻¹ *ᵥ b
  analytic := realAnalytic
  eps0SI := 1
  mu0SI := 1
  raw := fun _ _ => ⟨fun _ => 0, fun _ => 0, fun _ => 0⟩

theorem rodEngine_exact : ExactSolver rodEngine.pcg := by
  intro n A b x0 h
  show A *ᵥ (A⁻¹ *ᵥ b) = b
  rw [mulVec_mulVec, Matrix.mul_nonsing_inv _ (isUnit_iff_ne_zero.mpr h), one_mulVec]

theorem rodEngine_fem (opts : DriverOptions) : rodEngine.fem rodModel opts = rod inv_e ∧
    rodEngine.fem (movedModel shrink rodModel) opts = movedFEM shrink (rod inv_e) := by
  constructor
  · exact if_pos (by simp [rodModel])
  · refine if_neg ?_
    show shrink.point (rodModel.mesh.coord 1) ≠ (1, 1)
    intro h
    have := congrArg Prod.fst h
    simp [shrink, scaling, Similarity.point, Similarity.turn, rodModel, inv_e] at this

theorem one_conductor {E : Engine ℝ} {model : Model ℝ} {opts : DriverOptions} {ps : List (PEC ℝ)}
    (hN : Numbering model.materials ps) {p : PEC ℝ} (hp : ps = [p])
    (hB : Buildable (E.fem model opts) model.materials)
    (hW : WellDeclared model.materials) (hP : ExactSolver E.pcg)
    (hw : WellPosed E.analytic (E.fem model opts) model.materials) (ho : model.determineOpenness = .ok .open_)
    {d : Driver (E.fem model opts)} (hd : (Driver.construct E model opts).1 = .ok d) (b : Bool) :
    ∃ t, PrescribedField E.analytic (E.fem model opts) model.materials b (oneVolt p.tag) t ∧
      ((Query.generalizedC b).exec E d).1 = .ok (.matrix (DMat.ofMatrix (n := 1) (m := 1) (fun _ _ => chargeOn t p.tag))) := by
  subst hp
  obtain ⟨sols, hr, h⟩ := construct_fields E hN hB hW hP hw hd b
  have h1 := hr.len
  obtain ⟨M, e, _, hM⟩ := (C31_generalized E hN hd ho b).2 (by simp)
  have hl : 0 < sols.length := by rw [h1]; simp
  refine ⟨sols[0], h 0 (by simp) hl, ?_⟩
  rw [e]
  congr 3
  have key : ∀ i j : Fin 1, M i j = chargeOn sols[0] p.tag := by
    intro i j
    have hs : (Driver.problem b d).solutions[0]? = some (some sols[0]) := by
      rw [hr.stored, List.getElem?_map, List.getElem?_eq_getElem hl]; rfl
    have := hM 0 0 sols[0] sols[0] hs hs
    rw [Subsingleton.elim i 0, Subsingleton.elim j 0]
    refine this.trans ?_
    show (chargeOn sols[0] p.tag + chargeOn sols[0] p.tag) / 2 = _
    ring
  ext i j
  exact key i j

/-- The full C75 is false of the code: scaling a model with an open boundary changes its capacitance. -/
theorem C75_refuted : ∃ (E : Engine ℝ) (model : Model ℝ) (opts : DriverOptions) (ps : List (PEC ℝ)) (g : Similarity ℝ),
    Numbering model.materials ps ∧ Buildable (E.fem model opts) model.materials ∧ WellDeclared model.materials ∧
    ExactSolver E.pcg ∧ E.analytic = realAnalytic ∧ WellPosed E.analytic (E.fem model opts) model.materials ∧
    WellPosed E.analytic (E.fem (movedModel g model) opts) (movedModel g model).materials ∧
    Separate (E.fem model opts) model.materials ∧ E.fem (movedModel g model) opts = movedFEM g (E.fem model opts) ∧
    0 < g.scale ∧ ∃ d d', (Driver.construct E model opts).1 = .ok d ∧
      (Driver.construct E (movedModel g model) opts).1 = .ok d' ∧
      ((Query.generalizedC false).exec E d').1 ≠ ((Query.generalizedC false).exec E d).1 := by
  obtain ⟨e1, e2⟩ := rodEngine_fem {}
  have he : (0 : ℝ) < inv_e := Real.exp_pos _
  have c1 : inv_e * realAnalytic.abc (inv_e, 0) = 1 := by
    rw [abc_axis he]; simp [inv_e]
  have c2 : inv_e * (inv_e * realAnalytic.abc (shrink.point (inv_e, 0))) = 1 / 2 := by
    have : shrink.point (inv_e, 0) = (inv_e * inv_e, 0) := by
      simp [shrink, scaling, Similarity.point, Similarity.turn]
    rw [this, ← mul_assoc, abc_axis (mul_pos he he)]
    unfold inv_e
    rw [← Real.exp_add, Real.log_exp]
    norm_num
  let A : Analytic ℝ := ⟨fun p => inv_e * realAnalytic.abc (shrink.point p), realAnalytic.moment⟩
  have hA : Absorbs shrink A realAnalytic (rod inv_e) rodMaterials := fun _ _ _ => rfl
  have hB : Buildable (rodEngine.fem rodModel {}) rodModel.materials := by rw [e1]; exact rod_buildable _
  have hw : WellPosed rodEngine.analytic (rodEngine.fem rodModel {}) rodModel.materials := by
    rw [e1]; exact rod_posed (by rw [show rodEngine.analytic = realAnalytic from rfl, c1]; exact zero_le_one)
  have hB' : Buildable (rodEngine.fem (movedModel shrink rodModel) {}) (movedModel shrink rodModel).materials := by
    rw [e2]; exact buildable_moved (rod_buildable _)
  have hw' : WellPosed rodEngine.analytic (rodEngine.fem (movedModel shrink rodModel) {})
      (movedModel shrink rodModel).materials := by
    rw [e2]; exact wellPosed_moved hA (rod_posed (by show 0 ≤ inv_e * (inv_e * _); rw [c2]; norm_num))
  obtain ⟨d, _, _, _, _, k, _⟩ := construct_spec rodEngine rod_numbering hB
  obtain ⟨d', _, _, _, _, k', _⟩ := construct_spec rodEngine (model := movedModel shrink rodModel)
    (numbering_moved rod_numbering) hB'
  have hd : (Driver.construct rodEngine rodModel {}).1 = .ok d := by rw [k]
  have hd' : (Driver.construct rodEngine (movedModel shrink rodModel) {}).1 = .ok d' := by rw [k']
  refine ⟨rodEngine, rodModel, {}, rodPs, shrink, rod_numbering, hB, rod_declared, rodEngine_exact, rfl, hw, hw',
    by rw [e1]; exact rod_separate _, by rw [e1]; exact e2, he, d, d', hd, hd', ?_⟩
  obtain ⟨t, ht, q⟩ := one_conductor rod_numbering rfl hB rod_declared rodEngine_exact hw rod_open hd false
  obtain ⟨t', ht', q'⟩ := one_conductor (model := movedModel shrink rodModel) (numbering_moved rod_numbering) rfl hB'
    (declared_moved rod_declared) rodEngine_exact hw' (by rw [determineOpenness_moved]; exact rod_open) hd' false
  have r1 : chargeOn t 1 = 1 / 2 := by
    have : ∀ (F : FEM ℝ) (hF : F = rod inv_e) (t : SolverSolution F),
        PrescribedField realAnalytic F rodMaterials false (oneVolt 1) t → chargeOn t 1 = 1 / 2 := by
      rintro _ rfl t ht
      rw [rod_charge c1 (by norm_num) ht]
      norm_num
    exact this _ e1 t ht
  have r2 : chargeOn t' 1 = 1 / 3 := by
    have : ∀ (F : FEM ℝ) (hF : F = movedFEM shrink (rod inv_e)) (t : SolverSolution F),
        PrescribedField realAnalytic F (movedMats shrink rodMaterials) false (oneVolt 1) t → chargeOn t 1 = 1 / 3 := by
      rintro _ rfl t ht
      rw [chargeOn_moved, rod_charge (A := A) c2 (by norm_num) (field_moved hA ht)]
      norm_num
    exact this _ e2 t' ht'
  rw [q, q']
  intro h
  have h := ofMatrix_eq (Answer.matrix.inj (Outcome.ok.inj h))
  have h := congrFun (congrFun h 0) 0
  have h : chargeOn t' 1 = chargeOn t 1 := h
  rw [r1, r2] at h
  norm_num at h

end Tulip.Props
