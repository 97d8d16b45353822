import Verif.Props.DriverWires
import Verif.Props.Grid
import Verif.Proofs.DriverVacuum

/-!
# C70, C71: in-cell capacitances and inductances
-/

set_option linter.unusedSectionVars false

namespace Tulip.Props
open Tulip Tulip.Spec Matrix InCellPotentials

section values
variable {𝕜 : Type} [Field 𝕜] [DecidableEq 𝕜]

theorem divide_eq_ok {x y z : 𝕜} : divide x y = .ok z ↔ y ≠ 0 ∧ z * y = x := by
  unfold divide
  by_cases h : y = 0
  · simp [h]
  · rw [if_neg h]
    constructor
    · intro e
      cases e
      exact ⟨h, div_mul_cancel₀ _ h⟩
    · rintro ⟨_, e⟩
      rw [← e, mul_div_cancel_right₀ _ h]

theorem mapAt_eq_ok {α : Type _} {m : SMap Int α} {k : Int} {x : α} : mapAt m k = .ok x ↔ m.find? k = some x := by
  unfold mapAt Outcome.ofOption
  cases m.find? k <;> simp

theorem monopole_eq_ok {ab : List (𝕜 × 𝕜)} {q : 𝕜} : monopole ab = .ok q ↔ ∃ b t, ab = (q, b) :: t := by
  cases ab with
  | nil => simp [monopole]
  | cons x t =>
    obtain ⟨a, b⟩ := x
    simp [monopole]

theorem scaled_eq_ok {x y k c : 𝕜} :
    (divide x y >>= fun q => (Outcome.ok (q * k) : Outcome 𝕜)) = .ok c ↔ y ≠ 0 ∧ c * y = x * k := by
  rw [Outcome.bind_eq_ok]
  constructor
  · rintro ⟨q, h1, h2⟩
    cases h2
    obtain ⟨h, e⟩ := divide_eq_ok.mp h1
    refine ⟨h, ?_⟩
    rw [← e]
    ring
  · rintro ⟨h, e⟩
    refine ⟨x / y, divide_eq_ok.mpr ⟨h, div_mul_cancel₀ _ h⟩, ?_⟩
    have : c = x / y * k := by
      field_simp
      exact e
    rw [this]

theorem capacitance_inner (k : 𝕜) (p : InCellPotentials 𝕜) (i j : Int) (c : 𝕜) :
    getCapacitanceUsingInnerRegion k p i j = .ok c ↔ ∃ f q b t v, p.electric.find? j = some f ∧
      f.ab = (q, b) :: t ∧ f.conductorPotentials.find? i = some v ∧ v - f.innerRegionAveragePotential ≠ 0 ∧
      c * (v - f.innerRegionAveragePotential) = q * k := by
  unfold getCapacitanceUsingInnerRegion
  simp only [Outcome.bind_eq_ok, mapAt_eq_ok, monopole_eq_ok]
  constructor
  · rintro ⟨f, hf, q, ⟨b, t, hq⟩, v, hv, h⟩
    have := scaled_eq_ok.mp (Outcome.bind_eq_ok.mpr h)
    rw [neg_add_eq_sub] at this
    exact ⟨f, q, b, t, v, hf, hq, hv, this⟩
  · rintro ⟨f, q, b, t, v, hf, hq, hv, h⟩
    refine ⟨f, hf, q, ⟨b, t, hq⟩, v, hv, Outcome.bind_eq_ok.mp (scaled_eq_ok.mpr ?_)⟩
    rw [neg_add_eq_sub]
    exact h

theorem inductance_inner (k : 𝕜) (p : InCellPotentials 𝕜) (i j : Int) (c : 𝕜) :
    getInductanceUsingInnerRegion k p i j = .ok c ↔ ∃ f q b t v, p.magnetic.find? j = some f ∧
      f.ab = (q, b) :: t ∧ f.conductorPotentials.find? i = some v ∧ q ≠ 0 ∧
      c * q = (v - f.innerRegionAveragePotential) * k := by
  unfold getInductanceUsingInnerRegion
  simp only [Outcome.bind_eq_ok, mapAt_eq_ok, monopole_eq_ok]
  constructor
  · rintro ⟨f, hf, q, ⟨b, t, hq⟩, v, hv, h⟩
    have := scaled_eq_ok.mp (Outcome.bind_eq_ok.mpr h)
    rw [neg_add_eq_sub] at this
    exact ⟨f, q, b, t, v, hf, hq, hv, this⟩
  · rintro ⟨f, q, b, t, v, hf, hq, hv, h⟩
    refine ⟨f, hf, q, ⟨b, t, hq⟩, v, hv, Outcome.bind_eq_ok.mp (scaled_eq_ok.mpr ?_)⟩
    rw [neg_add_eq_sub]
    exact h

variable [LinearOrder 𝕜]

theorem capacitance_box (e : Expansion 𝕜) (k : 𝕜) (p : InCellPotentials 𝕜) (i j : Int) (box : Box 𝕜) (c : 𝕜) :
    getCapacitanceOnBox e k p i j box = .ok c ↔ ∃ f q b t v av, p.electric.find? j = some f ∧
      f.ab = (q, b) :: t ∧ f.conductorPotentials.find? i = some v ∧
      getAveragePotential e f p.innerRegionBox box = .ok av ∧ v - av ≠ 0 ∧ c * (v - av) = q * k := by
  unfold getCapacitanceOnBox
  simp only [Outcome.bind_eq_ok, mapAt_eq_ok, monopole_eq_ok]
  constructor
  · rintro ⟨f, hf, q, ⟨b, t, hq⟩, av, hav, v, hv, h⟩
    have := scaled_eq_ok.mp (Outcome.bind_eq_ok.mpr h)
    rw [neg_add_eq_sub] at this
    exact ⟨f, q, b, t, v, av, hf, hq, hv, hav, this⟩
  · rintro ⟨f, q, b, t, v, av, hf, hq, hv, hav, h⟩
    refine ⟨f, hf, q, ⟨b, t, hq⟩, av, hav, v, hv, Outcome.bind_eq_ok.mp (scaled_eq_ok.mpr ?_)⟩
    rw [neg_add_eq_sub]
    exact h

theorem inductance_box (e : Expansion 𝕜) (k : 𝕜) (p : InCellPotentials 𝕜) (i j : Int) (box : Box 𝕜) (c : 𝕜) :
    getInductanceOnBox e k p i j box = .ok c ↔ ∃ f g q b t v av, p.magnetic.find? j = some f ∧
      p.electric.find? j = some g ∧ f.ab = (q, b) :: t ∧ g.conductorPotentials.find? i = some v ∧
      getAveragePotential e f p.innerRegionBox box = .ok av ∧ q ≠ 0 ∧ c * q = (v - av) * k := by
  unfold getInductanceOnBox
  simp only [Outcome.bind_eq_ok, mapAt_eq_ok, monopole_eq_ok]
  constructor
  · rintro ⟨f, hf, q, ⟨b, t, hq⟩, av, hav, g, hg, v, hv, h⟩
    have := scaled_eq_ok.mp (Outcome.bind_eq_ok.mpr h)
    rw [neg_add_eq_sub] at this
    exact ⟨f, g, q, b, t, v, av, hf, hg, hq, hv, hav, this⟩
  · rintro ⟨f, g, q, b, t, v, av, hf, hg, hq, hv, hav, h⟩
    refine ⟨f, hf, q, ⟨b, t, hq⟩, av, hav, g, hg, v, hv, Outcome.bind_eq_ok.mp (scaled_eq_ok.mpr ?_)⟩
    rw [neg_add_eq_sub]
    exact h

/-! ## C70 -/

/-- **C70.** With `q` the zeroth coefficient of entry `j` and `v` the potential of conductor `i` there, the capacitance
is `eps0 q / (v - average)` and the inductance `mu0 (v - average) / q`, the average being that of the inner region or of
the box; the numbers exist exactly when the entries exist and the denominators do not vanish. For the inductance on a
box this holds if the electric and magnetic potentials of conductor `i` agree in entry `j` (see C51). -/
theorem C70_values (e : Expansion 𝕜) (eps0 mu0 : 𝕜) (p : InCellPotentials 𝕜) (i j : Int) (box : Box 𝕜) (x : 𝕜) :
    (getCapacitanceUsingInnerRegion eps0 p i j = .ok x ↔ ∃ f q b t v, p.electric.find? j = some f ∧
      f.ab = (q, b) :: t ∧ f.conductorPotentials.find? i = some v ∧ v - f.innerRegionAveragePotential ≠ 0 ∧
      x = eps0 * q / (v - f.innerRegionAveragePotential)) ∧
    (getInductanceUsingInnerRegion mu0 p i j = .ok x ↔ ∃ f q b t v, p.magnetic.find? j = some f ∧
      f.ab = (q, b) :: t ∧ f.conductorPotentials.find? i = some v ∧ q ≠ 0 ∧
      x = mu0 * (v - f.innerRegionAveragePotential) / q) ∧
    (getCapacitanceOnBox e eps0 p i j box = .ok x ↔ ∃ f q b t v av, p.electric.find? j = some f ∧
      f.ab = (q, b) :: t ∧ f.conductorPotentials.find? i = some v ∧
      getAveragePotential e f p.innerRegionBox box = .ok av ∧ v - av ≠ 0 ∧ x = eps0 * q / (v - av)) ∧
    ((p.electric.find? j).bind (fun g => g.conductorPotentials.find? i) =
        (p.magnetic.find? j).bind (fun g => g.conductorPotentials.find? i) →
      (getInductanceOnBox e mu0 p i j box = .ok x ↔ ∃ f q b t v av, p.magnetic.find? j = some f ∧
        f.ab = (q, b) :: t ∧ f.conductorPotentials.find? i = some v ∧
        getAveragePotential e f p.innerRegionBox box = .ok av ∧ q ≠ 0 ∧ x = mu0 * (v - av) / q)) := by
  have key : ∀ {a y z k : 𝕜}, (y ≠ 0 ∧ a * y = z * k) ↔ (y ≠ 0 ∧ a = k * z / y) := by
    intro a y z k
    refine and_congr_right (fun h => ?_)
    rw [eq_div_iff h, mul_comm k z]
  refine ⟨?_, ?_, ?_, fun hv => ?_⟩
  · rw [capacitance_inner]
    simp only [key]
  · rw [inductance_inner]
    simp only [key]
  · rw [capacitance_box]
    simp only [key]
  · rw [inductance_box]
    simp only [key]
    constructor
    · rintro ⟨f, g, q, b, t, v, av, hf, hg, hq, hgv, r⟩
      rw [hf, hg, Option.bind_some, Option.bind_some, hgv] at hv
      exact ⟨f, q, b, t, v, av, hf, hq, hv.symm, r⟩
    · rintro ⟨f, q, b, t, v, av, hf, hq, hfv, r⟩
      rw [hf, Option.bind_some, hfv, Option.bind_eq_some_iff] at hv
      obtain ⟨g, hg, hgv⟩ := hv
      exact ⟨f, g, q, b, t, v, av, hf, hg, hq, hgv, r⟩

/-- Concrete values: charge 6, potential 1, average 1/4. -/
example : let f : FieldReconstruction ℚ := ⟨1 / 4, (0, 0), [(6, 0)], [(0, 1)]⟩
    let p : InCellPotentials ℚ := ⟨⟨(0, 0), (1, 1)⟩, [(0, f)], [(0, f)]⟩
    getCapacitanceUsingInnerRegion 2 p 0 0 = .ok 16 ∧ getInductanceUsingInnerRegion 3 p 0 0 = .ok (3 / 8) ∧
    (p.electric.find? 0).bind (fun g => g.conductorPotentials.find? 0) =
        (p.magnetic.find? 0).bind (fun g => g.conductorPotentials.find? 0) := by
  decide +kernel

end values

/-! ## C71 -/

section vacuum
variable {𝕜 : Type} [Field 𝕜] [DecidableEq 𝕜] [LinearOrder 𝕜]

/-- **C71.** If all permittivities of an open model are 1, the electric and magnetic in-cell results are the same, and
the product of any in-cell capacitance and the corresponding inductance, over the inner region or any box, is
eps0 mu0. -/
theorem C71_vacuum (E : Engine 𝕜) {model : Model 𝕜} {opts : DriverOptions} {ps : List (PEC 𝕜)}
    (hN : Numbering model.materials ps) (hB : Buildable (E.fem model opts) model.materials)
    (hW : WellDeclared model.materials) (hP : ExactSolver E.pcg)
    (hw : WellPosed E.analytic (E.fem model opts) model.materials)
    (h1 : ∀ x ∈ model.materials.dielectrics, x.relativePermittivity = 1)
    {d : Driver (E.fem model opts)} (hd : (Driver.construct E model opts).1 = .ok d) {p : InCellPotentials 𝕜}
    (hp : (Query.inCell.exec E d).1 = .ok (.inCell p)) :
    p.electric = p.magnetic ∧
    ∀ (e : Expansion 𝕜) (i j : Int) (box : Box 𝕜) (c l : 𝕜),
      (getCapacitanceUsingInnerRegion E.eps0SI p i j = .ok c → getInductanceUsingInnerRegion E.mu0SI p i j = .ok l →
        c * l = E.eps0SI * E.mu0SI) ∧
      (getCapacitanceOnBox e E.eps0SI p i j box = .ok c → getInductanceOnBox e E.mu0SI p i j box = .ok l →
        c * l = E.eps0SI * E.mu0SI) := by
  have heq : p.electric = p.magnetic := by
    obtain ⟨s0, se, hS, R, rs, f1, f2, f3, f4, f5⟩ := inCell_data E hN hB hd hp false
    obtain ⟨s0', sm, hS', R', rs', f1', f2', f3', f4', f5'⟩ := inCell_data E hN hB hd hp true
    have hsol : se = sm := vacuum_fields hN hB hW hP hw h1 hS hS'
    subst hsol
    have hmod := (construct_opts hd).2
    have ho := (getInCellPotentials_inv E (exec_inCell E hp)).1
    have hr : Ready false ps se d := ⟨by rw [hmod]; exact hN, hS.len, hS.stored⟩
    have hr' : Ready true ps se d := ⟨by rw [hmod]; exact hN, hS'.len, hS'.stored⟩
    have hR : R = R' := by
      have e1 : ((Query.floatingMatrix false).exec E d).1 =
        ((Driver.getFloatingPotentialsMatrix false d).1 >>= fun p => .ok (.matrix p)) := map_fst _ _ d
      have e2 : ((Query.floatingMatrix true).exec E d).1 =
        ((Driver.getFloatingPotentialsMatrix true d).1 >>= fun p => .ok (.matrix p)) := map_fst _ _ d
      rw [getFloatingPotentialsMatrix_value hr ho] at e1
      rw [getFloatingPotentialsMatrix_value hr' ho] at e2
      have e3 := e1.trans e2.symm
      rw [f1, f1'] at e3
      have e4 := Answer.matrix.inj (Outcome.ok.inj e3)
      unfold DMat.ofMatrix at e4
      exact eq_of_heq (DMat.mk.inj e4).2.2
    subst hR
    have hrs : rs = rs' := by
      funext i
      have hset : ∀ {b : Bool} {s0 : Solver (E.fem model opts)} (hS : Solved E model.materials b ps (Driver.problem b d) s0 se),
          (Driver.problem b d).solver.params.openBoundaries = (inputsOf model.materials b).openBoundaries ∧
          (Driver.problem b d).solver.chargedBoundaries = SMap.keys (inputsOf model.materials b).dirichletBoundaries ++
            SMap.keys (inputsOf model.materials b).neumannBoundaries := by
        intro b s0 hS
        obtain ⟨⟨hist, _, hrun⟩, _⟩ := hS.reached
        have hset := runOps_setup hist hrun
        obtain ⟨_, _, m3, _⟩ := make_fields hS.make
        refine ⟨by rw [hset.openB, m3], ?_⟩
        unfold Solver.chargedBoundaries
        rw [hset.neumann, m3, hS.keys]
      obtain ⟨a1, a2⟩ := hset hS
      obtain ⟨b1, b2⟩ := hset hS'
      have := (f3 i).symm.trans ((reconstruct_congr E model opts (s := (Driver.problem false d).solver.setSolution (rowField R se hS.len i))
        (s' := (Driver.problem true d).solver.setSolution (rowField R se hS'.len i)) (rowMap R i) rfl (a1.trans b1.symm)
        (a2.trans b2.symm)).trans (f3' i))
      exact Outcome.ok.inj this
    subst hrs
    exact f4.trans f4'.symm
  refine ⟨heq, fun e i j box c l => ⟨fun hc hl => ?_, fun hc hl => ?_⟩⟩
  · obtain ⟨f, q, b, t, v, hf, hq, hv, hne, ec⟩ := (capacitance_inner _ _ _ _ _).mp hc
    obtain ⟨f', q', b', t', v', hf', hq', hv', hne', el⟩ := (inductance_inner _ _ _ _ _).mp hl
    rw [← heq, hf] at hf'
    cases hf'
    rw [hq] at hq'
    cases hq'
    rw [hv] at hv'
    cases hv'
    have : (c * l) * ((v - f.innerRegionAveragePotential) * q) =
        (E.eps0SI * E.mu0SI) * ((v - f.innerRegionAveragePotential) * q) := by
      linear_combination (l * q) * ec + (q * E.eps0SI) * el
    exact mul_right_cancel₀ (mul_ne_zero hne hne') this
  · obtain ⟨f, q, b, t, v, av, hf, hq, hv, hav, hne, ec⟩ := (capacitance_box _ _ _ _ _ _ _).mp hc
    obtain ⟨f', g, q', b', t', v', av', hf', hg, hq', hv', hav', hne', el⟩ := (inductance_box _ _ _ _ _ _ _).mp hl
    rw [hf] at hg
    cases hg
    rw [← heq, hf] at hf'
    cases hf'
    rw [hq] at hq'
    cases hq'
    rw [hv] at hv'
    cases hv'
    rw [hav] at hav'
    cases hav'
    have : (c * l) * ((v - av) * q) = (E.eps0SI * E.mu0SI) * ((v - av) * q) := by
      linear_combination (l * q) * ec + (q * E.eps0SI) * el
    exact mul_right_cancel₀ (mul_ne_zero hne hne') this

end vacuum

/-! ### Example: `wires` with its dielectric replaced by air -/

/-- `wires` without dielectric -/
def airWires : Model ℚ where
  materials := { wires.materials with dielectrics := [⟨"Vacuum_0", 1, 1⟩, ⟨"Wax_1", 2, 1⟩] }
  mesh := wires.mesh

theorem air_eps (b : Bool) : (declaredEps airWires.materials b : Int → ℚ) = declaredEps wires.materials true := by
  funext a
  cases b with
  | true => rfl
  | false =>
    unfold declaredEps
    by_cases h1 : a = 1
    · subst h1; rfl
    · by_cases h2 : a = 2
      · subst h2; rfl
      · have e1 : decide ((1 : Int) = a) = false := by simpa using fun h => h1 h.symm
        have e2 : decide ((2 : Int) = a) = false := by simpa using fun h => h2 h.symm
        simp [airWires, List.find?, e1, e2]

theorem air_field {b : Bool} {V : Int → ℚ} {t : SolverSolution line} :
    PrescribedField lineAnalytic line airWires.materials b V t ↔
      PrescribedField lineAnalytic line wires.materials true V t := by
  constructor
  · rintro ⟨h1, h2, h3, h4⟩
    rw [air_eps] at h2 h4
    exact ⟨h1, h2, h3, h4⟩
  · rintro ⟨h1, h2, h3, h4⟩
    rw [← air_eps b] at h2 h4
    exact ⟨h1, h2, h3, h4⟩

theorem air_posed : WellPosed lineAnalytic line airWires.materials := by
  obtain ⟨h1, h2, h3⟩ := wires_posed
  refine ⟨fun b => ?_, fun b => ?_, h3⟩
  · rw [air_eps]; exact h1 true
  · rw [air_eps]; exact h2 true

theorem air_numbering : Numbering airWires.materials wiresPs := ⟨wires_numbering.1, wires_numbering.2, wires_numbering.3⟩

theorem air_declared : WellDeclared airWires.materials where
  names := by decide +kernel
  tags := by decide +kernel
  opens := by decide +kernel

theorem air_buildable (opts : DriverOptions) : Buildable (lineEngine.fem airWires opts) airWires.materials where
  bdr := line_valid
  bdrAttrs := List.cons_ne_nil _ _
  points := show ∀ q ∈ line.bdr, 1 ≤ q.attr by decide +kernel
  pecs := by decide +kernel
  opens := by decide +kernel
  names := by decide +kernel
  dielectrics := by
    intro d hd
    rcases List.mem_cons.mp hd with rfl | hd
    · exact ⟨by decide, 2, List.mem_cons_of_mem _ List.mem_cons_self, by decide⟩
    · rw [List.mem_singleton.mp hd]
      exact ⟨by decide, 2, List.mem_cons_of_mem _ List.mem_cons_self, by decide⟩

theorem air_inner (s : Solver line) : ∃ x, Driver.getInnerRegionAveragePotential airWires s true = .ok x := by
  refine ⟨_, (C62_inner airWires (by unfold DistinctNames; decide +kernel) ⟨⟨"Vacuum_0", 1, 1⟩, by decide +kernel, rfl⟩ true s).1 ?_⟩
  obtain ⟨i1, i2, i3, i4⟩ := line_measures
  refine ⟨?_, show innerArea airWires true ≠ 0 by decide +kernel⟩
  intro x hx
  unfold innerParts at hx
  rcases List.mem_append.mp hx with hx | hx
  · obtain ⟨d, hd, rfl⟩ := List.mem_map.mp hx
    have hd := (List.mem_filter.mp hd).1
    show domainIntegral line _ d.tag ≠ 0
    rcases List.mem_cons.mp hd with rfl | hd
    · exact fun h => by rw [i1] at h; norm_num at h
    · rw [List.mem_singleton.mp hd]
      exact fun h => by rw [i2] at h; norm_num at h
  · obtain ⟨p, hp, rfl⟩ := List.mem_map.mp hx
    show boundaryIntegral line _ p.tag ≠ 0
    rcases List.mem_cons.mp hp with rfl | hp
    · exact fun h => by rw [i4] at h; norm_num at h
    · rw [List.mem_singleton.mp hp]
      exact fun h => by rw [i3] at h; norm_num at h

theorem air_reconstruct {s : Solver line} (opts : DriverOptions) (ho : s.params.openBoundaries = [3]) {b : Bool}
    {V : Int → ℚ} (hm : 0 ≤ opts.multipolarExpansionOrder)
    (h : PrescribedField lineAnalytic line airWires.materials b V s.sol) (h2 : V 2 ≠ 0) (v : SMap Int ℚ) :
    ∃ r, reconstruct lineEngine airWires opts s v = .ok r := by
  obtain ⟨x, hx⟩ := air_inner s
  obtain ⟨c, hc⟩ := wires_center ho (air_field.mp h) h2
  unfold reconstruct Solver.getMultipolarCoefficients
  show ∃ r, (Driver.getInnerRegionAveragePotential airWires s true >>= fun av =>
    s.getCenterOfCharge lineAnalytic >>= fun c =>
      (s.getCenterOfCharge lineAnalytic >>= fun c => if opts.multipolarExpansionOrder < -1 then _ else _) >>= fun ab => _) = .ok r
  rw [hx, hc, Outcome.ok_bind, Outcome.ok_bind, Outcome.ok_bind, if_neg (by omega)]
  exact ⟨_, rfl⟩

/-- In-cell potentials of `airWires` are computed. -/
theorem air_inCell (opts : DriverOptions) (hm : 0 ≤ opts.multipolarExpansionOrder) :
    ∃ (d : Driver (lineEngine.fem airWires opts)) (p : InCellPotentials ℚ),
      (Driver.construct lineEngine airWires opts).1 = .ok d ∧ (Query.inCell.exec lineEngine d).1 = .ok (.inCell p) := by
  refine inCell_succeeds lineEngine air_numbering (air_buildable opts) air_declared inverseSolver_exact air_posed
    (by decide) wires_open (box := ⟨(0, 0), (2, 4)⟩) (by decide +kernel) ?_
  intro b sols hl hs i
  have hraw : symPart (rawCharges wiresPs sols hl) =
      (!![1/2, -1/2; -1/2, if true then 1 else 7/6] : Matrix (Fin 2) (Fin 2) ℚ) :=
    (wires_raw (b := true) hl (fun i hi hi' => air_field.mp (hs i hi hi'))).1
  rw [hraw]
  refine ⟨⟨_, (wires_floating true i _).mpr rfl, fun v hv => (wires_floating true i v).mp hv⟩, ?_⟩
  intro v s V r hv hb hV hp
  have hv := (wires_floating true i v).mp hv
  have h2 : V 2 ≠ 0 := by
    have h1 : V 2 = v (1 : Fin 2) := hV (1 : Fin 2)
    rw [h1, hv]
    have : ∀ i : Fin 2, (if i = 0 then ![1, if true then 1/2 else 3/7] else ![1, 1] : Fin 2 → ℚ) 1 ≠ 0 := by
      intro i
      fin_cases i <;> simp
    exact this i
  exact air_reconstruct opts hb hm hp h2 r

/-- `airWires` meets the hypotheses of `C71_vacuum`. -/
example : ∃ (d : Driver (lineEngine.fem airWires {})) (p : InCellPotentials ℚ),
    Numbering airWires.materials wiresPs ∧ Buildable (lineEngine.fem airWires {}) airWires.materials ∧
    WellDeclared airWires.materials ∧ ExactSolver lineEngine.pcg ∧
    WellPosed lineEngine.analytic (lineEngine.fem airWires {}) airWires.materials ∧
    (∀ x ∈ airWires.materials.dielectrics, x.relativePermittivity = 1) ∧
    (Driver.construct lineEngine airWires {}).1 = .ok d ∧ (Query.inCell.exec lineEngine d).1 = .ok (.inCell p) ∧
    p.electric = p.magnetic := by
  obtain ⟨d, p, hd, hp⟩ := air_inCell {} (by decide)
  have h1 : ∀ x ∈ airWires.materials.dielectrics, x.relativePermittivity = 1 := by decide +kernel
  exact ⟨d, p, air_numbering, air_buildable {}, air_declared, inverseSolver_exact, air_posed, h1, hd, hp,
    (C71_vacuum lineEngine air_numbering (air_buildable {}) air_declared inverseSolver_exact air_posed h1 hd hp).1⟩

end Tulip.Props
