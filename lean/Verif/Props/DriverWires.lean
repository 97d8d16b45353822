import Verif.Props.DriverCell
import Verif.Props.InnerRegion

/-!
# The in-cell computation of `wires` succeeds
-/

namespace Tulip.Props
open Tulip Tulip.Spec Matrix

theorem wires_distinct : DistinctNames wires.materials := by unfold DistinctNames; decide +kernel

theorem line_measures : domainIntegral line (fun _ => 1) 1 = 2 ∧ domainIntegral line (fun _ => 1) 2 = 1 ∧
    boundaryIntegral line (fun _ => 1) 1 = 1 ∧ boundaryIntegral line (fun _ => 1) 2 = 1 := by decide +kernel

theorem wires_hasMean : HasInnerMean wires line true := by
  obtain ⟨i1, i2, i3, i4⟩ := line_measures
  refine ⟨?_, show innerArea wires true ≠ 0 by decide +kernel⟩
  intro x hx
  unfold innerParts at hx
  rcases List.mem_append.mp hx with hx | hx
  · obtain ⟨d, hd, rfl⟩ := List.mem_map.mp hx
    have hd := (List.mem_filter.mp hd).1
    show domainIntegral line _ d.tag ≠ 0
    rcases List.mem_cons.mp hd with rfl | hd
    · exact fun h => by rw [i1] at h; norm_num at h
    · rw [List.mem_singleton.mp hd]
      exact fun h => by rw [i2] at h; norm_num at h
  · obtain ⟨p, hp, rfl⟩ := List.mem_map.mp hx
    show boundaryIntegral line _ p.tag ≠ 0
    rcases List.mem_cons.mp hp with rfl | hp
    · exact fun h => by rw [i4] at h; norm_num at h
    · rw [List.mem_singleton.mp hp]
      exact fun h => by rw [i3] at h; norm_num at h

theorem wires_inner (s : Solver line) : ∃ x, Driver.getInnerRegionAveragePotential wires s true = .ok x :=
  ⟨_, (C62_inner wires wires_distinct ⟨⟨"Vacuum_0", 1, 1⟩, by decide +kernel, rfl⟩ true s).1 wires_hasMean⟩

theorem wires_center {s : Solver line} (ho : s.params.openBoundaries = [3]) {b : Bool} {V : Int → ℚ}
    (h : PrescribedField lineAnalytic line wires.materials b V s.sol) (h2 : V 2 ≠ 0) :
    ∃ c, s.getCenterOfCharge lineAnalytic = .ok c := by
  have hd := (wires_field h).2
  have hQ : s.getTotalCharge - s.getChargeInBoundary 3 = (if b then 1 / 2 else 2 / 3) * V 2 := by
    unfold Solver.getTotalCharge Solver.getChargeInBoundary FEM.flux
    rw [hd]
    have sum : ∀ f : Fin line.nd → ℚ, ∑ k, f k = f (0 : Fin 3) + f (1 : Fin 3) + f (2 : Fin 3) :=
      fun f => Fin.sum_univ_three f
    rw [sum, sum]
    simp [line, List.filter]
    cases b <;> simp
  have hne : (if b then 1 / 2 else 2 / 3 : ℚ) * V 2 ≠ 0 := by
    refine mul_ne_zero ?_ h2
    cases b <;> norm_num
  unfold Solver.getCenterOfCharge
  rw [ho]
  simp only [hQ]
  unfold divide
  rw [if_neg hne, if_neg hne]
  exact ⟨_, rfl⟩

theorem wires_reconstruct {s : Solver line} (opts : DriverOptions) (ho : s.params.openBoundaries = [3]) {b : Bool}
    {V : Int → ℚ} (hm : 0 ≤ opts.multipolarExpansionOrder)
    (h : PrescribedField lineAnalytic line wires.materials b V s.sol) (h2 : V 2 ≠ 0) (v : SMap Int ℚ) :
    ∃ r, reconstruct lineEngine wires opts s v = .ok r := by
  obtain ⟨x, hx⟩ := wires_inner s
  obtain ⟨c, hc⟩ := wires_center ho h h2
  unfold reconstruct Solver.getMultipolarCoefficients
  show ∃ r, (Driver.getInnerRegionAveragePotential wires s true >>= fun av =>
    s.getCenterOfCharge lineAnalytic >>= fun c =>
      (s.getCenterOfCharge lineAnalytic >>= fun c => if opts.multipolarExpansionOrder < -1 then _ else _) >>= fun ab => _) = .ok r
  rw [hx, hc, Outcome.ok_bind, Outcome.ok_bind, Outcome.ok_bind, if_neg (by omega)]
  exact ⟨_, rfl⟩

/-- The charges of `wires` with one conductor at 1 V. -/
theorem wires_raw {b : Bool} {sols : List (SolverSolution line)} (hl : sols.length = wiresPs.length)
    (h : ∀ i (hi : i < wiresPs.length) (hi' : i < sols.length),
      PrescribedField lineAnalytic line wires.materials b (oneVolt wiresPs[i].tag) sols[i]) :
    symPart (rawCharges wiresPs sols hl) = (!![1/2, -1/2; -1/2, if b then 1 else 7/6] : Matrix (Fin 2) (Fin 2) ℚ) ∧
    rawCharges wiresPs sols hl = (!![1/2, -1/2; -1/2, if b then 1 else 7/6] : Matrix (Fin 2) (Fin 2) ℚ) := by
  have h0 : PrescribedField lineAnalytic line wires.materials b (oneVolt 1) _ := h 0 (by decide) (by rw [hl]; decide)
  have h1 : PrescribedField lineAnalytic line wires.materials b (oneVolt 2) _ := h 1 (by decide) (by rw [hl]; decide)
  obtain ⟨a1, a2⟩ := wires_charges h0
  obtain ⟨b1, b2⟩ := wires_charges h1
  simp only [oneVolt] at a1 a2 b1 b2
  have e : rawCharges wiresPs sols hl = (!![1/2, -1/2; -1/2, if b then 1 else 7/6] : Matrix (Fin 2) (Fin 2) ℚ) := by
    ext i j
    have : ∀ i j : Fin 2, rawCharges wiresPs sols hl i j =
        (!![1/2, -1/2; -1/2, if b then 1 else 7/6] : Matrix (Fin 2) (Fin 2) ℚ) i j := by
      intro i j
      fin_cases i <;> fin_cases j
      · exact a1.trans (by simp)
      · exact a2.trans (by simp; norm_num)
      · exact b1.trans (by simp)
      · exact b2.trans (by simp)
    exact this i j
  refine ⟨?_, e⟩
  rw [e]
  ext i j
  have : ∀ i j : Fin 2, symPart (!![1/2, -1/2; -1/2, if b then 1 else 7/6] : Matrix (Fin 2) (Fin 2) ℚ) i j =
        (!![1/2, -1/2; -1/2, if b then 1 else 7/6] : Matrix (Fin 2) (Fin 2) ℚ) i j := by
    intro i j
    unfold symPart
    fin_cases i <;> fin_cases j <;> simp
  exact this i j

theorem wires_floating (b : Bool) (i : Fin 2) : ∀ v : Fin 2 → ℚ,
    Spec.FloatingPotentials (!![1/2, -1/2; -1/2, if b then 1 else 7/6] : Matrix (Fin 2) (Fin 2) ℚ) i v ↔
      v = if i = 0 then ![1, if b then 1/2 else 3/7] else ![1, 1] := by
  intro v
  unfold Spec.FloatingPotentials charges
  constructor
  · rintro ⟨h1, h2⟩
    fin_cases i
    · have := h2 1 (by decide)
      simp [mulVec, dotProduct, Fin.sum_univ_two] at this h1
      funext k
      fin_cases k
      · simpa using h1
      · rw [h1] at this
        cases b <;> simp at this ⊢ <;> linarith
    · have := h2 0 (by decide)
      simp [mulVec, dotProduct, Fin.sum_univ_two] at this h1
      funext k
      fin_cases k
      · simp
        rw [h1] at this
        linarith
      · simpa using h1
  · rintro rfl
    refine ⟨by fin_cases i <;> simp, ?_⟩
    intro j hj
    fin_cases i <;> fin_cases j
    · exact absurd rfl hj
    · cases b <;> simp [mulVec, dotProduct, Fin.sum_univ_two] <;> norm_num
    · cases b <;> simp [mulVec, dotProduct, Fin.sum_univ_two] <;> norm_num
    · exact absurd rfl hj


variable {𝕜 : Type} [Field 𝕜] [DecidableEq 𝕜] [LinearOrder 𝕜]

/-- Conditions under which in-cell potentials are computed. -/
theorem inCell_succeeds (E : Engine 𝕜) {model : Model 𝕜} {opts : DriverOptions} {ps : List (PEC 𝕜)}
    (hN : Numbering model.materials ps) (hB : Buildable (E.fem model opts) model.materials)
    (hW : WellDeclared model.materials) (hP : ExactSolver E.pcg)
    (hw : WellPosed E.analytic (E.fem model opts) model.materials) (ht : (ps.map PEC.tag).Nodup)
    (ho : model.determineOpenness = .ok .open_) {box : Box 𝕜}
    (hbox : (model.getBoundingBoxOfMaterial INNER_REGION_DEFAULT_NAME >>= Driver.finiteBox) = .ok box)
    (hstep : ∀ (b : Bool) (sols : List (SolverSolution (E.fem model opts))) (hl : sols.length = ps.length),
      (∀ i (hi : i < ps.length) (hi' : i < sols.length),
        PrescribedField E.analytic (E.fem model opts) model.materials b (oneVolt ps[i].tag) sols[i]) →
      ∀ i, (∃! v, Spec.FloatingPotentials (symPart (rawCharges ps sols hl)) i v) ∧
        ∀ (v : Fin ps.length → 𝕜) (s : Solver (E.fem model opts)) (V : Int → 𝕜) (r : SMap Int 𝕜),
          Spec.FloatingPotentials (symPart (rawCharges ps sols hl)) i v →
          s.params.openBoundaries = getAttributesInMap model.materials.buildNameToAttrMapForOpenBoundary →
          (∀ j : Fin ps.length, V ps[j].tag = v j) →
          PrescribedField E.analytic (E.fem model opts) model.materials b V s.sol →
          ∃ x, reconstruct E model opts s r = .ok x) :
    ∃ (d : Driver (E.fem model opts)) (p : InCellPotentials 𝕜),
      (Driver.construct E model opts).1 = .ok d ∧ (Query.inCell.exec E d).1 = .ok (.inCell p) := by
  obtain ⟨d, s0e, s0m, se, sm, ec, hmod, hopt, hSe, hSm⟩ := construct_spec E hN hB
  have hd : (Driver.construct E model opts).1 = .ok d := by rw [ec]
  have ho' : d.model.determineOpenness = .ok .open_ := by rw [hmod]; exact ho
  have key : ∀ (b : Bool) (s0 : Solver (E.fem model opts)) (sols : List (SolverSolution (E.fem model opts))),
      Solved E model.materials b ps (Driver.problem b d) s0 sols →
      ∃ res, (Driver.getFieldParameters E b d).1 = .ok res := by
    intro b s0 sols hS
    have hr : Ready b ps sols d := ⟨by rw [hmod]; exact hN, hS.len, hS.stored⟩
    have hreg := Spec.WellPosed.regular hw hN hB hW hS.make
    have hst := hstep b sols hS.len (fun i hi hi' => (hS.field hN hB hP hreg hw.det hi hi').prescribed hN hB hW hS.make)
    refine getFieldParameters_ok E hr ho' (fun _ i => (hst i).1) ?_
    intro R i hR
    rw [hmod, hopt]
    have hks : (SMap.keys (inputsOf model.materials b).dirichletBoundaries).Pairwise (· < ·) :=
      keys_sorted (buildAttrToValueMap_sorted _ _)
    obtain ⟨V, hV⟩ : ∃ V : Int → 𝕜, ∀ j : Fin ps.length, V ps[j].tag = R i j := by
      refine ⟨fun a => ∑ j : Fin ps.length, R i j * oneVolt ps[j].tag a, fun j => ?_⟩
      exact sum_unitVolt ht (R i) j
    refine (hst i).2 (R i) _ V _ hR ?_ hV ?_
    · obtain ⟨⟨hist, _, hrun⟩, _⟩ := hS.reached
      have hset := runOps_setup hist hrun
      obtain ⟨_, _, m3, _⟩ := make_fields hS.make
      show (Driver.problem b d).solver.params.openBoundaries = _
      rw [hset.openB, m3]
      rfl
    · have hrow := superposed_field (R i) (List.length_pos_of_ne_nil hN.nonempty) (fun j =>
        hS.field hN hB hP hreg hw.det j.2 (by rw [hS.len]; exact j.2))
      refine FieldFor.prescribed hN hB hW hS.make (hrow.congr ?_)
      intro a ha
      obtain ⟨p, hp, rfl⟩ := (dirichlet_keys hN b a).mp ha
      obtain ⟨j, hj, e⟩ := List.getElem_of_mem (hN.all.mem_iff.mpr hp)
      have h3 := sum_unitVolt ht (R i) ⟨j, hj⟩
      have h4 := hV ⟨j, hj⟩
      simp only [Fin.getElem_fin, e] at h3 h4
      rw [h4]
      exact h3
  obtain ⟨p, hp⟩ := getInCellPotentials_ok E ho' (by rw [hmod]; exact hbox) (fun b => by
    cases b with
    | false => exact key false s0e se hSe
    | true => exact key true s0m sm hSm)
  refine ⟨d, p, hd, ?_⟩
  have hq : (Query.inCell.exec E d).1 = ((Driver.getInCellPotentials E d).1 >>= fun p => .ok (.inCell p)) :=
    map_fst _ _ d
  rw [hq, hp]
  rfl

/-- In-cell potentials of `wires` are computed, for any expansion order from 0. -/
theorem wires_inCell (opts : DriverOptions) (hm : 0 ≤ opts.multipolarExpansionOrder) :
    ∃ (d : Driver (lineEngine.fem wires opts)) (p : InCellPotentials ℚ),
      (Driver.construct lineEngine wires opts).1 = .ok d ∧ (Query.inCell.exec lineEngine d).1 = .ok (.inCell p) := by
  refine inCell_succeeds lineEngine wires_numbering (wires_buildable opts) wires_declared inverseSolver_exact wires_posed
    (by decide) wires_open (box := ⟨(0, 0), (2, 4)⟩) (by decide +kernel) ?_
  intro b sols hl hs i
  have hraw : symPart (rawCharges wiresPs sols hl) =
      (!![1/2, -1/2; -1/2, if b then 1 else 7/6] : Matrix (Fin 2) (Fin 2) ℚ) := (wires_raw (b := b) hl hs).1
  rw [hraw]
  refine ⟨⟨_, (wires_floating b i _).mpr rfl, fun v hv => (wires_floating b i v).mp hv⟩, ?_⟩
  intro v s V r hv hb hV hp
  have hv := (wires_floating b i v).mp hv
  refine wires_reconstruct opts hb hm hp ?_ r
  have h1 : V 2 = v (1 : Fin 2) := hV (1 : Fin 2)
  rw [h1, hv]
  have : ∀ i : Fin 2, (if i = 0 then ![1, if b then 1/2 else 3/7] else ![1, 1] : Fin 2 → ℚ) 1 ≠ 0 := by
    intro i
    fin_cases i <;> cases b <;> simp
  exact this i

/-- `wires` meets the hypotheses of `C40_in_cell` and `C43_driver`. -/
example : ∃ (d : Driver (lineEngine.fem wires {})) (p : InCellPotentials ℚ),
    Numbering wires.materials wiresPs ∧ Buildable (lineEngine.fem wires {}) wires.materials ∧
    WellDeclared wires.materials ∧ ExactSolver lineEngine.pcg ∧
    WellPosed lineEngine.analytic (lineEngine.fem wires {}) wires.materials ∧ (wiresPs.map PEC.tag).Nodup ∧
    (Driver.construct lineEngine wires {}).1 = .ok d ∧ (Query.inCell.exec lineEngine d).1 = .ok (.inCell p) ∧
    InCellPotentials.ofJSON p.toJSON = .ok p := by
  obtain ⟨d, p, hd, hp⟩ := wires_inCell {} (by decide)
  exact ⟨d, p, wires_numbering, wires_buildable {}, wires_declared, inverseSolver_exact, wires_posed, by decide, hd, hp,
    (C43_driver lineEngine wires_numbering (wires_buildable {}) hd hp).2⟩

/-- `wires` meets the hypotheses of `C62_inner` and `C62_inner_mean`. -/
example : DistinctNames wires.materials ∧ (∃ d ∈ wires.materials.dielectrics, d.name = "Vacuum_0") ∧
    HasInnerMean wires line true :=
  ⟨wires_distinct, ⟨⟨"Vacuum_0", 1, 1⟩, by decide +kernel, rfl⟩, wires_hasMean⟩

/-- `run` on `wires` succeeds and writes in-cell potentials (open case of `C38_run_partial`). -/
example : ∃ (d : Driver (lineEngine.fem wires {})) (p : InCellPotentials ℚ),
    (Driver.construct lineEngine wires {}).1 = .ok d ∧ (Query.run.exec lineEngine d).1 = .ok .done ∧
    jsonFiles (Query.run.exec lineEngine d).2.2 = [("./inCellPotentials.out.json", p.toJSON)] := by
  obtain ⟨d, p, hd, hp⟩ := wires_inCell {} (by decide)
  obtain ⟨ho, hm⟩ := construct_opts hd
  have hr := (C38_run_partial lineEngine d (by rw [ho]; decide +kernel)).2.1 (by rw [hm]; exact wires_open)
  refine ⟨d, p, hd, ?_, ?_⟩
  · rw [hr.1, hp]; rfl
  · rw [hr.2.1 p hp, ho]
    rfl

end Tulip.Props
