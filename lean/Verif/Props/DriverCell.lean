import Verif.Props.DriverQuery
import Verif.Props.Results
import Verif.Proofs.DriverCell

/-!
# C40, C41, C43 (results of the driver), C65: in-cell potentials and exported fields
-/

set_option linter.unusedSectionVars false

namespace Tulip.Props
open Tulip Tulip.Spec Matrix

variable {𝕜 : Type} [Field 𝕜] [DecidableEq 𝕜] [LinearOrder 𝕜]

theorem exec_inCell (E : Engine 𝕜) {F : FEM 𝕜} {d : Driver F} {p : InCellPotentials 𝕜}
    (h : (Query.inCell.exec E d).1 = .ok (.inCell p)) : (Driver.getInCellPotentials E d).1 = .ok p := by
  have hq : (Query.inCell.exec E d).1 = ((Driver.getInCellPotentials E d).1 >>= fun p => .ok (.inCell p)) :=
    map_fst _ _ d
  rw [hq] at h
  rcases h1 : (Driver.getInCellPotentials E d).1 with q | _ | _ | _ <;> rw [h1] at h <;> cases h
  rfl

/-- Everything known about a successful in-cell computation. -/
theorem inCell_data (E : Engine 𝕜) {model : Model 𝕜} {opts : DriverOptions} {ps : List (PEC 𝕜)}
    (hN : Numbering model.materials ps) (hB : Buildable (E.fem model opts) model.materials)
    {d : Driver (E.fem model opts)} (hd : (Driver.construct E model opts).1 = .ok d) {p : InCellPotentials 𝕜}
    (hp : (Query.inCell.exec E d).1 = .ok (.inCell p)) (b : Bool) :
    ∃ (s0 : Solver (E.fem model opts)) (sols : List (SolverSolution (E.fem model opts)))
      (hS : Solved E model.materials b ps (Driver.problem b d) s0 sols)
      (R : Matrix (Fin ps.length) (Fin ps.length) 𝕜) (rs : Fin ps.length → FieldReconstruction 𝕜),
      ((Query.floatingMatrix b).exec E d).1 = .ok (.matrix (DMat.ofMatrix R)) ∧
      (∀ i, Spec.FloatingPotentials (symPart (rawCharges ps sols hS.len)) i (R i)) ∧
      (∀ i, reconstruct E model opts ((Driver.problem b d).solver.setSolution (rowField R sols hS.len i))
        (rowMap R i) = .ok (rs i)) ∧
      cellSide b p = (List.finRange ps.length).map (fun i => ((i.1 : Int), rs i)) ∧
      (Driver.getFieldParameters E b d).2.2 = (if ps.length = 1 then [] else conductorEvents opts b ps sols) ++
        (List.finRange ps.length).flatMap (rowEvents opts b R sols hS.len (fun i => ps[i].name)) := by
  obtain ⟨ho, _, he, hm, _⟩ := getInCellPotentials_inv E (exec_inCell E hp)
  obtain ⟨d', s0e, s0m, se, sm, ec, hmod, hopt, hSe, hSm⟩ := construct_spec E hN hB
  rw [ec] at hd
  cases hd
  have hS : ∃ s0 sols, Solved E model.materials b ps (Driver.problem b d) s0 sols := by
    cases b with
    | false => exact ⟨s0e, se, hSe⟩
    | true => exact ⟨s0m, sm, hSm⟩
  obtain ⟨s0, sols, hS⟩ := hS
  have hr : Ready b ps sols d := ⟨by rw [hmod]; exact hN, hS.len, hS.stored⟩
  have hres : (Driver.getFieldParameters E b d).1 = .ok (cellSide b p) := by
    cases b with
    | false => exact he
    | true => exact hm
  obtain ⟨R, rs, h1, h2, h3, h4, h5⟩ := getFieldParameters_inv E hr ho hres
  rw [hmod, hopt] at h3
  rw [hopt] at h5
  refine ⟨s0, sols, hS, R, rs, ?_, h2, h3, h4, h5⟩
  have : ((Query.floatingMatrix b).exec E d).1 =
      ((Driver.getFloatingPotentialsMatrix b d).1 >>= fun p => .ok (.matrix p)) := map_fst _ _ d
  rw [this, h1]
  rfl

theorem find_finRange {α : Type} {n : Nat} (f : Fin n → α) (i : Fin n) :
    SMap.find? ((List.finRange n).map (fun i => ((i.1 : Int), f i))) (i.1 : Int) = some (f i) := by
  apply SMap.find?_of_mem
  · unfold SMap.Sorted
    rw [List.pairwise_map]
    exact (List.pairwise_lt_finRange n).imp (fun h => by simpa using h)
  · exact List.mem_map.mpr ⟨i, List.mem_finRange _, rfl⟩

theorem reconstruct_inv {E : Engine 𝕜} {F : FEM 𝕜} {model : Model 𝕜} {opts : DriverOptions} {s : Solver F}
    {v : SMap Int 𝕜} {r : FieldReconstruction 𝕜} (h : reconstruct E model opts s v = .ok r) :
    Driver.getInnerRegionAveragePotential model s true = .ok r.innerRegionAveragePotential ∧
    s.getCenterOfCharge E.analytic = .ok r.expansionCenter ∧
    s.getMultipolarCoefficients E.analytic opts.multipolarExpansionOrder = .ok r.ab ∧ r.conductorPotentials = v := by
  unfold reconstruct at h
  obtain ⟨av, h1, h⟩ := Outcome.bind_eq_ok.mp h
  obtain ⟨c, h2, h⟩ := Outcome.bind_eq_ok.mp h
  obtain ⟨ab, h3, h⟩ := Outcome.bind_eq_ok.mp h
  cases h
  exact ⟨h1, h2, h3, rfl⟩

/-! ## C40 -/

/-- **C40.** What in-cell potentials hold for conductor `i` is computed from the field a new solver of the model
finds with row `i` of the floating potentials prescribed on the conductors. -/
theorem C40_in_cell (E : Engine 𝕜) {model : Model 𝕜} {opts : DriverOptions} {ps : List (PEC 𝕜)}
    (hN : Numbering model.materials ps) (hB : Buildable (E.fem model opts) model.materials)
    (hW : WellDeclared model.materials) (hP : ExactSolver E.pcg)
    (hw : WellPosed E.analytic (E.fem model opts) model.materials) (ht : (ps.map PEC.tag).Nodup)
    {d : Driver (E.fem model opts)} (hd : (Driver.construct E model opts).1 = .ok d) {p : InCellPotentials 𝕜}
    (hp : (Query.inCell.exec E d).1 = .ok (.inCell p)) (b : Bool) :
    ∃ R : Matrix (Fin ps.length) (Fin ps.length) 𝕜,
      ((Query.floatingMatrix b).exec E d).1 = .ok (.matrix (DMat.ofMatrix R)) ∧
      ∀ (i : Fin ps.length) (m : AttrToValueMap 𝕜) (raw : SolverSolution (E.fem model opts)),
        ConductorsAt ps (R i) m →
        ∃ inputs s0 s r, buildSolverInputsFromModel model b = .ok inputs ∧
          Solver.make E.analytic (E.fem model opts) inputs raw = .ok s0 ∧
          (s0.setDirichletConditions m).solve E.pcg = .ok s ∧
          PrescribedField E.analytic (E.fem model opts) model.materials b (fun a => (SMap.find? m a).getD 0) s.sol ∧
          SMap.find? (cellSide b p) (i.1 : Int) = some r ∧
          Driver.getInnerRegionAveragePotential model s true = .ok r.innerRegionAveragePotential ∧
          s.getCenterOfCharge E.analytic = .ok r.expansionCenter ∧
          s.getMultipolarCoefficients E.analytic opts.multipolarExpansionOrder = .ok r.ab ∧
          (∀ j : Fin ps.length, SMap.find? r.conductorPotentials (j.1 : Int) = some (R i j)) ∧
          r.conductorPotentials.length = ps.length := by
  obtain ⟨s0, sols, hS, R, rs, h1, h2, h3, h4, h5⟩ := inCell_data E hN hB hd hp b
  refine ⟨R, h1, ?_⟩
  intro i m raw hm
  obtain ⟨s1, s2, e1, e2, e3, e4, e5, e6⟩ := rowField_solved hN hB hW hP hw ht hS R i hm raw
  obtain ⟨⟨hist, _, hrun⟩, _⟩ := hS.reached
  have hset := runOps_setup hist hrun
  obtain ⟨_, _, m3, _⟩ := make_fields hS.make
  have hcong : reconstruct E model opts ((Driver.problem b d).solver.setSolution (rowField R sols hS.len i)) (rowMap R i) =
      reconstruct E model opts s2 (rowMap R i) := by
    refine reconstruct_congr E model opts _ ?_ ?_ ?_
    · rw [e3]; rfl
    · rw [e4]
      show (Driver.problem b d).solver.params.openBoundaries = _
      rw [hset.openB, m3]
    · unfold Solver.chargedBoundaries
      rw [e4]
      show SMap.keys (Driver.problem b d).solver.params.dirichletBoundaries ++
        SMap.keys (Driver.problem b d).solver.params.neumannBoundaries = _
      rw [hset.neumann, m3, hS.keys, e5]
  have hr := h3 i
  rw [hcong] at hr
  obtain ⟨r1, r2, r3, r4⟩ := reconstruct_inv hr
  refine ⟨_, s1, s2, rs i, buildInputs_ok model hW.names b, e1, e2, ?_, ?_, r1, r2, r3, ?_, ?_⟩
  · rw [e3]
    exact e6.prescribed hN hB hW hS.make
  · rw [h4]
    exact find_finRange rs i
  · intro j
    rw [r4]
    exact find_finRange (R i) j
  · rw [r4]
    unfold rowMap
    simp

/-! ## C43 -/

theorem keyed_finRange {α : Type} {n : Nat} (f : Fin n → α) :
    KeyedFromZero ((List.finRange n).map (fun i => ((i.1 : Int), f i))) := by
  unfold KeyedFromZero SMap.keys
  rw [List.length_map, List.length_finRange, List.map_map]
  apply List.ext_getElem
  · simp
  · intro k h1 h2
    simp

theorem sorted_finRange {α : Type} {n : Nat} (f : Fin n → α) :
    SMap.Sorted ((List.finRange n).map (fun i => ((i.1 : Int), f i))) := by
  unfold SMap.Sorted
  rw [List.pairwise_map]
  exact (List.pairwise_lt_finRange n).imp (fun h => by simpa using h)

/-- **C43, results of the driver.** All maps in the answer are keyed 0..n-1, so that writing it to JSON and reading
it back gives the same results. -/
theorem C43_driver (E : Engine 𝕜) {model : Model 𝕜} {opts : DriverOptions} {ps : List (PEC 𝕜)}
    (hN : Numbering model.materials ps) (hB : Buildable (E.fem model opts) model.materials)
    {d : Driver (E.fem model opts)} (hd : (Driver.construct E model opts).1 = .ok d) {p : InCellPotentials 𝕜}
    (hp : (Query.inCell.exec E d).1 = .ok (.inCell p)) :
    AllKeyedFromZero p ∧ InCellPotentials.ofJSON p.toJSON = .ok p := by
  have key : ∀ b, KeyedFromZero (cellSide b p) ∧ SMap.Sorted (cellSide b p) ∧
      ∀ kv ∈ cellSide b p, KeyedFromZero kv.2.conductorPotentials ∧ SMap.Sorted kv.2.conductorPotentials := by
    intro b
    obtain ⟨s0, sols, hS, R, rs, h1, h2, h3, h4, h5⟩ := inCell_data E hN hB hd hp b
    rw [h4]
    refine ⟨keyed_finRange rs, sorted_finRange rs, ?_⟩
    intro kv hkv
    obtain ⟨i, _, rfl⟩ := List.mem_map.mp hkv
    obtain ⟨_, _, _, r4⟩ := reconstruct_inv (h3 i)
    simp only
    rw [r4]
    exact ⟨keyed_finRange (R i), sorted_finRange (R i)⟩
  obtain ⟨a1, a2, a3⟩ := key false
  obtain ⟨b1, b2, b3⟩ := key true
  have hk : AllKeyedFromZero p := ⟨a1, b1, fun kv h => (a3 kv h).1, fun kv h => (b3 kv h).1⟩
  have hs : MapsSorted p := ⟨a2, b2, fun kv h => (a3 kv h).2, fun kv h => (b3 kv h).2⟩
  obtain ⟨q, hq, _, h⟩ := C43_round_trip p hs
  rw [h hk] at hq
  exact ⟨hk, hq⟩

end Tulip.Props
