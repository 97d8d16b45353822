import Verif.Props.DriverWires

/-!
# C65: exported field files
-/

set_option linter.unusedSectionVars false

namespace Tulip.Props
open Tulip Tulip.Spec Matrix

variable {𝕜 : Type} [Field 𝕜] [DecidableEq 𝕜] [LinearOrder 𝕜] {F : FEM 𝕜}

theorem zip_flatMap {α β γ : Type} (f : α → β → List γ) : ∀ (as : List α) (bs : List β) (h : bs.length = as.length),
    (as.zip bs).flatMap (fun q => f q.1 q.2) =
      (List.finRange as.length).flatMap (fun i => f as[i] (bs[i.1]'(by rw [h]; exact i.2)))
  | [], bs, h => by simp
  | a :: as, [], h => by cases h
  | a :: as, b :: bs, h => by
    have ih := zip_flatMap f as bs (by simpa using h)
    rw [List.zip_cons_cons, List.flatMap_cons, ih]
    simp only [List.length_cons]
    rw [List.finRange_succ, List.flatMap_cons, List.flatMap_map]
    rfl

/-- **C65, construction.** Constructing a driver writes, for every conductor, with and without dielectrics, the stored
field, under the name of the conductor, in one file for each enabled viewer, and nothing else; the stored field is that
of one volt on the conductor and zero on all others. -/
theorem C65_construct (E : Engine 𝕜) {model : Model 𝕜} {opts : DriverOptions} {ps : List (PEC 𝕜)}
    (hN : Numbering model.materials ps) (hB : Buildable (E.fem model opts) model.materials)
    {d : Driver (E.fem model opts)} (hd : (Driver.construct E model opts).1 = .ok d) :
    ∃ t : Bool → Fin ps.length → SolverSolution (E.fem model opts),
      (Driver.construct E model opts).2 =
        (List.finRange ps.length).flatMap (fun i => fieldFiles opts ps[i].name false (t false i)) ++
        (List.finRange ps.length).flatMap (fun i => fieldFiles opts ps[i].name true (t true i)) ∧
      ∀ (b : Bool) (i : Fin ps.length), (Driver.problem b d).solutions[i.1]? = some (some (t b i)) ∧
        (WellDeclared model.materials → ExactSolver E.pcg →
          WellPosed E.analytic (E.fem model opts) model.materials →
          PrescribedField E.analytic (E.fem model opts) model.materials b (oneVolt ps[i].tag) (t b i)) := by
  obtain ⟨d', s0e, s0m, se, sm, ec, hmod, hopt, hSe, hSm⟩ := construct_spec E hN hB
  rw [ec] at hd
  cases hd
  refine ⟨fun b i => if b then sm[i.1]'(by rw [hSm.len]; exact i.2) else se[i.1]'(by rw [hSe.len]; exact i.2), ?_, ?_⟩
  · rw [ec]
    simp only [exportFieldSolutions_eq]
    rw [zip_flatMap (fun p t => fieldFiles opts p.name false t) ps se hSe.len,
      zip_flatMap (fun p t => fieldFiles opts p.name true t) ps sm hSm.len]
    rfl
  · intro b i
    cases b with
    | false =>
      refine ⟨?_, fun hW hP hw => ?_⟩
      · show d.electric.solutions[i.1]? = _
        rw [hSe.stored, List.getElem?_map, List.getElem?_eq_getElem (by rw [hSe.len]; exact i.2)]
        rfl
      · exact (hSe.field hN hB hP (Spec.WellPosed.regular hw hN hB hW hSe.make) hw.det i.2 _).prescribed hN hB hW hSe.make
    | true =>
      refine ⟨?_, fun hW hP hw => ?_⟩
      · show d.magnetic.solutions[i.1]? = _
        rw [hSm.stored, List.getElem?_map, List.getElem?_eq_getElem (by rw [hSm.len]; exact i.2)]
        rfl
      · exact (hSm.field hN hB hP (Spec.WellPosed.regular hw hN hB hW hSm.make) hw.det i.2 _).prescribed hN hB hW hSm.make

/-- **C65, in-cell potentials.** Computing them writes, with and without dielectrics, the stored one-volt fields again
(if there is more than one conductor) and then, for every conductor, the field its in-cell potentials were computed
from: the one a new solver finds with the potentials stored for the conductor. -/
theorem C65_in_cell (E : Engine 𝕜) {model : Model 𝕜} {opts : DriverOptions} {ps : List (PEC 𝕜)}
    (hN : Numbering model.materials ps) (hB : Buildable (E.fem model opts) model.materials)
    (hW : WellDeclared model.materials) (hP : ExactSolver E.pcg)
    (hw : WellPosed E.analytic (E.fem model opts) model.materials) (ht : (ps.map PEC.tag).Nodup)
    {d : Driver (E.fem model opts)} (hd : (Driver.construct E model opts).1 = .ok d) {p : InCellPotentials 𝕜}
    (hp : (Query.inCell.exec E d).1 = .ok (.inCell p)) :
    ∃ t u : Bool → Fin ps.length → SolverSolution (E.fem model opts),
      (Query.inCell.exec E d).2.2 = [false, true].flatMap (fun b =>
        (if ps.length = 1 then [] else (List.finRange ps.length).flatMap (fun i => fieldFiles opts ps[i].name b (t b i))) ++
        (List.finRange ps.length).flatMap (fun i =>
          fieldFiles opts (ps[i].name ++ "_prescribed_and_others_floating") b (u b i))) ∧
      ∀ (b : Bool) (i : Fin ps.length), (Driver.problem b d).solutions[i.1]? = some (some (t b i)) ∧
        ∃ r, SMap.find? (cellSide b p) (i.1 : Int) = some r ∧
          ∀ (v : Fin ps.length → 𝕜) (m : AttrToValueMap 𝕜) (raw : SolverSolution (E.fem model opts)),
            (∀ j : Fin ps.length, SMap.find? r.conductorPotentials (j.1 : Int) = some (v j)) → ConductorsAt ps v m →
            ∃ inputs s0 s, buildSolverInputsFromModel model b = .ok inputs ∧
              Solver.make E.analytic (E.fem model opts) inputs raw = .ok s0 ∧
              (s0.setDirichletConditions m).solve E.pcg = .ok s ∧ s.sol = u b i ∧
              s.getMultipolarCoefficients E.analytic opts.multipolarExpansionOrder = .ok r.ab := by
  have hev : (Query.inCell.exec E d).2.2 = (Driver.getInCellPotentials E d).2.2 := map_events _ _ _
  have hinv := (getInCellPotentials_inv E (exec_inCell E hp)).2.2.2.2
  have key : ∀ b, ∃ t u : Fin ps.length → SolverSolution (E.fem model opts),
      (Driver.getFieldParameters E b d).2.2 =
        (if ps.length = 1 then [] else (List.finRange ps.length).flatMap (fun i => fieldFiles opts ps[i].name b (t i))) ++
        (List.finRange ps.length).flatMap (fun i =>
          fieldFiles opts (ps[i].name ++ "_prescribed_and_others_floating") b (u i)) ∧
      ∀ i : Fin ps.length, (Driver.problem b d).solutions[i.1]? = some (some (t i)) ∧
        ∃ r, SMap.find? (cellSide b p) (i.1 : Int) = some r ∧
          ∀ (v : Fin ps.length → 𝕜) (m : AttrToValueMap 𝕜) (raw : SolverSolution (E.fem model opts)),
            (∀ j : Fin ps.length, SMap.find? r.conductorPotentials (j.1 : Int) = some (v j)) → ConductorsAt ps v m →
            ∃ inputs s0 s, buildSolverInputsFromModel model b = .ok inputs ∧
              Solver.make E.analytic (E.fem model opts) inputs raw = .ok s0 ∧
              (s0.setDirichletConditions m).solve E.pcg = .ok s ∧ s.sol = u i ∧
              s.getMultipolarCoefficients E.analytic opts.multipolarExpansionOrder = .ok r.ab := by
    intro b
    obtain ⟨s0, sols, hS, R, rs, h1, h2, h3, h4, h5⟩ := inCell_data E hN hB hd hp b
    refine ⟨fun i => sols[i.1]'(by rw [hS.len]; exact i.2), rowField R sols hS.len, ?_, ?_⟩
    · rw [h5]
      unfold conductorEvents rowEvents
      simp only [exportFieldSolutions_eq]
      rw [zip_flatMap (fun p t => fieldFiles opts p.name b t) ps sols hS.len]
    · intro i
      refine ⟨?_, rs i, by rw [h4]; exact find_finRange rs i, ?_⟩
      · rw [hS.stored, List.getElem?_map, List.getElem?_eq_getElem (by rw [hS.len]; exact i.2)]
        rfl
      · intro v m raw hv hm
        obtain ⟨_, _, _, r4⟩ := reconstruct_inv (h3 i)
        have hvR : v = R i := by
          funext j
          have := hv j
          rw [r4] at this
          exact (Option.some.inj ((find_finRange (R i) j).symm.trans this)).symm
        subst hvR
        obtain ⟨R', hR', hcell⟩ := C40_in_cell E hN hB hW hP hw ht hd hp b
        have hRR : R' = R := by
          have := h1.symm.trans hR'
          have := Answer.matrix.inj (Outcome.ok.inj this)
          unfold DMat.ofMatrix at this
          exact (eq_of_heq (DMat.mk.inj this).2.2).symm
        subst hRR
        obtain ⟨inputs, a0, a, r, c1, c2, c3, _, c5, _, _, c8, _⟩ := hcell i m raw hm
        have hr : r = rs i := by
          rw [h4] at c5
          exact (Option.some.inj ((find_finRange rs i).symm.trans c5)).symm
        subst hr
        obtain ⟨s1, s2, e1, e2, e3, _⟩ := rowField_solved hN hB hW hP hw ht hS R' i hm raw
        rw [buildInputs_ok model hW.names b] at c1
        cases c1
        rw [e1] at c2
        cases c2
        rw [e2] at c3
        cases c3
        exact ⟨_, _, _, buildInputs_ok model hW.names b, e1, e2, e3, c8⟩
  choose t u h1 h2 using key
  refine ⟨t, u, ?_, h2⟩
  rw [hev, hinv, h1, h1]
  simp only [List.flatMap_cons, List.flatMap_nil, List.append_nil]

theorem save_events {α : Type} {x : Act F α} {d : Driver F} (hf : FieldsOnly d.opts x) (name : String)
    (g : α → Json 𝕜) : ∀ e ∈ ((x >>= fun a => Act.read Driver.opts >>= fun o =>
      Act.emit [.json (o.exportFolder ++ name) (g a)]) d).2.2, FieldEvent d.opts e ∨ ∃ path c, e = .json path c := by
  intro e he
  have h1 := hf d rfl
  rw [bind_def] at he
  rcases ex : x d with ⟨ox, d', w⟩
  rw [ex] at h1 he
  cases ox with
  | ok a =>
    rcases List.mem_append.mp he with he | he
    · exact Or.inl (h1 e he)
    · exact Or.inr ⟨_, _, List.mem_singleton.mp he⟩
  | throw _ => exact Or.inl (h1 e he)
  | ub => exact Or.inl (h1 e he)
  | nonfinite => exact Or.inl (h1 e he)

theorem run_events (E : Engine 𝕜) (d : Driver F) : ∀ e ∈ (Driver.run E d).2.2,
    FieldEvent d.opts e ∨ ∃ path c, e = .json path c := by
  intro e he
  unfold Driver.run at he
  rw [Act.read_bind] at he
  rcases ho : d.model.determineOpenness with o | _ | _ | _
  · rw [ho, Act.lift_ok_bind] at he
    cases o with
    | closed => exact save_events (getPULMTL_fields E) "pulmtln.out.json" PULParameters.toJSON e he
    | open_ => exact save_events (getInCellPotentials_fields E) "inCellPotentials.out.json" InCellPotentials.toJSON e he
    | semiopen => cases he
  all_goals (rw [ho] at he; cases he)

/-- **C65, export disabled.** With both viewers disabled, constructing a driver, whether it succeeds or not, writes
nothing, and no query writes a field. -/
theorem C65_disabled (E : Engine 𝕜) {opts : DriverOptions} (h1 : opts.exportParaViewSolution = false)
    (h2 : opts.exportVisItSolution = false) :
    (∀ model : Model 𝕜, (Driver.construct E model opts).2 = []) ∧
    (∀ (F : FEM 𝕜) (d : Driver F), d.opts = opts → ∀ q : Query, fieldPaths (q.exec E d).2.2 = []) := by
  have hno : ∀ e : Event 𝕜, ¬ FieldEvent opts e := by
    rintro e ⟨v, _, _, _, _, h3, h4⟩
    cases v with
    | paraView => rw [h3 rfl] at h1; cases h1
    | visIt => rw [h4 rfl] at h2; cases h2
  constructor
  · intro model
    rw [List.eq_nil_iff_forall_not_mem]
    intro e he
    exact hno e (construct_fields E model e he)
  · intro F d hd q
    unfold fieldPaths
    rw [List.filterMap_eq_nil_iff]
    intro e he
    by_cases hq : q = .run
    · subst hq
      have hr : (Query.run.exec E d).2.2 = (Driver.run E d).2.2 := map_events _ _ _
      rw [hr] at he
      rcases run_events E d e he with h | ⟨path, c, rfl⟩
      · rw [hd] at h
        exact absurd h (hno e)
      · rfl
    · exact absurd (exec_fields E q hq d hd e he) (hno e)

/-- Options exporting to ParaView in the folder `o`. -/
def exportOpts : DriverOptions :=
  { exportFolder := "o", exportParaViewSolution := true, exportVisItSolution := false }

/-- `wires` meets all hypotheses, with export to ParaView. -/
example : ∃ (d : Driver (lineEngine.fem wires exportOpts)) (p : InCellPotentials ℚ),
    (Driver.construct lineEngine wires exportOpts).1 = .ok d ∧
    (Query.inCell.exec lineEngine d).1 = .ok (.inCell p) ∧ (wiresPs.map PEC.tag).Nodup :=
  let ⟨d, p, hd, hp⟩ := wires_inCell exportOpts (by decide)
  ⟨d, p, hd, hp, by decide⟩

/-- What is written when constructing the driver of `wires`. -/
example : fieldPaths (Driver.construct lineEngine wires exportOpts).2 =
    ["o/ParaView/Shield_0", "o/ParaView/Conductor_1",
      "o/ParaView/Shield_0_no_dielectrics", "o/ParaView/Conductor_1_no_dielectrics"] := by
  obtain ⟨d, hd, _⟩ := (C27_accepts lineEngine wires exportOpts (by decide +kernel)
    wires_numbering.readable).2 ⟨_, wires_numbering⟩ (wires_buildable _)
  obtain ⟨t, ht, _⟩ := C65_construct lineEngine wires_numbering (wires_buildable _) hd
  rw [ht]
  show [exportOpts.exportFolder ++ "/ParaView/" ++ "Shield_0" ++ "", exportOpts.exportFolder ++ "/ParaView/" ++
    "Conductor_1" ++ "", exportOpts.exportFolder ++ "/ParaView/" ++ "Shield_0" ++ "_no_dielectrics",
    exportOpts.exportFolder ++ "/ParaView/" ++ "Conductor_1" ++ "_no_dielectrics"] = _
  decide +kernel

end Tulip.Props
