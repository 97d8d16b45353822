import Verif.Props.DriverBuild
import Verif.Proofs.DriverReady

/-!
# C28, C31, C35, C38, C39: queries on a driver
-/

set_option linter.unusedSectionVars false

namespace Tulip.Props
open Tulip Tulip.Spec Matrix

variable {𝕜 : Type} [Field 𝕜] [DecidableEq 𝕜] [LinearOrder 𝕜]

theorem map_fst {F : FEM 𝕜} {α β : Type} (x : Act F α) (g : α → β) (d : Driver F) :
    ((x >>= fun a => (pure (g a) : Act F β)) d).1 = ((x d).1 >>= fun a => Outcome.ok (g a)) := by
  rw [bind_def]
  rcases x d with ⟨o, d', w⟩
  cases o <;> rfl

theorem map_events {F : FEM 𝕜} {α β : Type} (x : Act F α) (g : α → β) (d : Driver F) :
    ((x >>= fun a => (pure (g a) : Act F β)) d).2.2 = (x d).2.2 := by
  rw [bind_def]
  rcases x d with ⟨o, d', w⟩
  cases o <;> simp [Pure.pure]

theorem exec_pulMTL (E : Engine 𝕜) {F : FEM 𝕜} (d : Driver F) :
    (Query.pulMTL.exec E d).1 = ((Driver.getPULMTL E d).1 >>= fun p => .ok (.pul p)) := map_fst _ _ d

theorem exec_generalizedC (E : Engine 𝕜) {F : FEM 𝕜} (d : Driver F) (b : Bool) :
    ((Query.generalizedC b).exec E d).1 = ((Driver.getGeneralizedCMatrix b d).1 >>= fun p => .ok (.matrix p)) :=
  map_fst _ _ d

/-! ## C39 -/

/-- **C39.** After any sequence of queries on a driver, whatever they answered, every query answers the same as it
would have as the first one, and writes the same, into the folder set last. -/
theorem C39_history (E : Engine 𝕜) {F : FEM 𝕜} (d : Driver F) (history : List Query) (q : Query) :
    (q.exec E (afterQueries E history d)).1 = (q.exec E d).1 ∧
    (q.exec E (afterQueries E history d)).2.2 =
      (q.exec E (d.setExportFolder (folderAfter history d.opts.exportFolder))).2.2 := by
  by_cases hq : ∃ f, q = .setExportFolder f
  · obtain ⟨f, rfl⟩ := hq
    exact ⟨rfl, rfl⟩
  · have hq' : ∀ f, q ≠ .setExportFolder f := fun f h => hq ⟨f, h⟩
    obtain ⟨h1, h2⟩ := (exec_clean E q hq').indep _ _ (afterQueries_forget E history d)
    exact ⟨h1.trans (exec_folder E q hq' d _).1, h2⟩

/-! ## C28 -/

/-- **C28.** On an accepted model a field is stored for every conductor, and after any sequence of queries no query
(the parameters by domains aside, which work on other models) accesses anything out of range. -/
theorem C28_in_range (E : Engine 𝕜) {model : Model 𝕜} {opts : DriverOptions}
    (hn : (model.materials.pecs.map PEC.name).Nodup) {d : Driver (E.fem model opts)}
    (hd : (Driver.construct E model opts).1 = .ok d) :
    (∀ b, ∃ sols : List (SolverSolution (E.fem model opts)), sols.length = model.materials.pecs.length ∧
      (Driver.problem b d).solutions = sols.map some) ∧
    ∀ o, model.determineOpenness = .ok o → ∀ (history : List Query) (q : Query), q ≠ .pulMTLByDomains →
      (q.exec E (afterQueries E history d)).1 ≠ .ub := by
  obtain ⟨ps, hN, hr⟩ := construct_ready E hn hd
  constructor
  · intro b
    obtain ⟨sols, h⟩ := hr b
    exact ⟨sols, by rw [h.len, hN.all.length_eq], h.stored⟩
  · intro o ho history q hq
    have hs : Stable ps o d := ⟨hr, by rw [(construct_opts hd).2]; exact ho⟩
    rw [(C39_history E d history q).1]
    cases q with
    | generalizedC b => exact Safe.bind (getGeneralizedCMatrix_safe hs b).1 (fun _ _ => Safe.pure _ _)
    | cMatrix => exact Safe.bind (getCMatrix_safe hs) (fun _ _ => Safe.pure _ _)
    | lMatrix => exact Safe.bind (getLMatrix_safe hs) (fun _ _ => Safe.pure _ _)
    | floatingMatrix b => exact Safe.bind (getFloatingPotentialsMatrix_safe hs b).1 (fun _ _ => Safe.pure _ _)
    | floating => exact Safe.bind (getFloatingPotentials_safe hs) (fun _ _ => Safe.pure _ _)
    | pulMTL => exact Safe.bind (getPULMTL_safe E hs) (fun _ _ => Safe.pure _ _)
    | pulMTLByDomains => exact absurd rfl hq
    | inCell => exact Safe.bind (getInCellPotentials_safe E hs) (fun _ _ => Safe.pure _ _)
    | run => exact Safe.bind (run_safe E hs) (fun _ _ => Safe.pure _ _)
    | setExportFolder f => exact fun h => by cases h

/-- `wires` meets the hypotheses. -/
example (opts : DriverOptions) : ∃ d, (Driver.construct lineEngine wires opts).1 = .ok d ∧
    ((Query.run.exec lineEngine (afterQueries lineEngine [.inCell, .generalizedC true] d)).1 ≠ .ub) := by
  obtain ⟨d, hd, _⟩ := (C27_accepts lineEngine wires opts (by decide +kernel)
    wires_numbering.readable).2 ⟨_, wires_numbering⟩ (wires_buildable opts)
  exact ⟨d, hd, (C28_in_range lineEngine wires_numbering.names_nodup hd).2 _ wires_open _ _ (fun h => by cases h)⟩

/-! ## C31 -/

/-- **C31.** The generalized capacitance matrix has a row and a column for each conductor, is symmetric, and its
entries are the means of the charges of each pair of stored one-volt fields; for a closed model with one conductor
the call throws. -/
theorem C31_generalized (E : Engine 𝕜) {model : Model 𝕜} {opts : DriverOptions} {ps : List (PEC 𝕜)}
    (hN : Numbering model.materials ps) {d : Driver (E.fem model opts)}
    (hd : (Driver.construct E model opts).1 = .ok d) {o : Openness} (ho : model.determineOpenness = .ok o) (b : Bool) :
    (ps.length = 1 ∧ o = .closed →
      ((Query.generalizedC b).exec E d).1 =
        .throw (.runtimeError "The number of conductors must be at least 2 for closed problems.")) ∧
    (¬ (ps.length = 1 ∧ o = .closed) → ∃ M : Matrix (Fin ps.length) (Fin ps.length) 𝕜,
      ((Query.generalizedC b).exec E d).1 = .ok (.matrix (DMat.ofMatrix M)) ∧ M.IsSymm ∧
      ∀ (i j : Fin ps.length) (t u : SolverSolution (E.fem model opts)),
        (Driver.problem b d).solutions[i.1]? = some (some t) → (Driver.problem b d).solutions[j.1]? = some (some u) →
        M i j = (chargeOn t ps[j].tag + chargeOn u ps[i].tag) / 2) := by
  obtain ⟨sols, hr⟩ := construct_ready_of E hN hd b
  have ho' : d.model.determineOpenness = .ok o := by rw [(construct_opts hd).2]; exact ho
  constructor
  · intro hc
    rw [exec_generalizedC, getGeneralizedCMatrix_single hr ho' hc]
    rfl
  · intro hc
    obtain ⟨d', e, _⟩ := getGeneralizedCMatrix_spec hr ho' hc
    refine ⟨symPart (rawCharges ps sols hr.len), ?_, symPart_symm _, ?_⟩
    · rw [exec_generalizedC, e]
      rfl
    · intro i j t u ht hu
      rw [hr.stored, List.getElem?_map] at ht hu
      have hi : i.1 < sols.length := by rw [hr.len]; exact i.2
      have hj : j.1 < sols.length := by rw [hr.len]; exact j.2
      rw [List.getElem?_eq_getElem hi] at ht
      rw [List.getElem?_eq_getElem hj] at hu
      cases ht
      cases hu
      rfl

/-- `pair` and `wires` meet the hypotheses of the second part. -/
example (opts : DriverOptions) : (∃ d, (Driver.construct chainEngine pair opts).1 = .ok d) ∧
    ¬ (pairPs.length = 1 ∧ Openness.closed = .closed) ∧ Numbering pair.materials pairPs ∧
    pair.determineOpenness = .ok .closed := by
  obtain ⟨d, hd, _⟩ := (C27_accepts chainEngine pair opts (by decide +kernel)
    pair_numbering.readable).2 ⟨_, pair_numbering⟩ (pair_buildable opts)
  exact ⟨⟨d, hd⟩, by decide, pair_numbering, pair_closed⟩

/-! ## C35 -/

/-- **C35.** The capacitance matrix is eps0 times the reduced generalized capacitance matrix, the inductance matrix
mu0 times the inverse of the reduced one without dielectrics; both are symmetric; and L C = mu0 eps0 I when all
permittivities are 1. -/
theorem C35_inductance (E : Engine 𝕜) {model : Model 𝕜} {opts : DriverOptions} {ps : List (PEC 𝕜)}
    (hN : Numbering model.materials ps) {d : Driver (E.fem model opts)}
    (hd : (Driver.construct E model opts).1 = .ok d) {o : Openness} (ho : model.determineOpenness = .ok o)
    {p : PULParameters 𝕜} (hp : (Query.pulMTL.exec E d).1 = .ok (.pul p)) :
    ∃ (n : Nat) (G G0 : Matrix (Fin (n + 1)) (Fin (n + 1)) 𝕜) (C C0 : Matrix (Fin n) (Fin n) 𝕜),
      ps.length = n + 1 ∧
      ((Query.generalizedC false).exec E d).1 = .ok (.matrix (DMat.ofMatrix G)) ∧
      ((Query.generalizedC true).exec E d).1 = .ok (.matrix (DMat.ofMatrix G0)) ∧
      getCFromGeneralizedC (DMat.ofMatrix G) o = .ok (DMat.ofMatrix C) ∧
      getCFromGeneralizedC (DMat.ofMatrix G0) o = .ok (DMat.ofMatrix C0) ∧
      p.C = DMat.ofMatrix (E.eps0SI • C) ∧ C.IsSymm ∧ C0.det ≠ 0 ∧
      p.L = DMat.ofMatrix (E.mu0SI • C0⁻¹) ∧ (E.mu0SI • C0⁻¹).IsSymm ∧
      ((∀ x ∈ model.materials.dielectrics, x.relativePermittivity = 1) →
        Buildable (E.fem model opts) model.materials → WellDeclared model.materials → ExactSolver E.pcg →
        WellPosed E.analytic (E.fem model opts) model.materials →
        (E.mu0SI • C0⁻¹) * (E.eps0SI • C) = (E.mu0SI * E.eps0SI) • 1) := by
  have hp' : (Driver.getPULMTL E d).1 = .ok p := by
    rw [exec_pulMTL] at hp
    rcases h : (Driver.getPULMTL E d).1 with q | _ | _ | _ <;> rw [h] at hp <;> cases hp
    rfl
  obtain ⟨M, L, hM, hL, eC, eL⟩ := getPULMTL_ok hp'
  have ho' : d.model.determineOpenness = .ok o := by rw [(construct_opts hd).2]; exact ho
  obtain ⟨se, hre⟩ := construct_ready_of E hN hd false
  obtain ⟨sm, hrm⟩ := construct_ready_of E hN hd true
  by_cases hc : ps.length = 1 ∧ o = .closed
  · exfalso
    unfold Driver.getCMatrix at hM
    rw [Act.bind_throw (getGeneralizedCMatrix_single hre ho' hc)] at hM
    cases hM
  obtain ⟨d1, e1, _⟩ := getGeneralizedCMatrix_spec hre ho' hc
  obtain ⟨d2, e2, _⟩ := getGeneralizedCMatrix_spec hrm ho' hc
  rw [getCMatrix_eq hre ho' hc] at hM
  rw [getLMatrix_eq hrm ho' hc] at hL
  have g1 : ((Query.generalizedC false).exec E d).1 =
      .ok (.matrix (DMat.ofMatrix (symPart (rawCharges ps se hre.len)))) := by rw [exec_generalizedC, e1]; rfl
  have g2 : ((Query.generalizedC true).exec E d).1 =
      .ok (.matrix (DMat.ofMatrix (symPart (rawCharges ps sm hrm.len)))) := by rw [exec_generalizedC, e2]; rfl
  have hvac : (∀ x ∈ model.materials.dielectrics, x.relativePermittivity = 1) →
        Buildable (E.fem model opts) model.materials → WellDeclared model.materials → ExactSolver E.pcg →
        WellPosed E.analytic (E.fem model opts) model.materials →
        symPart (rawCharges ps se hre.len) = symPart (rawCharges ps sm hrm.len) := by
    intro h1 hB hW hP hw
    obtain ⟨d', s0e, s0m, se', sm', ec, _, _, he, hmg⟩ := construct_spec E hN hB
    rw [ec] at hd
    cases hd
    have hinj : ∀ {a b : List (SolverSolution (E.fem model opts))}, a.map some = b.map some → a = b :=
      fun h => List.map_injective_iff.mpr (Option.some_injective _) h
    have k1 : se = se' := hinj (hre.stored.symm.trans he.stored)
    have k2 : sm = sm' := hinj (hrm.stored.symm.trans hmg.stored)
    have := vacuum_fields hN hB hW hP hw h1 he hmg
    have k3 : se = sm := by rw [k1, k2, this]
    subst k3
    rfl
  have s1 := symPart_symm (rawCharges ps se hre.len)
  have s2 := symPart_symm (rawCharges ps sm hrm.len)
  revert g1 g2 hM hL hvac s1 s2
  generalize symPart (rawCharges ps se hre.len) = G
  generalize symPart (rawCharges ps sm hrm.len) = G0
  have hpos : 0 < ps.length := List.length_pos_of_ne_nil hN.nonempty
  obtain ⟨n, hn⟩ : ∃ n, ps.length = n + 1 := ⟨ps.length - 1, by omega⟩
  revert G G0
  rw [hn]
  intro G G0 hM hL g1 g2 hvac s1 s2
  obtain ⟨C, rfl⟩ := (getC_ne_ub G o).2 M hM
  rcases hC0 : getCFromGeneralizedC (DMat.ofMatrix G0) o with M0 | _ | _ | _
  · rw [hC0, Outcome.ok_bind] at hL
    obtain ⟨C0, rfl⟩ := (getC_ne_ub G0 o).2 M0 hC0
    rw [invert_ofMatrix] at hL
    split at hL
    · cases hL
    · next hdet =>
      cases hL
      have sC0 := getC_symm s2 hC0
      refine ⟨n, G, G0, C, C0, rfl, g1, g2, hM, hC0, ?_, getC_symm s1 hM, hdet, ?_, ?_, ?_⟩
      · rw [eC]
        show (⟨_, _, _⟩ : DMat 𝕜) = ⟨_, _, _⟩
        congr 1
        funext i j
        exact mul_comm _ _
      · rw [eL]
        show (⟨_, _, _⟩ : DMat 𝕜) = ⟨_, _, _⟩
        congr 1
        funext i j
        exact mul_comm _ _
      · unfold IsSymm
        rw [transpose_smul, transpose_nonsing_inv, sC0]
      · intro h1 hB hW hP hw
        have hG := hvac h1 hB hW hP hw
        have hCC : C = C0 := by
          rw [hG, hC0] at hM
          have h1 := Outcome.ok.inj hM
          unfold DMat.ofMatrix at h1
          exact (eq_of_heq (DMat.mk.inj h1).2.2).symm
        rw [hCC, smul_mul_smul_comm, nonsing_inv_mul _ (isUnit_iff_ne_zero.mpr hdet)]
  all_goals (rw [hC0] at hL; cases hL)

/-- The driver of `pair`, on any mesh, returns parameters. -/
theorem pairOn_parameters (M : Mesh ℚ) (g : Int) (opts : DriverOptions) :
    ∃ d p, (Driver.construct chainEngine (pairOn M g) opts).1 = .ok d ∧
    (Query.pulMTL.exec chainEngine d).1 = .ok (.pul p) := by
  have pair_closed : (pairOn M g).determineOpenness = .ok .closed := rfl
  have hnum : Numbering (pairOn M g).materials pairPs := pair_numbering
  have hbld : Buildable (chainEngine.fem (pairOn M g) opts) (pairOn M g).materials := pair_buildable opts
  obtain ⟨d, hd, hm, _⟩ := (C27_accepts chainEngine (pairOn M g) opts (show (pair.materials.pecs.map PEC.name).Nodup by decide +kernel)
    hnum.readable).2 ⟨_, hnum⟩ hbld
  have ho : d.model.determineOpenness = .ok .closed := by rw [hm]; exact pair_closed
  obtain ⟨se, hre⟩ := construct_ready_of chainEngine hnum hd false
  obtain ⟨sols, hl, hs, hx⟩ := C29_excitation chainEngine hnum hbld d hd true
  have hrm : Ready true pairPs sols d := ⟨by rw [hm]; exact hnum, hl, hs⟩
  obtain ⟨p, hp⟩ := getPULMTL_closed (E := chainEngine) (n := 0) hre hrm ho rfl (by
    have hf := (hx 1 (by decide) (by rw [hl]; decide)).2 pair_declared inverseSolver_exact pair_posed
    have hq := (pair_charges hf).2
    rw [det_fin_one]
    have e : symPart (rawCharges pairPs sols hl) (1 : Fin 2) (1 : Fin 2) = 1 / 2 := by
      show (chargeOn (sols[1]'(by rw [hl]; decide)) 2 + chargeOn (sols[1]'(by rw [hl]; decide)) 2) / 2 = 1 / 2
      have hq' : chargeOn (sols[1]'(by rw [hl]; decide)) 2 = 1 / 2 := by
        refine hq.trans ?_
        show (1 : ℚ) * (oneVolt 2 2 - oneVolt 2 1) / 2 = 1 / 2
        simp [oneVolt]
      rw [hq']; norm_num
    show symPart (rawCharges pairPs sols hl) (1 : Fin 2) (1 : Fin 2) ≠ 0
    rw [e]; norm_num)
  exact ⟨d, p, hd, by rw [exec_pulMTL, hp]; rfl⟩

/-- The driver of `pair` returns parameters. -/
theorem pair_parameters (opts : DriverOptions) : ∃ d p, (Driver.construct chainEngine pair opts).1 = .ok d ∧
    Numbering pair.materials pairPs ∧ pair.determineOpenness = .ok .closed ∧
    (Query.pulMTL.exec chainEngine d).1 = .ok (.pul p) := by
  obtain ⟨d, p, hd, hp⟩ := pairOn_parameters pair.mesh pair.groundConductorId opts
  exact ⟨d, p, hd, pair_numbering, pair_closed, hp⟩

/-! ## C38 -/

theorem jsonFiles_append (a b : List (Event 𝕜)) : jsonFiles (a ++ b) = jsonFiles a ++ jsonFiles b := by
  unfold jsonFiles
  rw [List.filterMap_append]

theorem jsonFiles_fields {o : DriverOptions} {w : List (Event 𝕜)} (h : ∀ e ∈ w, FieldEvent o e) : jsonFiles w = [] := by
  unfold jsonFiles
  rw [List.filterMap_eq_nil_iff]
  intro e he
  obtain ⟨v, name, G, t, rfl, _⟩ := h e he
  rfl

/-- A computation that writes no JSON file, followed by writing one with its result. -/
theorem save_spec {F : FEM 𝕜} {α : Type} {x : Act F α} {d : Driver F} (hk : Keeps x) (hf : FieldsOnly d.opts x)
    (name : String) (g : α → Json 𝕜) :
    ((x >>= fun a => Act.read Driver.opts >>= fun o => Act.emit [.json (o.exportFolder ++ name) (g a)]) d).1 =
        ((x d).1 >>= fun _ => .ok ⟨⟩) ∧
      (∀ a, (x d).1 = .ok a → jsonFiles ((x >>= fun a => Act.read Driver.opts >>= fun o =>
        Act.emit [.json (o.exportFolder ++ name) (g a)]) d).2.2 = [(d.opts.exportFolder ++ name, g a)]) ∧
      ((∀ a, (x d).1 ≠ .ok a) → jsonFiles ((x >>= fun a => Act.read Driver.opts >>= fun o =>
        Act.emit [.json (o.exportFolder ++ name) (g a)]) d).2.2 = []) := by
  rw [bind_def]
  have h1 := hf d rfl
  have h2 := forget_opts (hk d)
  rcases e : x d with ⟨ox, d', w⟩
  rw [e] at h1 h2
  cases ox with
  | ok a =>
    refine ⟨rfl, ?_, fun h => absurd rfl (h a)⟩
    intro a' ha
    cases ha
    show jsonFiles (w ++ ([] ++ [.json (d'.opts.exportFolder ++ name) (g a)])) = _
    rw [jsonFiles_append, jsonFiles_fields h1]
    simp only at h2
    rw [h2]
    rfl
  | throw _ => exact ⟨rfl, (fun _ h => by cases h), fun _ => jsonFiles_fields h1⟩
  | ub => exact ⟨rfl, (fun _ h => by cases h), fun _ => jsonFiles_fields h1⟩
  | nonfinite => exact ⟨rfl, (fun _ h => by cases h), fun _ => jsonFiles_fields h1⟩

/-- **C38, for every export folder** (partial: where the files go is not always into the folder). For closed models `run`
writes one JSON file, its path being the export folder and `pulmtln.out.json` written one after the other, with the
parameters `getPULMTL` answers; for open ones `inCellPotentials.out.json` with the answer of `getInCellPotentials`; it
fails, writing no JSON file, exactly when these fail; for semiopen models it throws and writes nothing; when the openness
cannot be determined it fails in the same way, changes nothing and writes nothing. -/
theorem C38_anywhere_partial (E : Engine 𝕜) {F : FEM 𝕜} (d : Driver F) :
    (d.model.determineOpenness = .ok .closed →
      (Query.run.exec E d).1 = ((Query.pulMTL.exec E d).1 >>= fun _ => .ok .done) ∧
      (∀ p, (Query.pulMTL.exec E d).1 = .ok (.pul p) →
        jsonFiles (Query.run.exec E d).2.2 = [(d.opts.exportFolder ++ "pulmtln.out.json", p.toJSON)]) ∧
      ((∀ a, (Query.run.exec E d).1 ≠ .ok a) → jsonFiles (Query.run.exec E d).2.2 = [])) ∧
    (d.model.determineOpenness = .ok .open_ →
      (Query.run.exec E d).1 = ((Query.inCell.exec E d).1 >>= fun _ => .ok .done) ∧
      (∀ p, (Query.inCell.exec E d).1 = .ok (.inCell p) →
        jsonFiles (Query.run.exec E d).2.2 = [(d.opts.exportFolder ++ "inCellPotentials.out.json", p.toJSON)]) ∧
      ((∀ a, (Query.run.exec E d).1 ≠ .ok a) → jsonFiles (Query.run.exec E d).2.2 = [])) ∧
    (d.model.determineOpenness = .ok .semiopen →
      (Query.run.exec E d).1 = .throw (.runtimeError "Openness of the model is not supported.") ∧ (Query.run.exec E d).2.2 = []) ∧
    ((∀ o, d.model.determineOpenness ≠ .ok o) → Query.run.exec E d =
      (d.model.determineOpenness >>= fun _ => .ok .done, d, [])) := by
  have hr1 : (Query.run.exec E d).1 = ((Driver.run E d).1 >>= fun _ => .ok .done) := map_fst _ _ d
  have hr2 : (Query.run.exec E d).2.2 = (Driver.run E d).2.2 := map_events _ _ d
  have hrun : Driver.run E d = ((Act.lift d.model.determineOpenness >>= fun openness => match openness with
    | .closed => do
      let pul ← Driver.buildPULParametersForModel E
      let opts ← Act.read Driver.opts
      Act.emit [.json (opts.exportFolder ++ "pulmtln.out.json") pul.toJSON]
    | .open_ => do
      let inCell ← Driver.getInCellPotentials E
      let opts ← Act.read Driver.opts
      Act.emit [.json (opts.exportFolder ++ "inCellPotentials.out.json") inCell.toJSON]
    | .semiopen => Act.lift (.throw (.runtimeError "Openness of the model is not supported."))) : Act F Unit) d := by
    unfold Driver.run
    rw [Act.read_bind]
    rfl
  refine ⟨fun ho => ?_, fun ho => ?_, fun ho => ?_, fun hno => ?_⟩
  · rw [ho, Act.lift_ok_bind] at hrun
    obtain ⟨h1, h2, h3⟩ := save_spec (d := d) (getPULMTL_clean E).keeps (getPULMTL_fields E) "pulmtln.out.json"
      PULParameters.toJSON
    have hq := exec_pulMTL E d
    rw [hr1, hr2, hrun, hq]
    rw [show Driver.buildPULParametersForModel E = Driver.getPULMTL (F := F) E from rfl]
    rw [h1]
    refine ⟨?_, ?_, ?_⟩
    · rcases (Driver.getPULMTL E d).1 with _ | _ | _ | _ <;> rfl
    · intro p hp
      refine h2 p ?_
      rcases h : (Driver.getPULMTL E d).1 with q | _ | _ | _ <;> rw [h] at hp <;> cases hp
      rfl
    · intro hn
      refine h3 (fun a ha => ?_)
      rw [ha] at hn
      exact hn _ rfl
  · rw [ho, Act.lift_ok_bind] at hrun
    obtain ⟨h1, h2, h3⟩ := save_spec (d := d) (getInCellPotentials_clean E).keeps (getInCellPotentials_fields E)
      "inCellPotentials.out.json" InCellPotentials.toJSON
    have hq : (Query.inCell.exec E d).1 = ((Driver.getInCellPotentials E d).1 >>= fun p => .ok (.inCell p)) :=
      map_fst _ _ d
    rw [hr1, hr2, hrun, hq]
    simp only
    rw [h1]
    refine ⟨?_, ?_, ?_⟩
    · rcases (Driver.getInCellPotentials E d).1 with _ | _ | _ | _ <;> rfl
    · intro p hp
      refine h2 p ?_
      rcases h : (Driver.getInCellPotentials E d).1 with q | _ | _ | _ <;> rw [h] at hp <;> cases hp
      rfl
    · intro hn
      refine h3 (fun a ha => ?_)
      rw [ha] at hn
      exact hn _ rfl
  · rw [ho, Act.lift_ok_bind] at hrun
    rw [hr1, hr2, hrun]
    exact ⟨rfl, rfl⟩
  · have hrun' : Driver.run E d = (d.model.determineOpenness >>= fun _ => .ok ⟨⟩, d, []) := by
      rw [hrun]
      rcases h : d.model.determineOpenness with o | _ | _ | _
      · exact absurd h (hno o)
      all_goals rfl
    show (Driver.run E >>= fun _ => pure Answer.done : Act F (Answer 𝕜)) d = _
    show Act.bind (Driver.run E) _ d = _
    unfold Act.bind
    rw [hrun']
    rcases h : d.model.determineOpenness with o | _ | _ | _
    · exact absurd h (hno o)
    all_goals rfl

/-- **C38** (partial: proved for export folders written with a final slash). For closed models `run` writes one JSON
file, `pulmtln.out.json` in the export folder, with the parameters `getPULMTL` answers; for open ones
`inCellPotentials.out.json` with the answer of `getInCellPotentials`; it fails, writing no JSON file, exactly when
these fail; for semiopen models it throws and writes nothing. -/
theorem C38_run_partial (E : Engine 𝕜) {F : FEM 𝕜} (d : Driver F)
    (hfolder : d.opts.exportFolder.toList.getLast? = some '/') :
    (d.model.determineOpenness = .ok .closed →
      (Query.run.exec E d).1 = ((Query.pulMTL.exec E d).1 >>= fun _ => .ok .done) ∧
      (∀ p, (Query.pulMTL.exec E d).1 = .ok (.pul p) →
        jsonFiles (Query.run.exec E d).2.2 = [(fileIn d.opts.exportFolder "pulmtln.out.json", p.toJSON)]) ∧
      ((∀ a, (Query.run.exec E d).1 ≠ .ok a) → jsonFiles (Query.run.exec E d).2.2 = [])) ∧
    (d.model.determineOpenness = .ok .open_ →
      (Query.run.exec E d).1 = ((Query.inCell.exec E d).1 >>= fun _ => .ok .done) ∧
      (∀ p, (Query.inCell.exec E d).1 = .ok (.inCell p) →
        jsonFiles (Query.run.exec E d).2.2 = [(fileIn d.opts.exportFolder "inCellPotentials.out.json", p.toJSON)]) ∧
      ((∀ a, (Query.run.exec E d).1 ≠ .ok a) → jsonFiles (Query.run.exec E d).2.2 = [])) ∧
    (d.model.determineOpenness = .ok .semiopen →
      (Query.run.exec E d).1 = .throw (.runtimeError "Openness of the model is not supported.") ∧ (Query.run.exec E d).2.2 = []) := by
  have hin : ∀ name, fileIn d.opts.exportFolder name = d.opts.exportFolder ++ name := fun name => if_pos hfolder
  rw [hin, hin]
  obtain ⟨h1, h2, h3, _⟩ := C38_anywhere_partial E d
  exact ⟨h1, h2, h3⟩

/-- The driver of `pair` meets the hypotheses with the default folder. -/
example : ∃ (d : Driver (chainEngine.fem pair {})) (p : PULParameters ℚ), (Driver.construct chainEngine pair {}).1 = .ok d ∧
    (Query.run.exec chainEngine d).1 = .ok .done ∧
    jsonFiles (Query.run.exec chainEngine d).2.2 = [("./pulmtln.out.json", p.toJSON)] := by
  obtain ⟨d, p, hd, _, _, hp⟩ := pair_parameters {}
  obtain ⟨ho, hm⟩ := construct_opts hd
  have hr := (C38_run_partial chainEngine d (by rw [ho]; decide +kernel)).1 (by rw [hm]; exact pair_closed)
  refine ⟨d, p, hd, ?_, ?_⟩
  · rw [hr.1, hp]; rfl
  · rw [hr.2.1 p hp, ho]
    rfl

/-- The full C38 is false of the code: with the export folder `out` the results are not written into it. -/
theorem C38_refuted : ∃ (E : Engine ℚ) (F : FEM ℚ) (d : Driver F) (p : PULParameters ℚ),
    d.opts.exportFolder = "out" ∧ d.model.determineOpenness = .ok .closed ∧
    (Query.pulMTL.exec E d).1 = .ok (.pul p) ∧ fileIn "out" "pulmtln.out.json" = "out/pulmtln.out.json" ∧
    jsonFiles (Query.run.exec E d).2.2 = [("outpulmtln.out.json", p.toJSON)] := by
  obtain ⟨d, p, hd, _, _, hp⟩ := pair_parameters { exportFolder := "out/" }
  obtain ⟨ho, hm⟩ := construct_opts hd
  have ho' : d.model.determineOpenness = .ok .closed := by rw [hm]; exact pair_closed
  have hp' : (Query.pulMTL.exec chainEngine (d.setExportFolder "out")).1 = .ok (.pul p) := by
    rw [(exec_folder chainEngine .pulMTL (fun f h => by cases h) d "out").1]
    exact hp
  refine ⟨chainEngine, _, d.setExportFolder "out", p, rfl, ho', hp', by decide +kernel, ?_⟩
  obtain ⟨h1, h2, h3⟩ := save_spec (d := d.setExportFolder "out") (getPULMTL_clean chainEngine).keeps
    (getPULMTL_fields chainEngine) "pulmtln.out.json" PULParameters.toJSON
  have hr2 : (Query.run.exec chainEngine (d.setExportFolder "out")).2.2 =
      (Driver.run chainEngine (d.setExportFolder "out")).2.2 := map_events _ _ _
  rw [hr2]
  unfold Driver.run
  rw [Act.read_bind]
  rw [show (d.setExportFolder "out").model.determineOpenness = .ok .closed from ho', Act.lift_ok_bind]
  refine h2 p ?_
  rw [exec_pulMTL] at hp'
  rcases h : (Driver.getPULMTL chainEngine (d.setExportFolder "out")).1 with q | _ | _ | _ <;> rw [h] at hp' <;> cases hp'
  rfl

end Tulip.Props
