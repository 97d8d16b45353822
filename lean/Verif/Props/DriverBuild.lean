import Verif.Props.DriverExample

/-!
# C27, C29, C30, C65 (construction): building a driver
-/

set_option linter.unusedSectionVars false

namespace Tulip.Props
open Tulip Tulip.Spec Matrix

variable {𝕜 : Type} [Field 𝕜]

/-! ## C27 -/

/-- **C27.** For conductors with distinct names that carry an id: if the ids are not exactly 0..N-1, each once,
with N ≥ 1, the constructor throws and nothing was written; if they are, and the solver can be built on the mesh,
it succeeds. -/
theorem C27_accepts (E : Engine 𝕜) (model : Model 𝕜) (opts : DriverOptions)
    (hn : (model.materials.pecs.map PEC.name).Nodup)
    (hr : ∀ p ∈ model.materials.pecs, ∃ i, getMaterialIdFromName p.name = .ok i) :
    ((¬ ∃ ps, Numbering model.materials ps) →
      ∃ msg, Driver.construct E model opts = (.throw (.runtimeError msg), [])) ∧
    ((∃ ps, Numbering model.materials ps) → Buildable (E.fem model opts) model.materials →
      ∃ d, (Driver.construct E model opts).1 = .ok d ∧ d.model = model ∧ d.opts = opts) := by
  obtain ⟨h1, h2⟩ := checkConductors_iff hn hr
  constructor
  · intro h
    rcases h2 with h2 | ⟨msg, h2⟩
    · exact absurd (h1.mp h2) h
    · refine ⟨msg, ?_⟩
      unfold Driver.construct
      rw [h2, Logged.lift_throw_bind]
  · rintro ⟨ps, hN⟩ hB
    obtain ⟨d, _, _, _, _, e, hm, ho, _⟩ := construct_spec E hN hB
    exact ⟨d, by rw [e], hm, ho⟩

/-- **C27, messages.** What the error says: that there is no conductor; that there is none with id 0 (also if there is one
and some id is negative); that ids are not consecutive. -/
theorem C27_messages (E : Engine 𝕜) (model : Model 𝕜) (opts : DriverOptions)
    (hn : (model.materials.pecs.map PEC.name).Nodup)
    (hr : ∀ p ∈ model.materials.pecs, ∃ i, getMaterialIdFromName p.name = .ok i) :
    (model.materials.pecs = [] →
      Driver.construct E model opts = (.throw (.runtimeError "Model must have at least one conductor."), [])) ∧
    (model.materials.pecs ≠ [] →
      (∀ p ∈ model.materials.pecs, getMaterialIdFromName p.name ≠ .ok 0) ∨
        (∃ p ∈ model.materials.pecs, ∃ i < 0, getMaterialIdFromName p.name = .ok i) →
      Driver.construct E model opts = (.throw (.runtimeError "Conductor with id 0 must be present in the model. "), [])) ∧
    ((∃ p ∈ model.materials.pecs, getMaterialIdFromName p.name = .ok 0) →
      (∀ p ∈ model.materials.pecs, ∀ i < 0, getMaterialIdFromName p.name ≠ .ok i) →
      (¬ ∃ ps, Numbering model.materials ps) →
      Driver.construct E model opts = (.throw (.runtimeError "Conductor ids must be consecutive."), [])) := by
  obtain ⟨ids, hperm, hsort, hc⟩ := checkConductors_sorted hn hr
  have id : ∀ p ∈ model.materials.pecs, getMaterialIdFromName p.name = .ok (Tulip.idOf p.name) := by
    intro p hp
    obtain ⟨i, hi⟩ := hr p hp
    unfold Tulip.idOf
    rw [hi]
  have throw : ∀ {e}, checkConductors model.materials = .throw e → Driver.construct E model opts = (.throw e, []) := by
    intro e h
    unfold Driver.construct
    rw [h, Logged.lift_throw_bind]
  have mem : ∀ i, i ∈ ids ↔ ∃ p ∈ model.materials.pecs, getMaterialIdFromName p.name = .ok i := by
    intro i
    rw [hperm.mem_iff, List.mem_map]
    constructor
    · rintro ⟨p, hp, e⟩
      exact ⟨p, hp, by rw [id p hp, e]⟩
    · rintro ⟨p, hp, e⟩
      rw [id p hp] at e
      exact ⟨p, hp, Outcome.ok.inj e⟩
  refine ⟨fun h => ?_, fun hne h => ?_, fun h0 hneg hN => ?_⟩
  · rw [h] at hperm
    have : ids = [] := by simpa using hperm
    subst this
    exact throw hc
  · match ids, hperm, hsort, hc, mem with
    | [], hperm, _, _, _ => exact absurd (by simpa using hperm.symm) hne
    | a :: t, hperm, hsort, hc, mem =>
      refine throw (hc.trans (if_pos ?_))
      rintro rfl
      rcases h with h | ⟨p, hp, i, hi, e⟩
      · obtain ⟨p, hp, e⟩ := (mem 0).mp List.mem_cons_self
        exact h p hp e
      · rcases List.mem_cons.mp ((mem i).mpr ⟨p, hp, e⟩) with rfl | hm
        · omega
        · have := List.rel_of_pairwise_cons hsort hm
          omega
  · match ids, hperm, hsort, hc, mem with
    | [], _, _, _, mem => exact absurd ((mem 0).mpr h0) (by simp)
    | a :: t, hperm, hsort, hc, mem =>
      have ha : a = 0 := by
        have h1 : ¬ a < 0 := fun h => by
          obtain ⟨p, hp, e⟩ := (mem a).mp List.mem_cons_self
          exact hneg p hp a h e
        rcases List.mem_cons.mp ((mem 0).mpr h0) with h | h
        · exact h.symm
        · have := List.rel_of_pairwise_cons hsort h
          omega
      refine throw (hc.trans ((if_neg (by simpa using ha)).trans (if_neg ?_)))
      intro hcon
      refine hN ((checkConductors_iff hn hr).1.mp (hc.trans ((if_neg (by simpa using ha)).trans (if_pos hcon))))

/-- Messages for no conductor, only number 1, numbers 0 and 2. -/
example : (Driver.construct chainEngine { pair with materials := {} } {}).1 =
      .throw (.runtimeError "Model must have at least one conductor.") ∧
    (Driver.construct chainEngine { pair with materials := { pecs := [⟨"Conductor_1", 2, 0⟩] } } {}).1 =
      .throw (.runtimeError "Conductor with id 0 must be present in the model. ") ∧
    (Driver.construct chainEngine { pair with materials := { pecs := [⟨"Conductor_0", 1, 0⟩, ⟨"Conductor_2", 2, 0⟩] } } {}).1 =
      .throw (.runtimeError "Conductor ids must be consecutive.") := by
  refine ⟨?_, ?_, ?_⟩
  · rw [(C27_messages chainEngine _ {} (by decide +kernel) (by simp)).1 rfl]
  · rw [(C27_messages chainEngine _ {} (by decide +kernel) (fun p hp => by
      rw [List.mem_singleton.mp hp]; exact ⟨1, by decide +kernel⟩)).2.1 (List.cons_ne_nil _ _) (Or.inl (fun p hp => by
      rw [List.mem_singleton.mp hp]; decide +kernel))]
  · have h0 : getMaterialIdFromName "Conductor_0" = .ok 0 := by decide +kernel
    have h2 : getMaterialIdFromName "Conductor_2" = .ok 2 := by decide +kernel
    rw [(C27_messages chainEngine _ {} (by decide +kernel) ?_).2.2 ⟨_, List.mem_cons_self, h0⟩ ?_ ?_]
    · intro p hp
      fin_cases hp
      exacts [⟨0, h0⟩, ⟨2, h2⟩]
    · intro p hp i hi e
      fin_cases hp
      · have := Outcome.ok.inj (h0.symm.trans e)
        omega
      · have := Outcome.ok.inj (h2.symm.trans e)
        omega
    · rintro ⟨ps, hN⟩
      have hl : ps.length = 2 := hN.all.length_eq
      have h1 := hN.ids 1 (by omega)
      have hm := hN.all.mem_iff.mp (List.getElem_mem (l := ps) (n := 1) (by omega))
      revert h1 hm
      generalize ps[1]'(by omega) = q
      intro h1 hm
      fin_cases hm
      · have := Outcome.ok.inj (h0.symm.trans h1)
        omega
      · have := Outcome.ok.inj (h2.symm.trans h1)
        omega

/-- `pair` meets the hypotheses and is accepted; without its conductor 0 it is rejected. -/
example : (∃ d, (Driver.construct chainEngine pair {}).1 = .ok d) ∧
    ∃ msg, Driver.construct chainEngine
      { pair with materials := { pecs := [⟨"Conductor_1", 2, 0⟩] } } {} = (.throw (.runtimeError msg), []) := by
  constructor
  · obtain ⟨d, h, _⟩ := (C27_accepts chainEngine pair {} (by decide +kernel)
      pair_numbering.readable).2 ⟨_, pair_numbering⟩ (pair_buildable {})
    exact ⟨d, h⟩
  · refine (C27_accepts chainEngine _ {} (by decide +kernel) ?_).1 ?_
    · intro p hp
      rw [List.mem_singleton.mp hp]
      exact ⟨1, by decide +kernel⟩
    · rintro ⟨ps, hN⟩
      have hl := hN.all.length_eq
      have h0 := hN.ids 0 (by rw [hl]; decide)
      have hm : ps[0]'(by rw [hl]; decide) ∈ [(⟨"Conductor_1", 2, 0⟩ : PEC ℚ)] := hN.all.mem_iff.mp (List.getElem_mem _)
      rw [List.mem_singleton.mp hm] at h0
      exact absurd h0 (by decide +kernel)

/-! ## C29 -/

/-- The fields the driver holds: one per conductor and variant. -/
theorem C29_excitation (E : Engine 𝕜) {model : Model 𝕜} {opts : DriverOptions} {ps : List (PEC 𝕜)}
    (hN : Numbering model.materials ps) (hB : Buildable (E.fem model opts) model.materials)
    (d : Driver (E.fem model opts)) (hd : (Driver.construct E model opts).1 = .ok d) (b : Bool) :
    ∃ sols : List (SolverSolution (E.fem model opts)), sols.length = ps.length ∧
      (Driver.problem b d).solutions = sols.map some ∧
      ∀ i (hi : i < ps.length) (hi' : i < sols.length),
        (∃ (m : AttrToValueMap 𝕜) (s s' : Solver (E.fem model opts)),
          (∀ a v, SMap.find? m a = some v ↔ (∃ p ∈ model.materials.pecs, p.tag = a) ∧ v = oneVolt ps[i].tag a) ∧
          (s.setDirichletConditions m).solve E.pcg = .ok s' ∧ sols[i] = s'.sol) ∧
        (WellDeclared model.materials → ExactSolver E.pcg →
          WellPosed E.analytic (E.fem model opts) model.materials →
          PrescribedField E.analytic (E.fem model opts) model.materials b (oneVolt ps[i].tag) sols[i]) := by
  obtain ⟨d', s0e, s0m, se, sm, e, hm, ho, he, hmg⟩ := construct_spec E hN hB
  rw [e] at hd
  cases hd
  have key : ∀ (b : Bool) (sp : SolvedProblem (E.fem model opts)) (s0 : Solver (E.fem model opts))
      (sols : List (SolverSolution (E.fem model opts))), Solved E model.materials b ps sp s0 sols →
      ∀ i (hi : i < ps.length) (hi' : i < sols.length),
        (∃ (m : AttrToValueMap 𝕜) (s s' : Solver (E.fem model opts)),
          (∀ a v, SMap.find? m a = some v ↔ (∃ p ∈ model.materials.pecs, p.tag = a) ∧ v = oneVolt ps[i].tag a) ∧
          (s.setDirichletConditions m).solve E.pcg = .ok s' ∧ sols[i] = s'.sol) ∧
        (WellDeclared model.materials → ExactSolver E.pcg →
          WellPosed E.analytic (E.fem model opts) model.materials →
          PrescribedField E.analytic (E.fem model opts) model.materials b (oneVolt ps[i].tag) sols[i]) := by
    intro b sp s0 sols hS i hi hi'
    constructor
    · obtain ⟨s, s', _, h2, h3⟩ := hS.each i hi hi'
      refine ⟨_, s, s', ?_, h2, h3⟩
      intro a v
      rw [prescribe_find, ← dirichlet_keys hN b a]
      split
      · next h => exact ⟨fun h' => ⟨h, (Option.some.inj h').symm⟩, fun h' => by rw [h'.2]; rfl⟩
      · next h => exact ⟨fun h' => (by cases h'), fun h' => absurd h'.1 h⟩
    · intro hW hP hp
      exact (hS.field hN hB hP (Spec.WellPosed.regular hp hN hB hW hS.make) hp.det hi hi').prescribed hN hB hW hS.make
  cases b with
  | false => exact ⟨se, he.len, he.stored, key false _ _ _ he⟩
  | true => exact ⟨sm, hmg.len, hmg.stored, key true _ _ _ hmg⟩

/-- `wires` meets all hypotheses: the field stored for conductor 0 is 1 at node 0 and 0 at node 2. -/
example (opts : DriverOptions) : ∃ d, (Driver.construct lineEngine wires opts).1 = .ok d ∧ ∀ b,
    ∃ t u, (Driver.problem b d).solutions = [some t, some u] ∧
      PrescribedField lineAnalytic line wires.materials b (oneVolt 1) t ∧
      PrescribedField lineAnalytic line wires.materials b (oneVolt 2) u ∧
      t.phi (0 : Fin 4) = 1 ∧ t.phi (2 : Fin 4) = 0 := by
  obtain ⟨d, hd, _⟩ := (C27_accepts lineEngine wires opts (by decide +kernel)
    wires_numbering.readable).2 ⟨_, wires_numbering⟩ (wires_buildable opts)
  refine ⟨d, hd, fun b => ?_⟩
  obtain ⟨sols, hl, hs, h⟩ := C29_excitation lineEngine wires_numbering (wires_buildable opts) d hd b
  match sols, hl with
  | [t, u], _ =>
    have h0 := (h 0 (by decide) Nat.zero_lt_two).2 wires_declared inverseSolver_exact wires_posed
    have h1 := (h 1 (by decide) Nat.one_lt_two).2 wires_declared inverseSolver_exact wires_posed
    refine ⟨t, u, hs, h0, h1, ?_, ?_⟩
    · refine h0.values (0 : Fin 4) 1 ⟨⟨"Shield_0", 1, 1⟩, by decide +kernel, (line_on 1 0).mpr (by decide)⟩ ?_
      intro p _ ho
      rcases (line_on _ _).mp ho with ⟨e, _⟩ | ⟨_, e⟩ | ⟨_, e⟩
      · rw [e]; rfl
      · cases e
      · cases e
    · refine h0.values (2 : Fin 4) 0 ⟨⟨"Conductor_1", 2, 1⟩, by decide +kernel, (line_on 2 2).mpr (by decide)⟩ ?_
      intro p _ ho
      rcases (line_on _ _).mp ho with ⟨_, e⟩ | ⟨e, _⟩ | ⟨_, e⟩
      · cases e
      · rw [e]; rfl
      · cases e

/-! ## C30 -/

/-- **C30.** The solver is given the declared permittivity of each dielectric tag (1 when dielectrics are
ignored), the tags of all open boundaries, all conductor tags at 0 V, and nothing else; when all permittivities
are 1 both variants coincide. -/
theorem C30_inputs (model : Model 𝕜) (hW : WellDeclared model.materials)
    (hn : (model.materials.pecs.map PEC.name).Nodup) :
    (∀ b, ∃ p, buildSolverInputsFromModel model b = .ok p ∧
      (∀ a v, SMap.find? p.domainPermittivities a = some v ↔
        ∃ d ∈ model.materials.dielectrics, d.tag = a ∧ v = if b then 1 else d.relativePermittivity) ∧
      p.openBoundaries.Perm (model.materials.openBoundaries.map OpenBoundary.tag) ∧
      (∀ a v, SMap.find? p.dirichletBoundaries a = some v ↔ v = 0 ∧ ∃ c ∈ model.materials.pecs, c.tag = a) ∧
      p.neumannBoundaries = []) ∧
    ((∀ d ∈ model.materials.dielectrics, d.relativePermittivity = 1) →
      buildSolverInputsFromModel model false = buildSolverInputsFromModel model true) := by
  constructor
  · intro b
    refine ⟨_, buildInputs_ok model hW.names b, ?_, openTags_perm hW, ?_, rfl⟩
    · intro a v
      show SMap.find? (permittivityMap model.materials b) a = some v ↔ _
      rw [permittivityMap_find hW]
      constructor
      · intro h
        split at h
        · next h0 =>
          obtain ⟨d, hd, rfl⟩ := h0
          refine ⟨d, hd, rfl, ?_⟩
          rw [← Option.some.inj h]
          cases b with
          | true => rfl
          | false => exact declaredEps_of_mem hW hd
        · cases h
      · rintro ⟨d, hd, rfl, rfl⟩
        rw [if_pos ⟨d, hd, rfl⟩]
        cases b with
        | true => rfl
        | false => rw [declaredEps_of_mem hW hd]; rfl
    · intro a v
      show SMap.find? (buildAttrToValueMap model.materials.buildNameToAttrMapForPEC (0 : 𝕜)) a = some v ↔ _
      rw [buildAttrToValueMap_find]
      refine and_congr_right (fun _ => ?_)
      constructor
      · rintro ⟨kv, hkv, e⟩
        obtain ⟨p, hp, rfl⟩ := List.mem_map.mp ((pecMap_perm hn).mem_iff.mp hkv)
        exact ⟨p, hp, e⟩
      · rintro ⟨p, hp, e⟩
        exact ⟨(p.name, p.tag), (pecMap_perm hn).mem_iff.mpr (List.mem_map.mpr ⟨p, hp, rfl⟩), e⟩
  · intro h1
    rw [buildInputs_ok model hW.names, buildInputs_ok model hW.names]
    have : permittivityMap model.materials false = permittivityMap model.materials true := by
      refine SMap.ext (permittivityMap_sorted _ _) (permittivityMap_sorted _ _) ?_
      intro k
      rw [permittivityMap_find hW, permittivityMap_find hW]
      split
      · next h =>
        obtain ⟨d, hd, rfl⟩ := h
        rw [declaredEps_of_mem hW hd, h1 d hd]; rfl
      · rfl
    unfold inputsOf
    rw [this]

/-- `wires` meets the hypotheses: vacuum 1, dielectric 2 or 1. -/
example : ∃ p q, buildSolverInputsFromModel wires false = .ok p ∧ buildSolverInputsFromModel wires true = .ok q ∧
    p.domainPermittivities = [(1, 1), (2, 2)] ∧ q.domainPermittivities = [(1, 1), (2, 1)] ∧
    p.openBoundaries = [3] ∧ p.dirichletBoundaries = [(1, 0), (2, 0)] := by
  exact ⟨_, _, rfl, rfl, by decide +kernel, by decide +kernel, by decide +kernel, by decide +kernel⟩

example : WellDeclared wires.materials ∧ (wires.materials.pecs.map PEC.name).Nodup :=
  ⟨wires_declared, wires_numbering.names_nodup⟩

end Tulip.Props
