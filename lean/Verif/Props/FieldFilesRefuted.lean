import Verif.Props.FieldFiles
import Verif.Props.DriverDomains
import Verif.Proofs.FieldDomains

/-!
# C112: where it fails
-/

set_option linter.unusedSectionVars false

namespace Tulip.Props
open Tulip Tulip.Spec Matrix

section
variable {𝕜 : Type}

theorem fieldAt_append (path : String) (as bs : List (Event 𝕜)) :
    fieldAt path (as ++ bs) = (fieldAt path bs).orElse (fun _ => fieldAt path as) := by
  induction as with
  | nil =>
    rw [List.nil_append]
    cases fieldAt path bs <;> rfl
  | cons e as ih =>
    cases e with
    | field v p F t =>
      rw [List.cons_append, fieldAt, ih, fieldAt]
      cases fieldAt path bs <;> rfl
    | json p c => rw [List.cons_append, fieldAt, ih, fieldAt] <;> simp
    | usage => rw [List.cons_append, fieldAt, ih, fieldAt] <;> simp

theorem fieldAt_some_of_mem {path : String} {v : Viewer} {F : FEM 𝕜} {t : SolverSolution F} : ∀ {evs : List (Event 𝕜)},
    .field v path F t ∈ evs → ∃ v' G u, fieldAt path evs = some (v', ⟨G, u⟩) ∧ .field v' path G u ∈ evs
  | [], h => by cases h
  | e :: evs, h => by
    by_cases hex : ∃ v G, ∃ t : SolverSolution G, Event.field v path G t ∈ evs
    · obtain ⟨v, G, t, hm⟩ := hex
      obtain ⟨v', G', u, h1, h2⟩ := fieldAt_some_of_mem hm
      refine ⟨v', G', u, ?_, List.mem_cons_of_mem _ h2⟩
      cases e with
      | field v p F t => rw [fieldAt, h1]; rfl
      | json _ _ => exact h1
      | usage => exact h1
    · have h1 := (List.mem_cons.mp h).resolve_right (fun hm => hex ⟨_, _, _, hm⟩)
      subst h1
      have hnone : fieldAt path evs = none := by
        clear h
        induction evs with
        | nil => rfl
        | cons e evs ih =>
          have ih := ih (fun ⟨v, G, t, hm⟩ => hex ⟨v, G, t, List.mem_cons_of_mem _ hm⟩)
          cases e with
          | field v p F t =>
            rw [fieldAt, ih, if_neg]
            · rfl
            · rintro rfl
              exact hex ⟨_, _, _, List.mem_cons_self ..⟩
          | json _ _ => exact ih
          | usage => exact ih
      refine ⟨_, _, _, ?_, List.mem_cons_self ..⟩
      rw [fieldAt, hnone, if_pos rfl]
      rfl

end

/-- Discretisation of `nested` by the line, of its domains by the chain. -/
noncomputable def twoEngine : Engine ℚ where
  disc := fun m _ => if m.elems.length = 2 then line else chain
  pcg := inverseSolver
  analytic := noAnalytic
  eps0SI := 1 / 7
  mu0SI := 5
  raw := fun _ _ => ⟨fun _ => 0, fun _ => 0, fun _ => 0⟩

theorem nested_numbering : Numbering nested.materials nested.materials.pecs := by
  refine ⟨List.Perm.refl _, ?_, by simp [nested]⟩
  intro i h
  match i, h with
  | 0, _ => show getMaterialIdFromName "Conductor_0" = .ok 0; decide +kernel
  | 1, _ => show getMaterialIdFromName "Conductor_1" = .ok 1; decide +kernel
  | 2, _ => show getMaterialIdFromName "Conductor_2" = .ok 2; decide +kernel

theorem nested_domains :
    buildDomains nested = .ok [(0, ⟨0, [0, 1], [0], [0, 1, 2]⟩), (1, ⟨1, [1, 2], [1], [3, 4, 5]⟩)] :=
  buildDomainsFuel_eq (k := 100) (by decide +kernel)

/-- C112 is false of the code with queries by domains: after one, the file of conductor 0 of `nested` holds a field on the
discretisation of a domain (with 3 nodes, that of `nested` has 4), not the one stored for the conductor. -/
theorem C112_refuted : ∃ (d : Driver (twoEngine.fem nested exportOpts)) (G : FEM ℚ) (u : SolverSolution G),
    (Driver.construct twoEngine nested exportOpts).1 = .ok d ∧
    fieldAt (fieldPath exportOpts .paraView "Conductor_0" false)
      ((Driver.construct twoEngine nested exportOpts).2 ++ written twoEngine [.pulMTLByDomains] d) =
        some (.paraView, ⟨G, u⟩) ∧
    (twoEngine.fem nested exportOpts).n = 4 ∧ G.n = 3 := by
  have hF : twoEngine.fem nested exportOpts = line := rfl
  have hB : Buildable (twoEngine.fem nested exportOpts) nested.materials := by
    rw [hF]
    exact {
      bdr := line_valid
      bdrAttrs := List.cons_ne_nil _ _
      points := show ∀ q ∈ line.bdr, 1 ≤ q.attr by decide +kernel
      pecs := by decide +kernel
      opens := by intro o ho; cases ho
      names := by decide +kernel
      dielectrics := by intro d hd; cases hd }
  obtain ⟨d, hd, hm, ho⟩ := (C27_accepts twoEngine nested exportOpts (by decide +kernel) nested_numbering.readable).2
    ⟨_, nested_numbering⟩ hB
  have hds := nested_domains
  rw [← hm] at hds
  have hdist : DistinctNames nested.materials := show ((declared nested.materials).map Prod.fst).Nodup by decide +kernel
  -- the model of the first domain
  obtain ⟨sub, hsub, hel, _⟩ := (C25_domain_model nested.mesh nested.materials hdist
    ⟨0, [0, 1], [0], [0, 1, 2]⟩).1 (by decide +kernel)
  have hfem : ∀ (q : Int × Domain) (s : Model ℚ) (m : Mesh ℚ),
      q ∈ [((0 : Int), (⟨0, [0, 1], [0], [0, 1, 2]⟩ : Domain)), (1, ⟨1, [1, 2], [1], [3, 4, 5]⟩)] →
      buildModelForDomain nested.mesh nested.materials q.2 = .ok (s, m) → twoEngine.fem s exportOpts = chain := by
    intro q s m hq hs
    have hlen : s.mesh.elems.length = 1 := by
      obtain ⟨s', hs', hel, _⟩ := (C25_domain_model nested.mesh nested.materials hdist q.2).1 (by
        fin_cases hq <;> decide +kernel)
      rw [hs'] at hs
      cases hs
      rw [hel]
      fin_cases hq <;> decide +kernel
    show (if s.mesh.elems.length = 2 then line else chain) = chain
    rw [if_neg (by omega)]
  have hmats : sub.materials = { pecs := [⟨"Conductor_0", 1, 0⟩, ⟨"Conductor_1", 2, 0⟩] } := by
    have := congrArg (fun x => match x with | Outcome.ok (y : Model ℚ × Mesh ℚ) => y.1.materials | _ => {}) hsub
    exact this.symm.trans (by decide +kernel)
  have hN' : Numbering sub.materials [⟨"Conductor_0", 1, 0⟩, ⟨"Conductor_1", 2, 0⟩] := by
    rw [hmats]
    refine ⟨List.Perm.refl _, ?_, by simp⟩
    intro i h
    match i, h with
    | 0, _ => show getMaterialIdFromName "Conductor_0" = .ok 0; decide +kernel
    | 1, _ => show getMaterialIdFromName "Conductor_1" = .ok 1; decide +kernel
  have hB' : Buildable (twoEngine.fem sub exportOpts) sub.materials := by
    rw [hfem (0, ⟨0, [0, 1], [0], [0, 1, 2]⟩) sub _ (List.mem_cons_self ..) hsub, hmats]
    exact {
      bdr := chain_valid
      bdrAttrs := List.cons_ne_nil _ _
      points := show ∀ q ∈ chain.bdr, 1 ≤ q.attr by decide +kernel
      pecs := by decide +kernel
      opens := by intro o ho; cases ho
      names := by decide +kernel
      dielectrics := by intro d hd; cases hd }
  obtain ⟨sd, hsd, _⟩ := (C27_accepts twoEngine sub exportOpts (by rw [hmats]; decide +kernel) hN'.readable).2 ⟨_, hN'⟩ hB'
  obtain ⟨t, hev, _⟩ := C65_construct twoEngine hN' hB' hsd
  have hmem : Event.field .paraView (fieldPath exportOpts .paraView "Conductor_0" false) _ (t false 0) ∈
      (Driver.construct twoEngine sub exportOpts).2 := by
    rw [hev]
    refine List.mem_append_left _ (List.mem_flatMap.mpr ⟨0, List.mem_finRange _, ?_⟩)
    rw [← exportFieldSolutions_eq]
    exact mem_export.mpr ⟨.paraView, rfl, rfl⟩
  have hmem' := byDomains_first twoEngine hds (by rw [hm]; exact hsub) _ (by rw [ho]; exact hmem)
  have hw : written twoEngine [.pulMTLByDomains] d = (Query.pulMTLByDomains.exec twoEngine d).2.2 := List.append_nil _
  obtain ⟨v, G, u, h1, h2⟩ := fieldAt_some_of_mem (hw ▸ hmem')
  have hGv : G = chain ∧ v = .paraView := by
    rw [hw, byDomains_events twoEngine hds] at h2
    have h3 := h2
    obtain ⟨q, hq, s, m, hs, v', p, u', he⟩ := domainsPULLoop_on twoEngine d.model (ds := _) _ [] (fun _ h => h) _ h2
    rw [hm] at hs
    rw [ho] at he
    constructor
    · have hG : G = twoEngine.fem s exportOpts := by injection he
      rw [hG]
      exact hfem q s m hq hs
    · obtain ⟨w, n, G', t', he', -, hvis⟩ := domainsPULLoop_fields twoEngine d.model _ [] _ h3
      have hwv : v = w := by injection he'
      subst hwv
      cases v with
      | paraView => rfl
      | visIt =>
        have := hvis rfl
        rw [ho] at this
        cases this
  obtain ⟨rfl, rfl⟩ := hGv
  refine ⟨d, _, u, hd, ?_, rfl, rfl⟩
  rw [fieldAt_append, h1]
  rfl

/-- Two conductors without underscore before the number, the first one called as the file of the second one without
dielectrics. -/
def misnamed : Model ℚ where
  materials := { pecs := [⟨"1_no_dielectrics", 1, 0⟩, ⟨"1", 2, 0⟩], dielectrics := [⟨"Dielectric_1", 1, 3⟩] }
  mesh := pair.mesh

theorem misnamed_numbering : Numbering misnamed.materials misnamed.materials.pecs := by
  refine ⟨List.Perm.refl _, ?_, by simp [misnamed]⟩
  intro i h
  match i, h with
  | 0, _ => show getMaterialIdFromName "1_no_dielectrics" = .ok 0; decide +kernel
  | 1, _ => show getMaterialIdFromName "1" = .ok 1; decide +kernel

/-- Names without underscore: of `misnamed` constructing the driver alone leaves, in the file of conductor 0, the field of
conductor 1 without dielectrics; it is not the one stored for conductor 0. -/
theorem C112_names : ∃ (d : Driver (chainEngine.fem misnamed exportOpts))
    (t u : SolverSolution (chainEngine.fem misnamed exportOpts)),
    (Driver.construct chainEngine misnamed exportOpts).1 = .ok d ∧
    getMaterialIdFromName "1_no_dielectrics" = .ok 0 ∧
    (Driver.problem false d).solutions[0]? = some (some t) ∧
    fieldAt (fieldPath exportOpts .paraView "1_no_dielectrics" false)
      (Driver.construct chainEngine misnamed exportOpts).2 = some (.paraView, ⟨_, u⟩) ∧ t ≠ u := by
  have hB : Buildable (chainEngine.fem misnamed exportOpts) misnamed.materials := {
    bdr := chain_valid
    bdrAttrs := List.cons_ne_nil _ _
    points := show ∀ q ∈ chain.bdr, 1 ≤ q.attr by decide +kernel
    pecs := by decide +kernel
    opens := by intro o ho; cases ho
    names := by decide +kernel
    dielectrics := by
      intro d hd
      rw [List.mem_singleton.mp hd]
      exact ⟨le_refl _, 1, List.mem_singleton.mpr rfl, le_refl _⟩ }
  obtain ⟨d, hd, hm, ho⟩ := (C27_accepts chainEngine misnamed exportOpts (by decide +kernel) misnamed_numbering.readable).2
    ⟨_, misnamed_numbering⟩ hB
  obtain ⟨t, hev, ht⟩ := C65_construct chainEngine misnamed_numbering hB hd
  refine ⟨d, t false ⟨0, by decide⟩, t true ⟨1, by decide⟩, hd, by decide +kernel, (ht false ⟨0, by decide⟩).1, ?_, ?_⟩
  · rw [hev]
    show fieldAt _ [Event.field .paraView (fieldPath exportOpts .paraView "1_no_dielectrics" false) _ (t false ⟨0, by decide⟩),
      .field .paraView (fieldPath exportOpts .paraView "1" false) _ (t false ⟨1, by decide⟩),
      .field .paraView (fieldPath exportOpts .paraView "1_no_dielectrics" true) _ (t true ⟨0, by decide⟩),
      .field .paraView (fieldPath exportOpts .paraView "1" true) _ (t true ⟨1, by decide⟩)] = _
    have h4 : fieldPath exportOpts .paraView "1" true = fieldPath exportOpts .paraView "1_no_dielectrics" false := by
      decide +kernel
    simp only [fieldAt]
    rw [if_pos h4]
    rfl
  · intro heq
    have hposed : WellPosed noAnalytic chain misnamed.materials := by
      refine Spec.WellPosed.of_system (fun b => ?_) chain_det
      have : systemMatrix noAnalytic chain misnamed.materials b =
          (if b then (1 : ℚ) else 3) • !![1, -1, 0; -1, 2, -1; 0, -1, 1] := by
        ext i j
        cases b <;> fin_cases i <;> fin_cases j <;> decide +kernel
      rw [this]
      refine regular_smul (chainK_regular _ ⟨⟨"1_no_dielectrics", 1, 0⟩, by decide +kernel, ?_⟩) (by cases b <;> norm_num)
      exact (chain_on 1 0).mpr (Or.inl ⟨rfl, rfl⟩)
    have hW : WellDeclared misnamed.materials := ⟨by decide +kernel, by decide +kernel, by decide +kernel⟩
    have p0 := (ht false ⟨0, by decide⟩).2 hW inverseSolver_exact hposed
    have p1 := (ht true ⟨1, by decide⟩).2 hW inverseSolver_exact hposed
    have hon : OnBoundary chain 1 (0 : Fin 3) := (chain_on 1 0).mpr (Or.inl ⟨rfl, rfl⟩)
    have hno : ¬ OnBoundary chain 2 (0 : Fin 3) := by
      rw [chain_on]
      simp
    have hex : ∃ p ∈ misnamed.materials.pecs, OnBoundary chain p.tag (0 : Fin 3) := ⟨⟨"1_no_dielectrics", 1, 0⟩, by decide +kernel, hon⟩
    have v0 := p0.values (0 : Fin 3) 1 hex (by
      intro p hp ha
      rcases List.mem_cons.mp hp with rfl | hp
      · decide +kernel
      · rw [List.mem_singleton.mp hp] at ha
        exact absurd ha hno)
    have v1 := p1.values (0 : Fin 3) 0 hex (by
      intro p hp ha
      rcases List.mem_cons.mp hp with rfl | hp
      · decide +kernel
      · rw [List.mem_singleton.mp hp] at ha
        exact absurd ha hno)
    rw [heq] at v0
    exact absurd (v0.symm.trans v1) (by decide +kernel)

/-- `wires` meets the hypotheses of `C112_files_partial`: after the in-cell potentials the file of conductor 1 without dielectrics
holds its field. -/
example : ∃ (d : Driver (lineEngine.fem wires exportOpts)) (t : SolverSolution (lineEngine.fem wires exportOpts)),
    (Driver.construct lineEngine wires exportOpts).1 = .ok d ∧
    (Driver.problem true d).solutions[1]? = some (some t) ∧
    fieldAt "o/ParaView/Conductor_1_no_dielectrics" ((Driver.construct lineEngine wires exportOpts).2 ++
      written lineEngine [.inCell, .run, .pulMTL] d) = some (.paraView, ⟨_, t⟩) := by
  obtain ⟨d, hd, hm, ho⟩ := (C27_accepts lineEngine wires exportOpts (by decide +kernel)
    wires_numbering.readable).2 ⟨_, wires_numbering⟩ (wires_buildable _)
  obtain ⟨t, ht⟩ := C112_files_partial lineEngine wires_numbering (wires_buildable _) (by decide +kernel) hd
    [.inCell, .run, .pulMTL] (by
      intro q hq
      fin_cases hq <;> exact ⟨by simp, by simp⟩)
  refine ⟨d, t true ⟨1, by decide⟩, hd, ?_, ?_⟩
  · exact (ht true ⟨1, by decide⟩).1
  · have h3 := ((ht true ⟨1, by decide⟩).2.2.2 .paraView).1 rfl
    have hp : fieldPath exportOpts .paraView (wiresPs[(⟨1, by decide⟩ : Fin wiresPs.length)]).name true = "o/ParaView/Conductor_1_no_dielectrics" := by
      decide +kernel
    rw [hp] at h3
    exact h3

end Tulip.Props
