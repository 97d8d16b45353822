import Verif.Props.DriverExport
import Verif.Proofs.FieldFolders

/-!
# C112: what the field file of a conductor holds
-/

set_option linter.unusedSectionVars false

namespace Tulip.Props
open Tulip Tulip.Spec Matrix

variable {𝕜 : Type} [Field 𝕜] [DecidableEq 𝕜] [LinearOrder 𝕜] {F : FEM 𝕜}

theorem solutionAt_inv {sP : SolvedProblem F} {i : Int} {t : SolverSolution F} (h : Driver.solutionAt sP i = .ok t) :
    0 ≤ i ∧ sP.solutions[i.toNat]? = some (some t) := by
  unfold Driver.solutionAt vecGet at h
  split at h
  · next h0 =>
    refine ⟨h0, ?_⟩
    rcases hx : sP.solutions[i.toNat]? with _ | x
    · rw [hx] at h; cases h
    · rw [hx] at h
      simp only [Outcome.ok_bind] at h
      cases x with
      | none => cases h
      | some y => cases h; rfl
  · cases h

theorem getById_inv {mats : Materials 𝕜} {ps : List (PEC 𝕜)} (hN : Numbering mats ps) {i : Int} {p : PEC 𝕜}
    (h : mats.getPECById i = .ok p) : ∃ j : Fin ps.length, i = (j.1 : Int) ∧ p = ps[j] := by
  have h' := h
  unfold Materials.getPECById at h'
  obtain ⟨_, _, hl, hi, _⟩ := getByIdLoop_ok.mp h'
  have hp : p ∈ mats.pecs := by rw [hl]; simp
  obtain ⟨k, hk, rfl⟩ := List.mem_iff_getElem.mp (hN.all.mem_iff.mpr hp)
  refine ⟨⟨k, hk⟩, ?_, rfl⟩
  exact Outcome.ok.inj (hi.symm.trans (hN.ids k hk))

/-- What is written last stays, if all that is written to the file is the same. -/
theorem fieldAt_of_all {path : String} {v : Viewer} {t : SolverSolution F} : ∀ evs : List (Event 𝕜),
    (∀ v' G u, Event.field v' path G u ∈ evs → Event.field v' path G u = .field v path F t) →
    (.field v path F t) ∈ evs → fieldAt path evs = some (v, ⟨F, t⟩)
  | [], _, h => by cases h
  | e :: evs, hall, h => by
    have hall' : ∀ v' G u, Event.field v' path G u ∈ evs → Event.field v' path G u = .field v path F t :=
      fun v' G u h => hall v' G u (List.mem_cons_of_mem _ h)
    have hnone : (∀ v' G u, Event.field v' path G u ∉ evs) → fieldAt path evs = none := by
      clear hall hall' h
      induction evs with
      | nil => intro _; rfl
      | cons e evs ih =>
        intro hn
        have ih := ih (fun v' G u h => hn v' G u (List.mem_cons_of_mem _ h))
        cases e with
        | field v' p G u =>
          unfold fieldAt
          rw [ih, if_neg]
          · rfl
          · rintro rfl
            exact hn _ _ _ (List.mem_cons_self ..)
        | json _ _ => exact ih
        | usage => exact ih
    rcases List.mem_cons.mp h with h1 | h1
    · subst h1
      unfold fieldAt
      by_cases hex : ∃ v' G u, Event.field v' path G u ∈ evs
      · obtain ⟨v', G, u, hm⟩ := hex
        rw [fieldAt_of_all evs hall' (hall' _ _ _ hm ▸ hm)]
        rfl
      · rw [hnone (fun v' G u hm => hex ⟨v', G, u, hm⟩), if_pos rfl]
        rfl
    · have ih := fieldAt_of_all evs hall' h1
      cases e with
      | field v' p G u => unfold fieldAt; rw [ih]; rfl
      | json _ _ => exact ih
      | usage => exact ih

section
variable {ps : List (PEC 𝕜)} {d0 : Driver F}

/-- Driver files with the path of a conductor hold its stored field. -/
theorem driverFile_stored {o : DriverOptions} {mats : Materials 𝕜} (ho : d0.opts = o)
    (hm : d0.model.materials = mats) (hN : Numbering mats ps) (hu : ∀ p ∈ mats.pecs, '_' ∈ p.name.toList)
    {t : Bool → Fin ps.length → SolverSolution F}
    (ht : ∀ b i, (Driver.problem b d0).solutions[i.1]? = some (some (t b i))) {v v' : Viewer} {G : FEM 𝕜}
    {u : SolverSolution G} {i : Fin ps.length} {b : Bool}
    (he : AnyFile d0 (.field v' (fieldPath o v ps[i].name b) G u)) :
    Event.field v' (fieldPath o v ps[i].name b) G u = .field v (fieldPath o v ps[i].name b) F (t b i) := by
  subst ho
  subst hm
  rcases he with (⟨k, c, pec, s, hp, hs, he⟩ | ⟨k, c, pec, s, hp, he⟩) | ⟨p, c, he⟩
  · obtain ⟨j, rfl, rfl⟩ := getById_inv hN hp
    obtain ⟨w, _, he⟩ := mem_export.mp he
    have hpath : fieldPath d0.opts v ps[i].name b = fieldPath d0.opts w ps[j].name c := by
      injection he
    obtain ⟨rfl, hn⟩ := fieldPath_inj hpath
    obtain ⟨rfl, rfl⟩ := stored_distinct hN hu hn
    obtain ⟨_, hs⟩ := solutionAt_inv hs
    rw [Int.toNat_natCast, ht] at hs
    cases hs
    exact he
  · obtain ⟨j, rfl, rfl⟩ := getById_inv hN hp
    obtain ⟨w, _, he⟩ := mem_export.mp he
    have hpath : fieldPath d0.opts v ps[i].name b =
        fieldPath d0.opts w (ps[j].name ++ "_prescribed_and_others_floating") c := by
      injection he
    exact absurd (fieldPath_inj hpath).2 (floating_distinct hN hu)
  · cases he

end

/-- **C112.** The name of every conductor contains an underscore. After the construction of a driver and any queries
but those by domains and changes of the export folder, whether they succeed or throw, the file of every conductor for
every enabled viewer, with and without dielectrics, holds the field stored for the conductor, that of one volt on it and
zero on the others; no other field has ever been written to it. -/
theorem C112_files_partial (E : Engine 𝕜) {model : Model 𝕜} {opts : DriverOptions} {ps : List (PEC 𝕜)}
    (hN : Numbering model.materials ps) (hB : Buildable (E.fem model opts) model.materials)
    (hu : ∀ p ∈ model.materials.pecs, '_' ∈ p.name.toList)
    {d : Driver (E.fem model opts)} (hd : (Driver.construct E model opts).1 = .ok d) (qs : List Query)
    (hq : ∀ q ∈ qs, q ≠ .pulMTLByDomains ∧ ∀ f, q ≠ .setExportFolder f) :
    ∃ t : Bool → Fin ps.length → SolverSolution (E.fem model opts), ∀ b i,
      (Driver.problem b d).solutions[i.1]? = some (some (t b i)) ∧
      (Driver.problem b (afterQueries E qs d)).solutions[i.1]? = some (some (t b i)) ∧
      (WellDeclared model.materials → ExactSolver E.pcg → WellPosed E.analytic (E.fem model opts) model.materials →
        PrescribedField E.analytic (E.fem model opts) model.materials b (oneVolt ps[i].tag) (t b i)) ∧
      ∀ v, (enabled opts v = true →
          fieldAt (fieldPath opts v ps[i].name b) ((Driver.construct E model opts).2 ++ written E qs d) =
            some (v, ⟨_, t b i⟩)) ∧
        ∀ v' G u, Event.field v' (fieldPath opts v ps[i].name b) G u ∈ (Driver.construct E model opts).2 ++ written E qs d →
          Event.field v' (fieldPath opts v ps[i].name b) G u = .field v (fieldPath opts v ps[i].name b) _ (t b i) := by
  obtain ⟨t, hev, ht⟩ := C65_construct E hN hB hd
  obtain ⟨ho, hm⟩ := construct_opts hd
  have hforget : (afterQueries E qs d).forget = d.forget := by
    have key : ∀ (qs : List Query) (d : Driver (E.fem model opts)),
        (∀ q ∈ qs, q ≠ .pulMTLByDomains ∧ ∀ f, q ≠ .setExportFolder f) → (afterQueries E qs d).forget = d.forget := by
      intro qs
      induction qs with
      | nil => intro d _; rfl
      | cons q qs ih =>
        intro d hq
        rw [afterQueries, ih _ (fun q h => hq q (List.mem_cons_of_mem _ h))]
        exact (exec_clean E q (hq q (List.mem_cons_self ..)).2).keeps d
    exact key qs d hq
  have hall : ∀ (b : Bool) (i : Fin ps.length) v v' G u,
      Event.field v' (fieldPath opts v ps[i].name b) G u ∈ (Driver.construct E model opts).2 ++ written E qs d →
      Event.field v' (fieldPath opts v ps[i].name b) G u = .field v (fieldPath opts v ps[i].name b) _ (t b i) := by
    intro b i v v' G u he
    refine driverFile_stored ho (by rw [hm]) hN hu (fun b i => (ht b i).1) ?_
    rcases List.mem_append.mp he with he | he
    · rw [hev] at he
      have : ∃ (c : Bool) (j : Fin ps.length), Event.field v' (fieldPath opts v ps[i].name b) G u ∈
          fieldFiles opts ps[j].name c (t c j) := by
        rcases List.mem_append.mp he with he | he
        · obtain ⟨j, _, hj⟩ := List.mem_flatMap.mp he
          exact ⟨false, j, hj⟩
        · obtain ⟨j, _, hj⟩ := List.mem_flatMap.mp he
          exact ⟨true, j, hj⟩
      obtain ⟨c, j, hj⟩ := this
      rw [← exportFieldSolutions_eq] at hj
      refine Or.inl (Or.inl ⟨(j.1 : Int), c, ps[j], t c j, by rw [hm]; exact hN.getById j.2, ?_, by rw [ho]; exact hj⟩)
      unfold Driver.solutionAt vecGet
      rw [if_pos (by omega), Int.toNat_natCast, (ht c j).1]
      rfl
    · exact written_files E qs d rfl hq _ he
  refine ⟨t, fun b i => ⟨(ht b i).1, ?_, (ht b i).2, fun v => ⟨fun hv => ?_, hall b i v⟩⟩⟩
  · rw [forget_solutions hforget]
    exact (ht b i).1
  · refine fieldAt_of_all _ (hall b i v) (List.mem_append_left _ ?_)
    rw [hev]
    have hmem : Event.field v (fieldPath opts v ps[i].name b) _ (t b i) ∈ fieldFiles opts ps[i].name b (t b i) := by
      rw [← exportFieldSolutions_eq]
      exact mem_export.mpr ⟨v, hv, rfl⟩
    cases b with
    | false => exact List.mem_append_left _ (List.mem_flatMap.mpr ⟨i, List.mem_finRange i, hmem⟩)
    | true => exact List.mem_append_right _ (List.mem_flatMap.mpr ⟨i, List.mem_finRange i, hmem⟩)

/-- **C112, changes of the export folder.** If the names of the conductors have no slash, the same holds in histories
that change the folder: to the file of a conductor, in whatever folder, only the field stored for the conductor is ever
written. -/
theorem C112_folders_partial (E : Engine 𝕜) {model : Model 𝕜} {opts : DriverOptions} {ps : List (PEC 𝕜)}
    (hN : Numbering model.materials ps) (hB : Buildable (E.fem model opts) model.materials)
    (hu : ∀ p ∈ model.materials.pecs, '_' ∈ p.name.toList) (hsl : ∀ p ∈ model.materials.pecs, '/' ∉ p.name.toList)
    {d : Driver (E.fem model opts)} (hd : (Driver.construct E model opts).1 = .ok d) (qs : List Query)
    (hq : ∀ q ∈ qs, q ≠ .pulMTLByDomains) :
    ∃ t : Bool → Fin ps.length → SolverSolution (E.fem model opts), ∀ b i,
      (Driver.problem b d).solutions[i.1]? = some (some (t b i)) ∧
      (Driver.problem b (afterQueries E qs d)).solutions[i.1]? = some (some (t b i)) ∧
      ∀ (folder : String) v v' G u,
        Event.field v' (fieldPath { opts with exportFolder := folder } v ps[i].name b) G u ∈
          (Driver.construct E model opts).2 ++ written E qs d →
        Event.field v' (fieldPath { opts with exportFolder := folder } v ps[i].name b) G u =
          .field v (fieldPath { opts with exportFolder := folder } v ps[i].name b) _ (t b i) := by
  obtain ⟨t, ht⟩ := C112_files_partial E hN hB hu hd [] (by simp)
  obtain ⟨ho, hm⟩ := construct_opts hd
  refine ⟨t, fun b i => ⟨(ht b i).1, ?_, ?_⟩⟩
  · have hf := afterQueries_forget E qs d
    rw [forget_solutions hf]
    have : (Driver.problem b (d.setExportFolder (folderAfter qs d.opts.exportFolder))).solutions =
        (Driver.problem b d).solutions := by cases b <;> rfl
    rw [this]
    exact (ht b i).1
  · intro folder v v' G u he
    have hany : ∃ f, AnyFile (d.setExportFolder f)
        (.field v' (fieldPath { opts with exportFolder := folder } v ps[i].name b) G u) := by
      rcases List.mem_append.mp he with he | he
      · obtain ⟨t', hev, ht'⟩ := C65_construct E hN hB hd
        rw [hev] at he
        have : ∃ (c : Bool) (j : Fin ps.length),
            Event.field v' (fieldPath { opts with exportFolder := folder } v ps[i].name b) G u ∈
              fieldFiles opts ps[j].name c (t' c j) := by
          rcases List.mem_append.mp he with he | he
          · obtain ⟨j, _, hj⟩ := List.mem_flatMap.mp he
            exact ⟨false, j, hj⟩
          · obtain ⟨j, _, hj⟩ := List.mem_flatMap.mp he
            exact ⟨true, j, hj⟩
        obtain ⟨c, j, hj⟩ := this
        rw [← exportFieldSolutions_eq] at hj
        refine ⟨opts.exportFolder, Or.inl (Or.inl ⟨(j.1 : Int), c, ps[j], t' c j, ?_, ?_, ?_⟩)⟩
        · show d.model.materials.getPECById _ = _
          rw [hm]
          exact hN.getById j.2
        · have : (Driver.problem c (d.setExportFolder opts.exportFolder)) = Driver.problem c d := by cases c <;> rfl
          rw [this]
          unfold Driver.solutionAt vecGet
          rw [if_pos (by omega), Int.toNat_natCast, (ht' c j).1]
          rfl
        · show _ ∈ exportFieldSolutions { d.opts with exportFolder := opts.exportFolder } _ _ _
          rw [ho]
          exact hj
      · exact written_folders E qs (d0 := d) d.opts.exportFolder rfl hq _ he
    obtain ⟨f, hf⟩ := hany
    have hfold : f = folder := by
      have hno : ∀ j : Fin ps.length, '/' ∉ ps[j].name.toList :=
        fun j => hsl _ (hN.all.mem_iff.mp (List.getElem_mem j.2))
      rcases hf with (⟨k, c, pec, s, hp, hs, he⟩ | ⟨k, c, pec, s, hp, he⟩) | ⟨p, c, he⟩
      · obtain ⟨j, rfl, rfl⟩ := getById_inv (ps := ps) (show Numbering d.model.materials ps by rw [hm]; exact hN) hp
        obtain ⟨w, _, he⟩ := mem_export.mp he
        have hpath := (Event.field.inj he).2.1
        exact (fieldPath_inj_folder (hno i) (hno j) hpath).2.1.symm
      · obtain ⟨j, rfl, rfl⟩ := getById_inv (ps := ps) (show Numbering d.model.materials ps by rw [hm]; exact hN) hp
        obtain ⟨w, _, he⟩ := mem_export.mp he
        have hpath := (Event.field.inj he).2.1
        refine (fieldPath_inj_folder (hno i) ?_ hpath).2.1.symm
        rw [String.toList_append, List.mem_append]
        rintro (h | h)
        · exact hno j h
        · revert h; decide
      · cases he
    subst hfold
    refine driverFile_stored (d0 := d.setExportFolder f) ?_ ?_ hN hu (fun b i => ?_) hf
    · show { d.opts with exportFolder := f } = _
      rw [ho]
    · show d.model.materials = _
      rw [hm]
    · have : (Driver.problem b (d.setExportFolder f)) = Driver.problem b d := by cases b <;> rfl
      rw [this]
      exact (ht b i).1

end Tulip.Props
