import Verif.Props.DriverExport
import Verif.Props.Parser

/-!
# C64: the command line program
-/

set_option linter.unusedSectionVars false

namespace Tulip.Props
open Tulip Tulip.Spec

section
variable {𝕜 : Type} [Field 𝕜] [DecidableEq 𝕜] [LinearOrder 𝕜] [FloorRing 𝕜]

/-- **C64, usage.** With help or without arguments the program prints its usage and succeeds, whatever the files hold. -/
theorem C64_usage (E : Engine 𝕜) (fs : List Char → Option (Option (Json 𝕜))) (load : List Char → Outcome (Mesh 𝕜))
    (cmd : CommandLine) (h : cmd.help = true ∨ cmd.input = none) :
    mainProgram E fs load cmd = (.ok ⟨⟩, [.usage]) := by
  unfold mainProgram
  rw [if_pos h]
  rfl

theorem main_eq (E : Engine 𝕜) (fs : List Char → Option (Option (Json 𝕜))) (load : List Char → Outcome (Mesh 𝕜))
    (f : List Char) : mainProgram E fs load ⟨false, some f⟩ =
      ((Logged.emit [.usage] >>= fun _ => Logged.lift (loadInputs fs load f) >>= fun inputs =>
        Driver.construct E inputs.1 inputs.2 >>= fun driver =>
          ((Driver.run E (driver.setExportFolder (String.ofList (directoryOf f)))).1,
            (Driver.run E (driver.setExportFolder (String.ofList (directoryOf f)))).2.2)) : Logged 𝕜 Unit) := by
  unfold mainProgram
  rw [if_neg (by simp)]
  rfl

theorem main_ok (E : Engine 𝕜) (fs : List Char → Option (Option (Json 𝕜))) (load : List Char → Outcome (Mesh 𝕜))
    {f : List Char} {model : Model 𝕜} {opts : DriverOptions} (h : loadInputs fs load f = .ok (model, opts))
    {d : Driver (E.fem model opts)} (hd : (Driver.construct E model opts).1 = .ok d) :
    mainProgram E fs load ⟨false, some f⟩ =
      ((Driver.run E (d.setExportFolder (String.ofList (directoryOf f)))).1,
        Event.usage :: ((Driver.construct E model opts).2 ++
          (Driver.run E (d.setExportFolder (String.ofList (directoryOf f)))).2.2)) := by
  rw [main_eq, h]
  rcases e : Driver.construct E model opts with ⟨o, w⟩
  rw [e] at hd
  simp only at hd
  subst hd
  show Logged.bind _ _ = _
  simp only [Logged.bind, Logged.emit]
  show _ = _
  have : (Logged.lift (Outcome.ok (model, opts)) >>= fun inputs =>
        Driver.construct E inputs.1 inputs.2 >>= fun driver =>
          (((Driver.run E (driver.setExportFolder (String.ofList (directoryOf f)))).1,
            (Driver.run E (driver.setExportFolder (String.ofList (directoryOf f)))).2.2) : Logged 𝕜 Unit)) =
      ((Driver.run E (d.setExportFolder (String.ofList (directoryOf f)))).1, w ++
            (Driver.run E (d.setExportFolder (String.ofList (directoryOf f)))).2.2) := by
    show Logged.bind _ _ = _
    simp only [Logged.bind, Logged.lift, List.nil_append]
    rw [e]
    rfl
  rw [this]
  rfl

theorem directoryOf_slash (f : List Char) : (String.ofList (directoryOf f)).toList.getLast? = some '/' := by
  rw [String.toList_ofList]
  unfold directoryOf
  exact List.getLast?_concat ..

theorem components_dropLast (dir name : List Char) (hn : '/' ∉ name) (h1 : name ≠ []) (h2 : name ≠ ['.']) :
    components (dir ++ '/' :: name) = components dir ++ [name] ∧ components name = [name] := by
  have h : components name = [name] := by
    have hs : splitSlash name = [name] := by
      clear h1 h2
      induction name with
      | nil => rfl
      | cons c t ih =>
        simp only [List.mem_cons, not_or] at hn
        unfold splitSlash
        rw [if_neg (fun h => hn.1 h.symm), ih hn.2]
    unfold components
    rw [hs]
    simp [h1, h2]
  exact ⟨by rw [components_append_slash, h], h⟩

/-- A file in the folder the program chooses is found by following the directory of the input file from the working
directory, whether the path of the input file is relative or not. -/
theorem next_to_input (cwd : List (List Char)) {f : List Char} {name : List Char}
    (hf : f = name ∨ ∃ dir, f = dir ++ '/' :: name) (hn : '/' ∉ name) (h1 : name ≠ []) (h2 : name ≠ ['.'])
    (out : List Char) (h3 : '/' ∉ out) (h4 : out ≠ []) (h5 : out ≠ ['.']) :
    locate cwd (directoryOf f ++ out) = cwd ++ (components f).dropLast ++ [out] := by
  have ho := (components_dropLast [] out h3 h4 h5).2
  have hm : directoryOf f ++ out = meshFilename f out := rfl
  rw [hm]
  rcases hf with rfl | ⟨dir, rfl⟩
  · rw [(C15_anywhere_partial cwd [] f out hn).2, ho, (components_dropLast [] f hn h1 h2).2]
    simp
  · rw [(C15_anywhere_partial cwd dir name out hn).1, ho, (components_dropLast dir name hn h1 h2).1,
      List.dropLast_concat]

/-- **C64, anywhere** (what the code does for every input path; the JSON results only). When the input loads and a driver
can be constructed, the program writes exactly one JSON file, with the answer of the driver, in the folder one gets by
following the directory of the input path from the working directory, whatever `exportFolder` says; if anything fails it
writes none. -/
theorem C64_anywhere_partial (E : Engine 𝕜) (fs : List Char → Option (Option (Json 𝕜)))
    (load : List Char → Outcome (Mesh 𝕜)) (cwd : List (List Char)) {f name : List Char}
    (hf : f = name ∨ ∃ dir, f = dir ++ '/' :: name) (hn : '/' ∉ name) (h1 : name ≠ []) (h2 : name ≠ ['.']) :
    (∀ (model : Model 𝕜) (opts : DriverOptions) (d : Driver (E.fem model opts)),
      loadInputs fs load f = .ok (model, opts) → (Driver.construct E model opts).1 = .ok d →
      (model.determineOpenness = .ok .closed → ∀ p, (Query.pulMTL.exec E d).1 = .ok (.pul p) →
        (mainProgram E fs load ⟨false, some f⟩).1 = .ok ⟨⟩ ∧
        ∃ path, jsonFiles (mainProgram E fs load ⟨false, some f⟩).2 = [(path, p.toJSON)] ∧
          locate cwd path.toList = cwd ++ (components f).dropLast ++ ["pulmtln.out.json".toList]) ∧
      (model.determineOpenness = .ok .open_ → ∀ p, (Query.inCell.exec E d).1 = .ok (.inCell p) →
        (mainProgram E fs load ⟨false, some f⟩).1 = .ok ⟨⟩ ∧
        ∃ path, jsonFiles (mainProgram E fs load ⟨false, some f⟩).2 = [(path, p.toJSON)] ∧
          locate cwd path.toList = cwd ++ (components f).dropLast ++ ["inCellPotentials.out.json".toList])) ∧
    ((mainProgram E fs load ⟨false, some f⟩).1 ≠ .ok ⟨⟩ →
      jsonFiles (mainProgram E fs load ⟨false, some f⟩).2 = []) := by
  have hc : ∀ model opts, jsonFiles (Driver.construct E model opts).2 = [] := fun model opts =>
    jsonFiles_fields (construct_fields E model)
  have hr1 : ∀ {F : FEM 𝕜} (d : Driver F), (Query.run.exec E d).1 = ((Driver.run E d).1 >>= fun _ => .ok .done) :=
    fun d => map_fst _ _ d
  have hr2 : ∀ {F : FEM 𝕜} (d : Driver F), (Query.run.exec E d).2.2 = (Driver.run E d).2.2 := fun d => map_events _ _ d
  have hdone : ∀ {F : FEM 𝕜} (d : Driver F) {α : Type} (x : Outcome α) (a : α), x = .ok a →
      (Query.run.exec E d).1 = (x >>= fun _ => .ok .done) → (Driver.run E d).1 = .ok ⟨⟩ := by
    intro F d α x a hx he
    rw [hr1, hx] at he
    rcases h : (Driver.run E d).1 with u | _ | _ | _
    · rfl
    all_goals (rw [h] at he; cases he)
  have hfile : ∀ out : String, '/' ∉ out.toList → out.toList ≠ [] → out.toList ≠ ['.'] →
      locate cwd (fileIn (String.ofList (directoryOf f)) out).toList = cwd ++ (components f).dropLast ++ [out.toList] := by
    intro out o1 o2 o3
    unfold fileIn
    rw [if_pos (directoryOf_slash f), String.toList_append, String.toList_ofList]
    exact next_to_input cwd hf hn h1 h2 _ o1 o2 o3
  constructor
  · intro model opts d hl hd
    have hm := main_ok E fs load hl hd
    have hmod : d.model = model := (construct_opts hd).2
    obtain ⟨k1, k2, _⟩ := C38_run_partial E (d.setExportFolder (String.ofList (directoryOf f))) (directoryOf_slash f)
    have hj : jsonFiles (mainProgram E fs load ⟨false, some f⟩).2 =
        jsonFiles (Query.run.exec E (d.setExportFolder (String.ofList (directoryOf f)))).2.2 := by
      rw [hm, hr2]
      show jsonFiles ((Driver.construct E model opts).2 ++ _) = _
      rw [jsonFiles_append, hc, List.nil_append]
    constructor
    · intro ho p hp
      obtain ⟨a1, a2, _⟩ := k1 (by show d.model.determineOpenness = _; rw [hmod]; exact ho)
      have hp' := ((exec_folder E .pulMTL (fun f h => by cases h) d (String.ofList (directoryOf f))).1).trans hp
      refine ⟨?_, _, hj.trans (a2 p hp'), hfile _ (by decide +kernel) (by decide +kernel) (by decide +kernel)⟩
      rw [hm]
      exact hdone _ _ _ hp' a1
    · intro ho p hp
      obtain ⟨a1, a2, _⟩ := k2 (by show d.model.determineOpenness = _; rw [hmod]; exact ho)
      have hp' := ((exec_folder E .inCell (fun f h => by cases h) d (String.ofList (directoryOf f))).1).trans hp
      refine ⟨?_, _, hj.trans (a2 p hp'), hfile _ (by decide +kernel) (by decide +kernel) (by decide +kernel)⟩
      rw [hm]
      exact hdone _ _ _ hp' a1
  · intro hbad
    rcases hl : loadInputs fs load f with ⟨model, opts⟩ | e | _ | _
    · rcases hd : (Driver.construct E model opts).1 with d | _ | _ | _
      · have hm := main_ok E fs load hl hd
        obtain ⟨k1, k2, k3⟩ := C38_run_partial E (d.setExportFolder (String.ofList (directoryOf f))) (directoryOf_slash f)
        rw [hm]
        show jsonFiles ((Driver.construct E model opts).2 ++ _) = _
        rw [jsonFiles_append, hc, List.nil_append, ← hr2]
        rw [hm] at hbad
        have hbad' : ∀ a, (Query.run.exec E (d.setExportFolder (String.ofList (directoryOf f)))).1 ≠ .ok a := by
          intro a ha
          rw [hr1] at ha
          rcases h : (Driver.run E (d.setExportFolder (String.ofList (directoryOf f)))).1 with u | _ | _ | _
          · exact hbad h
          all_goals (rw [h] at ha; cases ha)
        rcases ho : (d.setExportFolder (String.ofList (directoryOf f))).model.determineOpenness with o | _ | _ | _
        · cases o with
          | closed => exact (k1 ho).2.2 hbad'
          | open_ => exact (k2 ho).2.2 hbad'
          | semiopen => rw [(k3 ho).2]; rfl
        all_goals
          rw [hr2]
          unfold Driver.run
          rw [Act.read_bind, ho]
          rfl
      all_goals
        rw [main_eq, hl]
        have := hc model opts
        rcases e : Driver.construct E model opts with ⟨o, w⟩
        rw [e] at hd this
        simp only at hd this
        subst hd
        have h2 : (Logged.lift (Outcome.ok (model, opts)) >>= fun inputs =>
            Driver.construct E inputs.1 inputs.2 >>= fun driver =>
              (((Driver.run E (driver.setExportFolder (String.ofList (directoryOf f)))).1,
                (Driver.run E (driver.setExportFolder (String.ofList (directoryOf f)))).2.2) : Logged 𝕜 Unit)).2 = w := by
          show (Logged.bind _ _).2 = _
          simp only [Logged.bind, Logged.lift, List.nil_append]
          rw [e]
          rfl
        refine Eq.trans ?_ this
        rw [← h2]
        rfl
    all_goals
      rw [main_eq, hl]
      rfl

/-- **C64, results** (partial: for relative input paths, and the JSON results only). When the input loads and a driver can
be constructed, the program writes exactly one JSON file, next to the input file whatever `exportFolder` says in it, with
the answer of the driver; if anything fails it writes none. -/
theorem C64_results_partial (E : Engine 𝕜) (fs : List Char → Option (Option (Json 𝕜)))
    (load : List Char → Outcome (Mesh 𝕜)) (cwd : List (List Char)) {f name : List Char} (hrel : f.head? ≠ some '/')
    (hf : f = name ∨ ∃ dir, f = dir ++ '/' :: name) (hn : '/' ∉ name) (h1 : name ≠ []) (h2 : name ≠ ['.']) :
    (∀ (model : Model 𝕜) (opts : DriverOptions) (d : Driver (E.fem model opts)),
      loadInputs fs load f = .ok (model, opts) → (Driver.construct E model opts).1 = .ok d →
      (model.determineOpenness = .ok .closed → ∀ p, (Query.pulMTL.exec E d).1 = .ok (.pul p) →
        (mainProgram E fs load ⟨false, some f⟩).1 = .ok ⟨⟩ ∧
        ∃ path, jsonFiles (mainProgram E fs load ⟨false, some f⟩).2 = [(path, p.toJSON)] ∧
          locate cwd path.toList = (locate cwd f).dropLast ++ ["pulmtln.out.json".toList]) ∧
      (model.determineOpenness = .ok .open_ → ∀ p, (Query.inCell.exec E d).1 = .ok (.inCell p) →
        (mainProgram E fs load ⟨false, some f⟩).1 = .ok ⟨⟩ ∧
        ∃ path, jsonFiles (mainProgram E fs load ⟨false, some f⟩).2 = [(path, p.toJSON)] ∧
          locate cwd path.toList = (locate cwd f).dropLast ++ ["inCellPotentials.out.json".toList])) ∧
    ((mainProgram E fs load ⟨false, some f⟩).1 ≠ .ok ⟨⟩ →
      jsonFiles (mainProgram E fs load ⟨false, some f⟩).2 = []) := by
  obtain ⟨ha, hb⟩ := C64_anywhere_partial E fs load cwd hf hn h1 h2
  have hd : cwd ++ (components f).dropLast = (locate cwd f).dropLast := by
    have : components f ≠ [] := by
      rcases hf with rfl | ⟨dir, rfl⟩
      · rw [(components_dropLast [] f hn h1 h2).2]; simp
      · rw [(components_dropLast dir name hn h1 h2).1]; simp
    unfold locate
    rw [if_neg hrel, List.dropLast_append_of_ne_nil this]
  rw [hd] at ha
  exact ⟨ha, hb⟩

end

/-! ### Examples -/

/-- an input file for `pair` that asks for another export folder -/
def pairDoc : Json ℚ := .obj [
  ("analysis", .obj [("exportFolder", .str "elsewhere")]),
  ("model", .obj [("gmshFile", .str "pair.msh"), ("materials", .obj [
    ("Conductor_1", .obj [("tag", .int 2), ("type", .str "PEC")]),
    ("Dielectric_1", .obj [("eps_r", .num 3), ("tag", .int 1), ("type", .str "Dielectric")]),
    ("Shield_0", .obj [("tag", .int 1), ("type", .str "PEC")])])])]

/-- a file system holding `pairDoc` under one name -/
def pairFs (f : List Char) : List Char → Option (Option (Json ℚ)) := fun g => if g = f then some (some pairDoc) else none

theorem pair_loads (f : List Char) :
    loadInputs (pairFs f) (fun _ => .ok pair.mesh) f = .ok (pair, { exportFolder := "elsewhere" }) := by
  have h : readJSON (pairFs f) f = .ok pairDoc := by
    unfold readJSON pairFs
    rw [if_pos rfl]
  have h1 : readModel (fun _ => .ok pair.mesh) f pairDoc = .ok pair := by
    simp [readModel, pairDoc, Json.at_, SMap.find?, Outcome.ofOption, Json.getString, readMaterials, Json.items,
      readMaterialsLoop, readMaterial, materialTypeOfLabel, Json.getInt, Json.wrap32, Json.valueDouble, Json.getDouble,
      Model.make, pair]
    decide +kernel
  have h2 : readDriverOptions pairDoc = .ok { exportFolder := "elsewhere" } := by
    simp [readDriverOptions, pairDoc, Json.at_, SMap.find?, Outcome.ofOption, setIfExistsInt, setIfExistsBool,
      setIfExistsString, Json.find, Json.getString]
  unfold loadInputs
  rw [h, Outcome.ok_bind, h1, Outcome.ok_bind, h2, Outcome.ok_bind]

/-- The hypotheses are met: run on `cases/pair.json`, the program writes `cases/pulmtln.out.json`. -/
example : ∃ p : PULParameters ℚ,
    (mainProgram chainEngine (pairFs "cases/pair.json".toList) (fun _ => .ok pair.mesh)
      ⟨false, some "cases/pair.json".toList⟩).1 = .ok ⟨⟩ ∧
    ∃ path, jsonFiles (mainProgram chainEngine (pairFs "cases/pair.json".toList) (fun _ => .ok pair.mesh)
      ⟨false, some "cases/pair.json".toList⟩).2 = [(path, p.toJSON)] ∧
      locate ["home".toList] path.toList = ["home".toList, "cases".toList, "pulmtln.out.json".toList] := by
  obtain ⟨d, p, hd, _, _, hp⟩ := pair_parameters { exportFolder := "elsewhere" }
  obtain ⟨h, path, h1, h2⟩ := ((C64_results_partial chainEngine (pairFs "cases/pair.json".toList) (fun _ => .ok pair.mesh)
    ["home".toList] (f := "cases/pair.json".toList) (name := "pair.json".toList) (by decide +kernel)
    (Or.inr ⟨"cases".toList, by decide +kernel⟩) (by decide +kernel) (by decide +kernel) (by decide +kernel)).1 _ _ d
    (pair_loads _) hd).1 pair_closed p hp
  exact ⟨p, h, path, h1, h2.trans (by decide +kernel)⟩

/-- The full C64 is false of the code for absolute paths: run from `/home` on `/data/pair.json`, the program writes into
`/home/data`. -/
theorem C64_refuted_absolute : ∃ (p : PULParameters ℚ) (path : String),
    (mainProgram chainEngine (pairFs "/data/pair.json".toList) (fun _ => .ok pair.mesh)
      ⟨false, some "/data/pair.json".toList⟩).1 = .ok ⟨⟩ ∧
    jsonFiles (mainProgram chainEngine (pairFs "/data/pair.json".toList) (fun _ => .ok pair.mesh)
      ⟨false, some "/data/pair.json".toList⟩).2 = [(path, p.toJSON)] ∧
    locate ["home".toList] path.toList = ["home".toList, "data".toList, "pulmtln.out.json".toList] := by
  obtain ⟨d, p, hd, _, _, hp⟩ := pair_parameters { exportFolder := "elsewhere" }
  have hm := main_ok chainEngine (pairFs "/data/pair.json".toList) (fun _ => .ok pair.mesh) (pair_loads _) hd
  obtain ⟨k1, _⟩ := C38_run_partial chainEngine (d.setExportFolder (String.ofList (directoryOf "/data/pair.json".toList)))
    (directoryOf_slash _)
  obtain ⟨a1, a2, _⟩ := k1 (by
    show d.model.determineOpenness = _
    rw [(construct_opts hd).2]; exact pair_closed)
  have hp' := ((exec_folder chainEngine .pulMTL (fun f h => by cases h) d
    (String.ofList (directoryOf "/data/pair.json".toList))).1).trans hp
  have hr1 := map_fst (Driver.run chainEngine) (fun _ => (Answer.done : Answer ℚ))
    (d.setExportFolder (String.ofList (directoryOf "/data/pair.json".toList)))
  have hr2 := map_events (Driver.run chainEngine) (fun _ => (Answer.done : Answer ℚ))
    (d.setExportFolder (String.ofList (directoryOf "/data/pair.json".toList)))
  refine ⟨p, fileIn (String.ofList (directoryOf "/data/pair.json".toList)) "pulmtln.out.json", ?_, ?_, ?_⟩
  · rw [hm]
    rw [hp'] at a1
    have := hr1.symm.trans a1
    rcases h : (Driver.run chainEngine (d.setExportFolder (String.ofList (directoryOf "/data/pair.json".toList)))).1
      with u | _ | _ | _
    · rfl
    all_goals (rw [h] at this; cases this)
  · rw [hm]
    show jsonFiles ((Driver.construct chainEngine pair { exportFolder := "elsewhere" }).2 ++ _) = _
    rw [jsonFiles_append, jsonFiles_fields (construct_fields chainEngine pair), List.nil_append, ← hr2]
    exact a2 p hp'
  · decide +kernel

/-- The full C64 is false of the code for exported fields: those of the constructor go to the folder named in the input
file, not next to it. -/
theorem C64_refuted_fields : ∃ path ∈ fieldPaths (mainProgram chainEngine (pairFs "pair.json".toList)
      (fun _ => .ok pair.mesh) ⟨false, some "pair.json".toList⟩).2, path = "elsewhere/ParaView/Shield_0" := by
  obtain ⟨d, p, hd, hN, _, hp⟩ := pair_parameters { exportFolder := "elsewhere" }
  have hm := main_ok chainEngine (pairFs "pair.json".toList) (fun _ => .ok pair.mesh) (pair_loads _) hd
  obtain ⟨t, ht, _⟩ := C65_construct chainEngine hN (pair_buildable _) hd
  refine ⟨_, ?_, rfl⟩
  rw [hm, ht]
  unfold fieldPaths
  rw [List.mem_filterMap]
  refine ⟨.field .paraView "elsewhere/ParaView/Shield_0" _ (t false ⟨0, by decide⟩), ?_, rfl⟩
  refine List.mem_cons_of_mem _ (List.mem_append_left _ (List.mem_append_left _ (List.mem_flatMap.mpr
    ⟨⟨0, by decide⟩, List.mem_finRange _, List.mem_append_left _ ?_⟩)))
  have : "elsewhere/ParaView/Shield_0" = "elsewhere" ++ "/ParaView/" ++ "Shield_0" ++ "" := by decide +kernel
  rw [this]
  exact List.mem_singleton.mpr rfl

end Tulip.Props
