import Verif.Props.InCellExist
import Verif.Props.Input

/-!
# C78 for open problems: from the input file to the in-cell results
-/

set_option linter.unusedSectionVars false

namespace Tulip.Props
open Tulip Tulip.Spec Matrix

section
variable {𝕜 : Type} [Field 𝕜] [DecidableEq 𝕜] [LinearOrder 𝕜] [IsStrictOrderedRing 𝕜] [FloorRing 𝕜]

/-- **C78, the program on open problems.** Run on the input file (given by a relative path) of an open problem as the
in-cell computation expects it, the program succeeds and writes one JSON file, `inCellPotentials.out.json` next to the
input file. Read back, it holds one entry per conductor for the problem with dielectrics and one for the problem without,
each describing the field with 1 V on this conductor and no charge on the others. -/
theorem C78_open_program (E : Engine 𝕜) (files : List (List Char) → Option (Option (Json 𝕜)))
    (meshAt : List (List Char) → Outcome (Mesh 𝕜)) (cwd : List (List Char)) {f name : List Char}
    (hrel : f.head? ≠ some '/') (hf : f = name ∨ ∃ dir, f = dir ++ '/' :: name) (hn : '/' ∉ name) (h1 : name ≠ [])
    (h2 : name ≠ ['.']) {doc : List (String × Json 𝕜)} (hdoc : files (locate cwd f) = some (some (.obj doc)))
    (hr : RegularInput doc) {model : Model 𝕜} {opts : DriverOptions}
    (hm : DescribesModel meshAt (locate cwd f).dropLast doc model) (hopt : DescribesOptions doc opts)
    {ps : List (PEC 𝕜)} (hN : Numbering model.materials ps) (ht : (ps.map PEC.tag).Nodup)
    (ho : model.determineOpenness = .ok .open_) (hB : Buildable (E.fem model opts) model.materials)
    (hW : WellDeclared model.materials) (hP : ExactSolver E.pcg)
    (he : Elliptic E.analytic (E.fem model opts) model.materials) (hs : Separate (E.fem model opts) model.materials)
    (hc : Conservative E.analytic (E.fem model opts) model.materials)
    (hG : Balanced E.analytic (E.fem model opts) model.materials)
    (h1p : OnePiece (E.fem model opts) model.materials) (habs : Absorbing E.analytic (E.fem model opts) model.materials)
    (hdn : DistinctNames model.materials) (hset : InCellSetting model (E.fem model opts))
    (hA : FirstMoments E.analytic) {m : Nat} (hord : opts.multipolarExpansionOrder = m) :
    ∃ (path : String) (j : Json 𝕜) (p : InCellPotentials 𝕜) (rs : Bool → Fin ps.length → FieldReconstruction 𝕜),
      (mainProgram E (fun p => files (locate cwd p)) (fun p => meshAt (locate cwd p)) ⟨false, some f⟩).1 = .ok ⟨⟩ ∧
      jsonFiles (mainProgram E (fun p => files (locate cwd p)) (fun p => meshAt (locate cwd p)) ⟨false, some f⟩).2 =
        [(path, j)] ∧
      locate cwd path.toList = (locate cwd f).dropLast ++ ["inCellPotentials.out.json".toList] ∧
      InCellPotentials.ofJSON j = .ok p ∧
      p.electric = (List.finRange ps.length).map (fun i => ((i.1 : Int), rs false i)) ∧
      p.magnetic = (List.finRange ps.length).map (fun i => ((i.1 : Int), rs true i)) ∧
      (∀ b i, InCellEntry E.analytic (E.fem model opts) model b m ps i (rs b i)) ∧ j = p.toJSON := by
  have hl := ((C78_input files meshAt cwd hrel hf hn h1 h2 hdoc hr).1 model opts).mpr ⟨hm, hopt⟩
  obtain ⟨d, _, _, _, _, ed, _, _, _⟩ := construct_spec E hN hB
  have hd : (Driver.construct E model opts).1 = .ok d := by rw [ed]
  obtain ⟨p, hp⟩ := C100_exists E hN hB hW hP he ht hs hc hG h1p habs hdn hset ho (by omega) hd
  have key := C100_meaning E hN hB hW hP he ht hs hc hG h1p habs hdn hset hA hord hd hp
  obtain ⟨ok, path, hj, hloc⟩ := ((C64_results_partial E (fun p => files (locate cwd p)) (fun p => meshAt (locate cwd p))
    cwd hrel hf hn h1 h2).1 model opts d hl hd).2 ho p hp
  obtain ⟨re, e1, k1⟩ := key false
  obtain ⟨rm, e2, k2⟩ := key true
  refine ⟨path, _, p, fun b => if b then rm else re, ok, hj, hloc, (C43_driver E hN hB hd hp).2, e1, e2, ?_, rfl⟩
  intro b i
  cases b with
  | false => exact (k1 i).1
  | true => exact (k2 i).1

end

/-! ### Example -/

/-- an input file for `wires` -/
def wiresFields : List (String × Json ℚ) := [
  ("analysis", .obj [("order", .int 2)]),
  ("model", .obj [("gmshFile", .str "wires.msh"), ("materials", .obj [
    ("Conductor_1", .obj [("area", .num 1000000), ("tag", .int 2), ("type", .str "PEC")]),
    ("OpenBoundary_0", .obj [("tag", .int 3), ("type", .str "OpenBoundary")]),
    ("Shield_0", .obj [("area", .num 1000000), ("tag", .int 1), ("type", .str "PEC")]),
    ("Vacuum_0", .obj [("tag", .int 1), ("type", .str "Vacuum")]),
    ("Wax_1", .obj [("eps_r", .num 2), ("tag", .int 2), ("type", .str "Dielectric")])])])]

/-- a disk holding the input file `home/cases/wires.json` -/
def wiresFiles : List (List Char) → Option (Option (Json ℚ)) := fun l =>
  if l = ["home".toList, "cases".toList, "wires.json".toList] then some (some (.obj wiresFields)) else none

/-- a disk holding the mesh `home/cases/wires.msh` -/
def wiresMeshAt : List (List Char) → Outcome (Mesh ℚ) := fun l =>
  if l = ["home".toList, "cases".toList, "wires.msh".toList] then .ok wires.mesh else .throw .mfemVerify

theorem wires_regular : RegularInput wiresFields where
  keys := by unfold UniqueKeys; decide +kernel
  model := by
    intro ms h
    simp [wiresFields] at h
    subst h
    unfold UniqueKeys
    decide +kernel
  materials := by
    intro ms v h hv
    simp [wiresFields] at h
    subst h
    simp at hv
    subst hv
    refine ⟨_, rfl, by unfold UniqueKeys; decide +kernel, ?_⟩
    intro kv hkv es he
    simp only [List.mem_cons, List.not_mem_nil, or_false] at hkv
    rcases hkv with rfl | rfl | rfl | rfl | rfl <;>
      (cases he; refine ⟨by unfold UniqueKeys; decide +kernel, fun t ht => ?_⟩; simp at ht; subst ht; simp [TooLarge])
  analysis := by
    intro v hv
    simp [wiresFields] at hv
    subst hv
    exact ⟨_, rfl, by unfold UniqueKeys; decide +kernel, by intro t ht; simp at ht; subst ht; simp [TooLarge]⟩

theorem wires_loads : loadInputs (fun p => wiresFiles (locate ["home".toList] p))
    (fun p => wiresMeshAt (locate ["home".toList] p)) "cases/wires.json".toList =
      .ok (wires, { solverOptions := { order := 2 } }) := by
  have h : readJSON (fun p => wiresFiles (locate ["home".toList] p)) "cases/wires.json".toList = .ok (.obj wiresFields) := by
    have e : wiresFiles (locate ["home".toList] "cases/wires.json".toList) = some (some (.obj wiresFields)) := by
      rw [show locate ["home".toList] "cases/wires.json".toList = ["home".toList, "cases".toList, "wires.json".toList] from by
        decide +kernel]
      rfl
    unfold readJSON
    simp only [e]
  have h1 : readModel (fun p => wiresMeshAt (locate ["home".toList] p)) "cases/wires.json".toList (.obj wiresFields) =
      .ok wires := by
    have hl : wiresMeshAt (locate ["home".toList] (meshFilename "cases/wires.json".toList "wires.msh".toList)) =
        .ok wires.mesh := by
      rw [show locate ["home".toList] (meshFilename "cases/wires.json".toList "wires.msh".toList) =
        ["home".toList, "cases".toList, "wires.msh".toList] from by decide +kernel]
      rfl
    have hm : readMaterials (.obj [
      ("Conductor_1", .obj [("area", .num 1000000), ("tag", .int 2), ("type", .str "PEC")]),
    ("OpenBoundary_0", .obj [("tag", .int 3), ("type", .str "OpenBoundary")]),
    ("Shield_0", .obj [("area", .num 1000000), ("tag", .int 1), ("type", .str "PEC")]),
    ("Vacuum_0", .obj [("tag", .int 1), ("type", .str "Vacuum")]),
    ("Wax_1", .obj [("eps_r", .num 2), ("tag", .int 2), ("type", .str "Dielectric")])] : Json ℚ) =
        .ok wires.materials := by
      simp [readMaterials, Json.items, Json.at_, SMap.find?, Outcome.ofOption, Json.getString,
        readMaterialsLoop, readMaterial, materialTypeOfLabel, Json.getInt, Json.wrap32, Json.valueDouble, Json.getDouble,
        wires]
      norm_num
    have step : ∀ {load : List Char → Outcome (Mesh ℚ)} {f : List Char} {doc j mj : Json ℚ} {g : String} {mesh : Mesh ℚ}
        {mats : Materials ℚ}, doc.at_ "model" = .ok j → j.at_ "gmshFile" = .ok (.str g) →
        load (meshFilename f g.toList) = .ok mesh → j.at_ "materials" = .ok mj → readMaterials mj = .ok mats →
        readModel load f doc = .ok (Model.make mesh mats) := by
      intro load f doc j mj g mesh mats e1 e2 e3 e4 e5
      unfold readModel
      rw [e1, Outcome.ok_bind, e2, Outcome.ok_bind, show (Json.str g : Json ℚ).getString = .ok g from rfl,
        Outcome.ok_bind, e3, Outcome.ok_bind, e4, Outcome.ok_bind, e5, Outcome.ok_bind]
    rw [step (mesh := wires.mesh) (mats := wires.materials) (g := "wires.msh") rfl rfl hl rfl hm]
    have : filterOutMaterialsNotPresentInMesh wires.materials wires.mesh = wires.materials := by decide +kernel
    unfold Model.make
    rw [this]
    rfl
  have h2 : readDriverOptions (.obj wiresFields) = .ok { solverOptions := { order := 2 } } := by
    simp [readDriverOptions, wiresFields, Json.at_, SMap.find?, Outcome.ofOption, setIfExistsInt, setIfExistsBool,
      setIfExistsString, Json.find, Json.getString, Json.getInt, Json.wrap32]
  unfold loadInputs
  rw [h, Outcome.ok_bind, h1, Outcome.ok_bind, h2, Outcome.ok_bind]

theorem wires_described :
    DescribesModel wiresMeshAt (locate ["home".toList] "cases/wires.json".toList).dropLast wiresFields wires ∧
    DescribesOptions wiresFields { solverOptions := { order := 2 } } := by
  have hl : locate ["home".toList] "cases/wires.json".toList = ["home".toList, "cases".toList, "wires.json".toList] := by
    decide +kernel
  have hfile : wiresFiles (locate ["home".toList] "cases/wires.json".toList) = some (some (.obj wiresFields)) := by
    rw [hl]; rfl
  exact ((C78_input wiresFiles wiresMeshAt ["home".toList] (f := "cases/wires.json".toList)
    (name := "wires.json".toList) (by decide +kernel) (Or.inr ⟨"cases".toList, by decide +kernel⟩) (by decide +kernel)
    (by decide +kernel) (by decide +kernel) hfile wires_regular).1 wires _).mp wires_loads

/-- The hypotheses are met by the file `cases/wires.json` read from `home`. -/
example : ∃ (path : String) (j : Json ℚ) (p : InCellPotentials ℚ) (rs : Bool → Fin 2 → FieldReconstruction ℚ),
    jsonFiles (mainProgram lineEngine (fun p => wiresFiles (locate ["home".toList] p))
      (fun p => wiresMeshAt (locate ["home".toList] p)) ⟨false, some "cases/wires.json".toList⟩).2 = [(path, j)] ∧
    locate ["home".toList] path.toList = ["home".toList, "cases".toList, "inCellPotentials.out.json".toList] ∧
    InCellPotentials.ofJSON j = .ok p ∧ p.electric = [(0, rs false 0), (1, rs false 1)] ∧
    p.magnetic = [(0, rs true 0), (1, rs true 1)] ∧
    ∀ b i, InCellEntry lineAnalytic line wires b 5 wiresPs i (rs b i) := by
  have hl : locate ["home".toList] "cases/wires.json".toList = ["home".toList, "cases".toList, "wires.json".toList] := by
    decide +kernel
  have hfile : wiresFiles (locate ["home".toList] "cases/wires.json".toList) = some (some (.obj wiresFields)) := by
    rw [hl]; rfl
  obtain ⟨hm, ho⟩ := wires_described
  obtain ⟨path, j, p, rs, _, h1, h2, h3, h4, h5, h6, -⟩ := C78_open_program lineEngine wiresFiles wiresMeshAt
    ["home".toList] (f := "cases/wires.json".toList) (name := "wires.json".toList)
    (by decide +kernel) (Or.inr ⟨"cases".toList, by decide +kernel⟩) (by decide +kernel) (by decide +kernel)
    (by decide +kernel) hfile wires_regular hm ho wires_numbering (by decide +kernel) wires_open
    (wires_buildable _) wires_declared inverseSolver_exact wires_elliptic wires_separate wires_conservative wires_balanced
    line_onePiece line_absorbing wires_distinct wires_setting lineAnalytic_first (m := 5) rfl
  exact ⟨path, j, p, rs, h1, h2.trans (by rw [hl]; rfl), h3, h4, h5, h6⟩

end Tulip.Props
